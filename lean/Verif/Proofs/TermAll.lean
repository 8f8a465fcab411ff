import Verif.Proofs.TermShort

/-!
# `shorten` returns

The first state is good, the rounds return (`rounds_total`), the result is put together and is short. The calls that `shorten` makes to itself are for laminations which have weights at
most 4 and no curves, and such a call makes no more calls, so the depth of the recursion is one.
-/

namespace Curver
open Triangulation

namespace Lam
variable {P : Lam Int → Py LamClass} {dflt slow : Int → Int → Bool} {L : Lam Int}

theorem shortenAll_total (hL : L.Consistent) (hr : Ready' P dflt slow L) : ∃ r N, ∀ n, N ≤ n → shortenAll P dflt n slow L = .ok r := by
  obtain ⟨per₀, p1, p2, p3, p4, -⟩ := peripheral_ok P hL
  obtain ⟨pc, -, -⟩ := peripheral_right hL p1
  obtain ⟨N₀, n1⟩ := C42_non_peripheral_exists P L hL
  obtain ⟨c1, c2, c3⟩ := C42_decomposition P L hL false per₀ N₀ p1 n1
  have hm := isMult_mu hL
  obtain ⟨-, -, g6⟩ := hm.remove (N := N₀) hL c1 (by rw [c2.1.2, c1, hL.1.2]) (fun e he => by rw [c3 e he, p4 e he]; ring)
  obtain ⟨i, i1, i2, i3, i4, i5, i6, -⟩ := hL.1.1.idEncoding_spec
  have hready : Ready' P dflt slow N₀ := by
    rcases hr with q | ⟨q1, q2⟩
    · exact .inl q
    · refine .inr ⟨?_, ?_⟩
      · rcases q1 with q | q
        · exact .inl q
        · refine .inr ?_
          intro x hx
          rw [c1] at hx
          have a := c3 x hx
          have b := q x hx
          have c := hm.nonneg x hx
          have d := hm.nonneg (Curver.inv x) (isLabel_inv.2 hx)
          rw [p4 x hx] at a
          omega
      · obtain ⟨Xs, M', m1, m2, m3, -, m5⟩ := hL.peels
        refine (OnlyArcs.peels m1 q2 hL).same (same_of_w m3.1 c2.1 (m2.trans c1.symm) (fun x hx => ?_))
        rw [m2] at hx
        have a := c3 x hx
        rw [p4 x hx] at a
        rw [m5 x hx]
        omega
  have G : RGood P dflt slow L.tri.zeta ⟨N₀, per₀, i, [], [], true⟩ :=
    ⟨c2, pc, p2.trans c1.symm, i2, i5.trans c1.symm, by rw [c1], (nonPer_iff c2).2 g6, (fun q => by cases q), hready⟩
  obtain ⟨st, n, hst⟩ := rounds_total N₀.crossed N₀.size _ G rfl rfl
  have hS := shortenAll_good (P := P) dflt n dflt
  have h4 := hst n n le_rfl le_rfl
  obtain ⟨l, N, K, I', e2, k1, k3, hNt, hNc, hz, hr1, hr2, hpa, a3, hpl, q4, hKw⟩ := rounds_end hS hL.1 p1 n1 i1 h4
  have hpc : st.peripheral.Consistent := pc.enc I'.legal I'.per
  obtain ⟨short, s1⟩ := rebuild_total (P := P) hNc e2 hpc (a3.trans hNt.symm) hpa
  have h5 : rebuild P st.lam.tri st.peripheral st.arcs st.curves = .ok short := by
    rw [e2.tri, hr1, hr2]; exact s1
  have core := shortenStep_core hS hL.1 p1 n1 i1 h4 h5
  obtain ⟨hc, hd⟩ := core.2.right hL
  have hst' := core.2.stripped
  obtain ⟨D, d1, -, d3⟩ := chain_unions hNc e2 hz
  obtain ⟨K', j1, j2, j3⟩ := core.1.1.acts
  cases k3.symm.trans j1
  have hmu : ∀ x, short.tri.IsLabel x → short.mu x = K.mu x := by
    intro x hx
    rw [← j2] at hx
    have a := isMult_mu hc
    have e : short = ⟨K.tri, K.geometric, short.cls⟩ := by rw [j2, j3]
    refine IsMult.unique (L := K) ?_ (isMult_mu k1) k1.1.1.comp hx
    generalize short.mu = f at a
    rw [e] at a
    exact ⟨a.1, a.2, a.3, a.4⟩
  have hfin : short.isShort P = .ok true := by
    refine isShort_true hc hNc (hNt.trans j2) ?_ d1 ?_ hst' hd
    · intro x hx
      have hx' : K.tri.IsLabel x := by rw [j2]; exact hx
      rw [hmu x hx, hmu _ (isLabel_inv.2 hx), ← w_congr j3, hKw x hx', q4 x hx']
    · intro Y hY
      rw [d3] at hY
      obtain ⟨p, hp, hY⟩ := List.mem_flatMap.1 hY
      obtain ⟨j, hj, rfl⟩ := List.mem_map.1 hp
      rw [List.eq_of_mem_replicate hY]
      exact (e2.plain hj).1
  refine ⟨(short, st.conjugator), n + 1, ?_⟩
  intro m hm
  obtain ⟨m, rfl⟩ : ∃ k, m = k + 1 := ⟨m - 1, by omega⟩
  unfold shortenAll shortenStep
  rw [p1, py_bind_ok, n1, py_bind_ok, i1, py_bind_ok, hst m m (by omega) (by omega), py_bind_ok, h5, py_bind_ok, hfin, py_bind_ok]
  rfl

theorem calls (P : Lam Int → Py LamClass) (dflt : Int → Int → Bool) : Calls P dflt := fun _ hM hw ho => shortenAll_total hM (.inr ⟨.inr hw, ho⟩)

/-- `shorten` returns, when it does not accelerate -/
theorem shorten_returns (hL : L.Consistent) (hs : ∀ w w', slow w w' = false) : ∃ r N, ∀ n, N ≤ n → shortenAll P dflt n slow L = .ok r :=
  shortenAll_total hL (.inl ⟨calls P dflt, hs⟩)

end Lam
end Curver
