import Verif.Proofs.TermArc
import Verif.Proofs.TwistAct

/-!
# The rounds of `shorten` come to an end

Each round either lowers the number of edges that the lamination crosses or takes away something.
-/

namespace Curver
open Triangulation

namespace Lam
variable {P : Lam Int → Py LamClass} {slow dflt : Int → Int → Bool} {L N : Lam Int}

/-- what the flips preserve -/
theorem flipRounds_keeps {S : Lam Int → Py (Lam Int × Enc)} (hS : Good S) {zeta : Nat} {ub : Int} {Q : Lam Int → Prop}
    (hQ : ∀ (K K' : Lam Int) (h : Enc), K.Consistent → Q K → h.Legal → K.tri = h.source → h.applyLam K = .ok K' → Q K') : ∀ (n : Nat) {st st' : FlipState}, st.lam.Consistent →
    Q st.lam → flipRounds S P slow zeta ub n st = .ok st' → Q st'.lam
  | 0, _, _, _, _, h => by cases h
  | n + 1, st, st', hC, hq, h => by
    rw [flipRounds, py_bind_eq_ok] at h
    obtain ⟨⟨edge, key⟩, h1, h⟩ := h
    obtain ⟨-, hkey⟩ := maximumM_spec h1
    dsimp only at h hkey
    split at h
    · cases h; exact hq
    · next hk =>
      generalize turns st.extra edge st.turnLeft st.turnRight = lr at h
      obtain ⟨a, b⟩ := lr
      simp only [py_bind_eq_ok] at h
      obtain ⟨s, h2, m, h3, flip, h4, ⟨move, a', b', extra⟩, h5, conj, h6, lam, h7, per, h8, h9⟩ := h
      obtain ⟨T, q1, -⟩ := hC.1.1.encodeFlip_ok_iff.1 h3
      have hpos := shortenStrategy_pos hC.1 q1 hkey hk
      have hfine := chooseMove_fine hS hC.1 q1.1 (flip_fine hC.1 hpos h3 h4) h5
      obtain ⟨⟨K, k1, k2⟩, k3⟩ := hfine.legal.applyLam_total ⟨st.lam, hC, hfine.source.symm⟩
      dsimp only at k3
      cases h7.symm.trans k3
      exact flipRounds_keeps hS hQ n (st := ⟨lam, per, conj, a', b', extra⟩) k1 (hQ _ _ _ hC hq hfine.legal hfine.source.symm h7) h9

theorem pyAnyM_total {α : Type} {f : α → Py Bool} : ∀ {l : List α}, (∀ x ∈ l, ∃ b, f x = .ok b) → ∃ b, pyAnyM f l = .ok b ∧ (b = false → ∀ x ∈ l, f x = .ok false)
  | [], _ => ⟨false, rfl, by simp⟩
  | x :: l, h => by
    obtain ⟨b, hb⟩ := h x (by simp)
    obtain ⟨b', k1, k2⟩ := pyAnyM_total (l := l) (fun y hy => h y (by simp [hy]))
    unfold pyAnyM
    rw [hb, py_bind_ok]
    cases b with
    | true => exact ⟨true, rfl, by simp⟩
    | false =>
      refine ⟨b', k1, ?_⟩
      intro q y hy
      rcases List.mem_cons.1 hy with rfl | hy
      · exact hb
      · exact k2 q y hy

theorem Consistent.stillArcs (hL : L.Consistent) {b : Bool} (hb : b = false → L.NoArcs) : ∃ b', stillArcs b L = .ok b' ∧ (b' = false → L.NoArcs) := by
  unfold Lam.stillArcs
  cases b with
  | false => exact ⟨false, rfl, hb⟩
  | true =>
    simp only [if_true]
    unfold hasArcs
    have key : ∀ x ∈ L.tri.labels, ∃ b', (do
        let y ← L.wt x
        if y < 0 then return true
        else do
          let d ← L.dualWeight x
          return decide (d < 0) : Py Bool) = .ok b' ∧ (b' = false → 0 ≤ L.w x ∧ ∃ d, L.dualWeight x = .ok d ∧ 0 ≤ d) := by
      intro x hx
      rw [mem_labels] at hx
      obtain ⟨d, hd⟩ := hL.2 x hx
      rw [wt_eq hL.1.2 hx, py_bind_ok]
      split_ifs with h0
      · exact ⟨true, rfl, by simp⟩
      · rw [hd, py_bind_ok]
        refine ⟨_, rfl, ?_⟩
        intro q
        have := of_decide_eq_false q
        exact ⟨by omega, d, rfl, by omega⟩
    obtain ⟨b', k1, k2⟩ := pyAnyM_total (l := L.tri.labels) (fun x hx => (key x hx).imp (fun _ h => h.1))
    refine ⟨b', k1, ?_⟩
    intro q
    refine ⟨hL.1, ?_⟩
    intro x hx
    obtain ⟨b2, e1, e2⟩ := key x (mem_labels.2 hx)
    have := k2 q x (mem_labels.2 hx)
    cases this.symm.trans e1
    obtain ⟨q1, d, q2, q3⟩ := e2 rfl
    exact ⟨q1, d, q3, q2⟩

theorem Quiet.less (h : Quiet slow L) (hl : Less L N) : Quiet slow N := by
  rcases h with h | h
  · exact .inl h
  · refine .inr (fun x hx => ?_)
    rw [hl.tri] at hx
    have := h x hx
    have := hl.w x hx
    omega

/-- the recursive calls -/
def Calls (P : Lam Int → Py LamClass) (dflt : Int → Int → Bool) : Prop := ∀ M : Lam Int, M.Consistent → (∀ x, M.tri.IsLabel x → M.w x ≤ 4) → M.OnlyArcs →
  ∃ r N, ∀ n, N ≤ n → shortenAll P dflt n dflt M = .ok r

/-- there is no need for a recursive call, or they all return -/
def Ready' (P : Lam Int → Py LamClass) (dflt slow : Int → Int → Bool) (L : Lam Int) : Prop := (Calls P dflt ∧ ∀ w w', slow w w' = false) ∨ (Quiet slow L ∧ L.OnlyArcs)

theorem Ready'.quiet (h : Ready' P dflt slow L) : Quiet slow L := by
  rcases h with h | h
  · exact .inl h.2
  · exact h.1

/-- the state before a round -/
structure RGood (P : Lam Int → Py LamClass) (dflt slow : Int → Int → Bool) (z : Nat) (st : RoundState) : Prop where
  lam : st.lam.Consistent
  per : st.peripheral.Consistent
  tri : st.peripheral.tri = st.lam.tri
  legal : st.conjugator.Legal
  target : st.conjugator.target = st.lam.tri
  zeta : st.lam.tri.zeta = z
  nonPer : st.lam.NonPer
  arcs : st.hasArcs = false → st.lam.NoArcs
  ready : Ready' P dflt slow st.lam

theorem never_good : Good (fun _ => .error .valueError) := by
  intro M s h _ q; cases q

theorem rounds_total {z : Nat} : ∀ (c m : Nat) (st : RoundState), RGood P dflt slow z st → st.lam.crossed = c → st.lam.size = m →
    ∃ st' N, ∀ fuel n, N ≤ fuel → N ≤ n → rounds (shortenAll P dflt fuel dflt) P slow z fuel n st = .ok st' := by
  intro c
  induction c using Nat.strong_induction_on with
  | _ c ihc =>
  intro m
  induction m using Nat.strong_induction_on with
  | _ m ihm =>
  intro st G hc hm
  obtain ⟨⟨g', arcs', curves'⟩, h1⟩ := G.lam.subtractFrom_total st.arcs st.curves
  obtain ⟨l, c1, -, -, c4⟩ := subtractFrom_chain G.lam.1 h1
  have c1' := Chain.congr_right (M := ⟨st.lam.tri, g', st.lam.cls⟩) (M' := ⟨st.lam.tri, g', .integral⟩) rfl rfl c1
  obtain ⟨hless, hsz⟩ := c1'.less G.lam
  by_cases hemp : (⟨st.lam.tri, g', .integral⟩ : Lam Int).isEmpty = true
  · refine ⟨{ st with lam := ⟨st.lam.tri, g', .integral⟩, arcs := arcs', curves := curves' }, 1, ?_⟩
    intro fuel n _ hn
    obtain ⟨n, rfl⟩ : ∃ k, n = k + 1 := ⟨n - 1, by omega⟩
    rw [rounds, h1, py_bind_ok]
    dsimp only
    rw [if_pos hemp]
    rfl
  generalize hl1 : (⟨st.lam.tri, g', .integral⟩ : Lam Int) = lam1 at hless hsz hemp c1'
  obtain ⟨b, b1, b2⟩ := hless.cons.stillArcs (b := st.hasArcs) (fun q => hless.noArcs (G.arcs q))
  have hcr := hless.crossed
  have hpos : 0 < lam1.tri.zeta := by
    by_contra q
    refine hemp ((Lam.all_zero_iff hless.cons.1).2 ?_)
    intro x hx
    unfold Triangulation.IsLabel at hx
    omega
  have hFG : FGood ⟨lam1, st.peripheral, st.conjugator, 0, 0, []⟩ :=
    ⟨hless.cons, G.per, G.tri.trans hless.tri.symm, G.legal, G.target.trans hless.tri.symm, by simp, hpos⟩
  obtain ⟨f, N1, F, f1⟩ := flipRounds_total (P := P) (ub := if b then 2 else 1) hFG (G.ready.quiet.less hless) (by
    cases b with
    | true => exact .inl rfl
    | false => exact .inr ⟨rfl, (b2 rfl).noNeg⟩)
  dsimp only at f1
  have hz1 : lam1.tri.zeta = z := by rw [hless.tri]; exact G.zeta
  rw [hz1] at f1
  have hNP : f.lam.NonPer := by
    refine flipRounds_keeps never_good (Q := NonPer) ?_ N1 (st := ⟨lam1, st.peripheral, st.conjugator, 0, 0, []⟩) hless.cons (G.nonPer.less hless) (f1 _ N1 le_rfl)
    intro K K' h k1 k2 k3 k4 k5
    exact k2.enc k1 k3 k4 k5
  have hNA : b = false → f.lam.NoArcs := by
    intro q
    refine flipRounds_keeps never_good (Q := NoArcs) ?_ N1 (st := ⟨lam1, st.peripheral, st.conjugator, 0, 0, []⟩) hless.cons (b2 q) (f1 _ N1 le_rfl)
    intro K K' h k1 k2 k3 k4 k5
    exact k3.noArcs k2 k5
  have hS : f.lam.Smooth := ⟨F.good.lam, F.done⟩
  have hfc : f.lam.crossed ≤ c := by
    rcases F.dec with ⟨d1, d2⟩ | d
    · rw [d2]; dsimp only; omega
    · dsimp only at d
      omega
  have hR : Ready' P dflt slow f.lam := by
    rcases G.ready with q | ⟨q1, q2⟩
    · exact .inl q
    · refine .inr ⟨F.quiet, ?_⟩
      refine flipRounds_keeps never_good (Q := OnlyArcs) ?_ N1 (st := ⟨lam1, st.peripheral, st.conjugator, 0, 0, []⟩) hless.cons (OnlyArcs.chain c1' q2 G.lam) (f1 _ N1 le_rfl)
      intro K K' h k1 k2 k3 k4 k5
      exact k2.enc k1 k3 k5
  obtain ⟨s, N2, s1, s2⟩ := hS.cutSequence
  -- the rest of the round
  have next : ∀ (f' : FlipState) (N3 : Nat), (∀ fuel, N3 ≤ fuel → cutAlong (shortenAll P dflt fuel dflt) s f = .ok f') →
      (∃ st' N, ∀ fuel n, N ≤ fuel → N ≤ n → rounds (shortenAll P dflt fuel dflt) P slow z fuel n ⟨f'.lam, f'.peripheral, f'.conjugator, arcs', curves', b⟩ = .ok st') →
      ∃ st' N, ∀ fuel n, N ≤ fuel → N ≤ n → rounds (shortenAll P dflt fuel dflt) P slow z fuel n st = .ok st' := by
    rintro f' N3 k1 ⟨st', N4, k2⟩
    refine ⟨st', N1 + N2 + N3 + N4 + 1, ?_⟩
    intro fuel n hf hn
    obtain ⟨n, rfl⟩ : ∃ k, n = k + 1 := ⟨n - 1, by omega⟩
    rw [rounds, h1, py_bind_ok]
    dsimp only
    rw [hl1, if_neg hemp, b1, py_bind_ok, f1 _ fuel (by omega), py_bind_ok, hS.noBipods, py_bind_ok, s2 fuel (by omega), py_bind_ok, k1 fuel (by omega), py_bind_ok]
    exact k2 fuel n (by omega) (by omega)
  have hfz : f.lam.tri.zeta = z := by rw [F.zeta]; exact hz1
  by_cases hs : s = []
  · subst hs
    refine next f 0 (fun fuel _ => rfl) ?_
    have G' : RGood P dflt slow z ⟨f.lam, f.peripheral, f.conjugator, arcs', curves', b⟩ :=
      ⟨F.good.lam, F.good.per, F.good.tri, F.good.legal, F.good.target, hfz, hNP, hNA, hR⟩
    rcases F.dec with ⟨d1, d2⟩ | d
    · have hfl : f.lam = lam1 := by rw [d2]
      by_cases hcc : f.lam.crossed < c
      · exact ihc _ hcc _ _ G' rfl rfl
      · refine ihm f.lam.size ?_ _ G' (by dsimp only; omega) rfl
        rw [hfl, ← hm]
        refine hsz ?_
        intro hl
        subst hl
        -- nothing was taken away
        obtain ⟨t1, t2⟩ := c1'
        obtain ⟨comps, hcomps⟩ := G.lam.parallelComponents_total
        have hcomps' : lam1.parallelComponents = .ok comps := by
          rw [← hcomps, ← hl1]
          have : g' = st.lam.geometric := by rw [← t2, ← hl1]
          rw [this]
          rfl
        obtain ⟨p, p1, p2⟩ := (hfl ▸ hS).progress (hfl ▸ s1) (hfl ▸ hNP) (fun q => hemp ((Lam.all_zero_iff hless.cons.1).2 (by
          intro x hx; exact q x hx))) hcomps'
        refine c4 comps hcomps p p1 ?_ rfl
        rw [← w_congr t2]
        exact p2
    · dsimp only at d
      exact ihc f.lam.crossed (by omega) _ _ G' rfl rfl
  · have hA : Calls P dflt ∧ ∀ w w', slow w w' = false := by
      rcases hR with q | ⟨-, q⟩
      · exact q
      · obtain ⟨x, hx⟩ := List.exists_mem_of_ne_nil _ hs
        have := s1.dom x hx
        have := q.nonpos hS x this.1
        have := (s1.dom x hx).2
        omega
    have hz' : ∀ x, f.lam.tri.IsLabel x → (f.lam.cutLam s).w x ≤ 4 := by
      intro x hx
      rw [cutLam_w s1.nodup hx]
      have := ind_range s x
      have := ind_range s (Curver.inv x)
      omega
    obtain ⟨⟨K, h⟩, N3, k⟩ := hA.1 (f.lam.cutLam s) (s1.consistent hS) hz' (s1.onlyArcs hS)
    have hwf := (s1.consistent hS).1
    have sp := shortenAll_spec hwf (k N3 le_rfl)
    have ss := shortenAll_stripped hwf (k N3 le_rfl)
    have hsrc : h.source = f.lam.tri := sp.1.source
    obtain ⟨⟨L1, l1, l2⟩, l3⟩ := sp.1.legal.applyLam_total ⟨f.lam, F.good.lam, hsrc.symm⟩
    dsimp only at l3
    obtain ⟨⟨p1, q1, q2⟩, q3⟩ := sp.1.legal.applyLam_total ⟨f.peripheral, F.good.per, by rw [hsrc]; exact F.good.tri⟩
    dsimp only at q3
    have hfin : h.source = f.conjugator.target := hsrc.trans F.good.target.symm
    obtain ⟨g, g1⟩ : ∃ g, h.mul f.conjugator = .ok g := ⟨_, Enc.mul_eq sp.1.legal F.good.legal hfin⟩
    obtain ⟨m1, m2, m3, m4, -⟩ := Enc.mul_ok sp.1.legal F.good.legal g1
    have hlt := s1.crossed hS hs sp.1 ss l3
    refine next { f with lam := L1, peripheral := p1, conjugator := g } N3 ?_ ?_
    · intro fuel hf
      unfold cutAlong
      rw [if_neg (by simpa using hs)]
      change ((shortenAll P dflt fuel dflt (f.lam.cutLam s)) >>= _) = _
      rw [k fuel hf, py_bind_ok]
      dsimp only
      rw [g1, py_bind_ok, l3, py_bind_ok, q3, py_bind_ok]
      rfl
    · refine ihc L1.crossed (by omega) _ _ ⟨l1, q1, q2.trans l2.symm, m1, ?_, ?_, ?_, ?_, ?_⟩ rfl rfl
      · rw [m2.target]; exact l2.symm
      · change L1.tri.zeta = z
        rw [l2, sp.1.legal.path.zeta, hsrc]; exact hfz
      · exact hNP.enc F.good.lam sp.1.legal hsrc.symm l3
      · intro q; exact sp.1.legal.noArcs (hNA q) l3
      · exact .inl hA

end Lam
end Curver
