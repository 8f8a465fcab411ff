import Verif.Proofs.MultiHalf

/-!
# Twists fix what is disjoint from the curve
-/

namespace Curver
open Triangulation

namespace Lam
variable {P : Lam Int → Py LamClass} {dflt : Int → Int → Bool} {fuel : Nat} {L M N S c s : Lam Int} {T : Triangulation} {a b e : Int} {X v : List Int} {k n : Int}

/-- `M` does not meet the curve `c`: it can be drawn beside it, or `c` is one of its parts -/
def Beside (c M : Lam Int) : Prop := c.DisjointFrom M ∨ ∃ N, M.IsUnion c N

theorem Belt.same (h : L.Belt a b e X k n) (hs : Same L M) : M.Belt a b e X k n := by
  obtain ⟨t, g, x⟩ := L
  obtain ⟨t', g', x'⟩ := M
  obtain ⟨rfl, rfl⟩ := hs
  exact ⟨h.con.same rfl rfl, h.loop, h.first, h.last, h.nonneg, h.room⟩

theorem Belt.flat (h : L.Belt a b e X k 0) (hL : L.NoArcs) (ht : L.tri = T) (M : LamOn Int T) (hM : M.1 = L) : Loop.IsMin a X M (L.w a) := by
  subst ht
  have hN : M.1.NoArcs := by rw [hM]; exact hL
  have c := fun x (hx : x ∈ a :: X) => (h.loop.lf_cor hN (h.loop.label_mem hx)).2.1
  rw [hM] at c
  have h1 := (h.loop.cor_ab M).1
  have h2 := c a (by simp)
  have h3 := c b (by simp [h.loop.b_mem])
  rw [hM] at h1
  rw [h.first] at h2
  rw [h.last] at h3
  refine ⟨fun x hx => ?_, a, by simp, by linarith⟩
  rw [← c x hx]
  rcases List.mem_cons.1 hx with rfl | hx
  · rw [h.first]; linarith
  · by_cases q : x = b
    · rw [q, h.last]; linarith
    · have := h.room x hx q
      linarith

/-- a part lies flat along the whole -/
theorem Beside.flat (h : (L.tri.curveFromCutSequence X : Lam Int).Beside L) (hL : L.NoArcs) (hl : Loop L.tri a b e X) : ∃ k, L.Belt a b e X k 0 := by
  rcases h with ⟨S, hS, hu⟩ | ⟨N, hu⟩
  · have w := hu.wf
    obtain ⟨k, hk⟩ := belt_of_part (f := a) (β := b) (η := e) (X := X) (N := L) hS (w.2.2.2 ▸ hl) (w.2.2.2 ▸ hu)
    obtain ⟨N, n1, n2⟩ := hk.union (by omega)
    have w' := n1.wf
    have hs : Same N L := by
      refine same_of_w w'.2.1 hL.1 (w'.2.2.2.trans w.2.2.2.symm) (fun x hx => ?_)
      rw [w'.2.2.2] at hx
      have h1 := n1.sum hS.1 hx
      have h2 := hu.sum hS.1 hx
      rw [w.2.2.2] at h2
      omega
    exact ⟨k, by have := n2.same hs; simpa using this⟩
  · obtain ⟨k, hk⟩ := belt_of_part (noArcs_iff.1 hL).1 hl hu
    exact ⟨k, hk.con, hk.loop, hk.first, hk.last, hk.nonneg, fun x hx q => by have := hk.room x hx q; omega⟩

/-- twists about a short curve fix what lies beside it -/
theorem twist_beside (hs : s.NoArcs) {p : Int} {t : Twist} {g : Enc} (ht : Twist.create P s p = .ok t) (hg : t.flipMapping = .ok g) (hM : M.NoArcs) (htri : M.tri = s.tri) (hb : s.Beside M) : g.applyLam M = .ok M := by
  obtain ⟨r1, r2, a, b, e, X, v, K, hm⟩ := Twist.create_spec hs ht
  subst r1
  obtain ⟨σ, h1, h2⟩ := hm.action (R := Int)
  obtain ⟨k', k1, k2⟩ := h1.pow p
  unfold Twist.flipMapping at hg
  rw [r2] at hg
  cases hg.symm.trans k1
  have hl := hm.short.loop
  obtain ⟨M', hM'⟩ := hM.on htri
  have e : Same t.curve (M.tri.curveFromCutSequence X) := ⟨htri.symm, by rw [hm.short.cut, htri]; rfl⟩
  have hb' : (M.tri.curveFromCutSequence X : Lam Int).Beside M := by
    rcases hb with q | ⟨N, q⟩
    · exact .inl (q.same e .refl)
    · exact .inr ⟨N, q.same q.wf.1 q.wf.2.1 .refl e .refl⟩
  rw [← htri] at hl
  obtain ⟨k, hk⟩ := hb'.flat hM hl
  have hfix : σ M' = M' := by
    refine hm.short.loop.disjoint h2 (by rw [hM']; exact hM) (hk.flat hM htri M' hM') ?_
    rw [hM', sub_self]
  have := k2 M'
  rw [Function.IsFixedPt.perm_zpow hfix p] at this
  rwa [hM'] at this

/-- the twists about the components fix what lies beside each of them -/
theorem componentTwists_beside {power : Int} : ∀ {comps : List (Lam Int × Int)} {hs : List Enc}, (∀ p ∈ comps, p.1.tri = T ∧ p.1.NoArcs) → componentTwists P power comps = .ok hs →
    ∀ h ∈ hs, h.Holds T (fun M : Lam Int => M.NoArcs ∧ M.tri = T ∧ ∀ p ∈ comps, p.1.Beside M)
  | [], hs, _, h => by cases h; simp
  | (c, n) :: l, hs, hc, h => by
    simp only [componentTwists, py_bind_eq_ok] at h
    obtain ⟨p, h1, h⟩ := h
    have ih := @componentTwists_beside power l
    have sub : ∀ {h : Enc}, h.Holds T (fun M : Lam Int => M.NoArcs ∧ M.tri = T ∧ ∀ p ∈ l, p.1.Beside M) → h.Holds T (fun M : Lam Int => M.NoArcs ∧ M.tri = T ∧ ∀ p ∈ (c, n) :: l, p.1.Beside M) := fun h =>
      ⟨h.legal, h.source, h.target, h.kind, fun X hX => h.fixes X ⟨hX.1, hX.2.1, fun p hp => hX.2.2 p (by simp [hp])⟩⟩
    split at h
    · exact fun g hg => sub (ih (fun p hp => hc p (by simp [hp])) h g hg)
    · simp only [py_bind_eq_ok] at h
      obtain ⟨t, h2, k, h3, ks, h4, h5⟩ := h
      cases h5
      obtain ⟨q1, q2⟩ := hc (c, n) (by simp)
      obtain ⟨r1, r2, a, b, e, X, v, K, hm⟩ := Twist.create_spec q2 h2
      obtain ⟨j1, j2, j3, j4, j5⟩ := hm.mapping h3
      rw [r1] at j2 j3
      dsimp only at q1
      intro g hg
      rcases List.mem_cons.1 hg with rfl | hg
      · exact ⟨j1, j2.trans q1, j3.trans q1, j4, fun M hM => twist_beside q2 h2 h3 hM.1 (hM.2.1.trans q1.symm) (hM.2.2 (c, n) (by simp))⟩
      · exact sub (ih (fun p hp => hc p (by simp [hp])) h4 g hg)

theorem DisjointFrom.right (h : L.DisjointFrom M) (hu : L.IsUnion c N) : c.DisjointFrom M := (h.symm.left hu).symm

theorem Beside.same {c' M' : Lam Int} (h : c.Beside M) (e1 : Same c c') (e2 : Same M M') : c'.Beside M' := by
  rcases h with q | ⟨N, q⟩
  · exact .inl (q.same e1 e2)
  · exact .inr ⟨N, q.same q.wf.1 q.wf.2.1 e2 e1 .refl⟩

theorem Beside.enc {g : Enc} {c' M' : Lam Int} (h : c.Beside M) (hg : g.Legal) (h1 : g.applyLam c = .ok c') (h2 : g.applyLam M = .ok M') (hM : M.Consistent) : c'.Beside M' := by
  rcases h with q | ⟨N, q⟩
  · obtain ⟨X', x1, x2⟩ := q.enc hg (Enc.applyLam_source h2).symm h2
    rw [h1] at x1; cases x1
    exact .inl x2
  · obtain ⟨X', Y', x1, x2, x3⟩ := q.enc hM hg h2
    rw [h1] at x1; cases x1
    exact .inr ⟨_, x3⟩

/-- `encode_twist` fixes what lies beside each component -/
theorem encodeTwist_beside (hc : c.NoArcs) {power : Int} {h : Enc} (ha : c.encodeTwist P dflt fuel power = .ok h) (hM : M.NoArcs) (htri : M.tri = c.tri)
    (hb : ∀ X, c.HasPart X → X.Beside M) : h.applyLam M = .ok M := by
  have hC := (noArcs_iff.1 hc).1
  unfold encodeTwist encodeTwistWith at ha
  rw [py_bind_eq_ok] at ha
  obtain ⟨p, h1, ha⟩ := ha
  by_cases hq : p = true ∨ power = 0
  · rw [if_pos hq] at ha
    obtain ⟨j, j1, -, -, -, -, j2, -⟩ := C14_identity c.tri hc.1.1
    cases ha.symm.trans j1
    exact j2 Int M hM.1 htri
  · rw [if_neg hq] at ha
    simp only [py_bind_eq_ok] at ha
    obtain ⟨⟨s, g⟩, h2, comps, h3, hs, h4, start, h5, k, h6, h7⟩ := ha
    dsimp only at h3 h4 h5 h6 h7
    obtain ⟨H, -⟩ := shortenAll_spec hc.1 h2
    have hsn := H.noArcs hc
    have hS := (noArcs_iff.1 hsn).1
    obtain ⟨l, -, -, -, K, k1, k2, k3, k4⟩ := shorten_same hC h2
    have hI : s.IsComponents comps := componentsAll_spec hS (C68_shorten P dflt dflt fuel c hc.1 s g h2).1.classRight h3
    have hcomp := components_comp (shortenAll_good dflt fuel dflt) hsn h3
    have h8 := componentTwists_beside (T := s.tri) (fun p hp => ⟨(hcomp p hp).tri, (hcomp p hp).noArcs⟩) h4
    have hA : ∀ X : Lam Int, (X.NoArcs ∧ X.tri = s.tri ∧ ∀ p ∈ comps, p.1.Beside X) → X.WellFormed ∧ X.tri = s.tri := fun X hX => ⟨hX.1.1, hX.2.1⟩
    have h9 := Enc.holds_product hA (Enc.holds_id hsn.1.1 hA h5) h8 h6
    obtain ⟨c1, c2, c3, c4, c5⟩ := h9.conj H.legal H.kind H.target h7
    obtain ⟨⟨M', m2⟩, m1⟩ := H.legal.applyLam_total (R := Int) ⟨M, (noArcs_iff.1 hM).1, htri.trans H.source.symm⟩
    dsimp only at m1
    refine c5 M M' hM.1 m1 ⟨H.legal.noArcs hM m1, m2.2.trans H.target, fun p hp => ?_⟩
    have hpart : K.HasPart p.1 := by
      obtain ⟨N, hN⟩ := hI.union.pull hS (mem_flat hp (hI.mult p hp))
      exact ⟨hI.connected p hp, N, hN.same hN.wf.1 hN.wf.2.1 k3.symm .refl .refl⟩
    obtain ⟨X', x1, x2⟩ := hpart.enc k2 l.inv' k4
    have hX := (hb X' x2)
    have u' : g.applyLam X' = .ok p.1 := (l.undo' (hI.sub hS hp).1.1 x1).2.2.2
    exact hX.enc l u' m1 (noArcs_iff.1 hM).1

/-- the parts of a closed lamination are closed -/
theorem IsUnion.closed (h : L.IsUnion c N) (hL : L.NoArcs) : c.NoArcs := by
  have hC := (noArcs_iff.1 hL).1
  have hc := h.consistent hC
  have w := h.wf
  have nn : ∀ x, L.tri.IsLabel x → 0 ≤ c.w x ∧ 0 ≤ N.w x := by
    intro x hx
    have n0 := hL.nonneg hx
    obtain ⟨red, -, p1, p2⟩ := h
    rw [p1.2.2 x hx, p2.2.2 x hx]
    have : 0 ≤ (L.w x).sign := Int.sign_nonneg_iff.2 n0
    constructor <;> positivity
  rw [noArcs_iff]
  refine ⟨hc.1, fun x y z hg => ?_⟩
  rw [w.2.2.1] at hg
  have l := hC.1.1.comp.label_of_glues hg
  have t1 := hC.lf_tri hg
  have t2 := hc.1.lf_tri (x := x) (y := y) (z := z) (by rw [w.2.2.1]; exact hg)
  have t3 := hc.2.lf_tri (x := x) (y := y) (z := z) (by rw [w.2.2.2]; exact hg)
  have a1 := h.lf hC l.1
  have a2 := h.lf hC l.2.1
  have a3 := h.lf hC l.2.2
  have b1 := h.sum hC.1 l.1
  have b2 := h.sum hC.1 l.2.1
  have b3 := h.sum hC.1 l.2.2
  have n1 := nn x l.1
  have n2 := nn y l.2.1
  have n3 := nn z l.2.2
  have q1 := (noArcs_iff.1 hL).2 x y z hg
  have q2 := (noArcs_iff.1 hL).2 y z x hg.rot
  have q3 := (noArcs_iff.1 hL).2 z x y hg.rot.rot
  rw [max_eq_left (by omega), max_eq_left (by omega), max_eq_left (by omega)] at t1 t2 t3
  refine ⟨n1.1, ?_⟩
  unfold TriDual at t1 t2 t3
  rcases t2 with t2 | t2 | t2 | t2 <;> rcases t3 with t3 | t3 | t3 | t3 <;> rcases t1 with t1 | t1 | t1 | t1 <;> omega

/-- two components are disjoint or the same -/
theorem parts_beside {A B : Lam Int} (hL : L.Consistent) (hA : L.HasPart A) (hB : L.HasPart B) : A.Beside B := by
  obtain ⟨cA, N, hN⟩ := hA
  have hc := hN.consistent hL
  obtain ⟨E, e1, e2⟩ := exists_unions hc.2
  have hu : L.Unions (A :: E) := .cons hN e1
  obtain ⟨Y, y1, y2⟩ := (hu.hasPart_iff hL (by
    intro Y hY
    rcases List.mem_cons.1 hY with rfl | hY
    exacts [cA, e2 Y hY])).1 hB
  rcases List.mem_cons.1 y1 with rfl | y1
  · obtain ⟨Z, -, z⟩ := union_blank hc.1.1
    exact .inr ⟨Z, z.symm.same z.wf.2.1 z.wf.1 y2 .refl .refl⟩
  · obtain ⟨N', hN'⟩ := e1.pull hc.2 y1
    obtain ⟨S, s1, s2⟩ := hN.assoc hL hN'
    exact .inl (DisjointFrom.same ⟨S, (s1.consistent hL).1, s2⟩ .refl y2)

end Lam
end Curver
