import Verif.Props.BoundaryUnion

/-!
# The class of the boundary of a lamination
-/

namespace Curver
open Triangulation
namespace Lam
variable {P : Lam Int → Py LamClass} {dflt : Int → Int → Bool} {fuel : Nat} {a b c A C L M K N X Y S B : Lam Int}

/-- arcs that are not empty are of class `Arc` or `MultiArc` -/
theorem OnlyHasArcs.isMultiArc (ho : X.OnlyHasArcs) (hX : X.Consistent) (hb : ¬ X.Blank) {k : LamClass} (hd : X.Describes k) : k.isMultiArc = true := by
  obtain ⟨D, d1, d2⟩ := exists_unions hX
  have hK := (d1.describes_iff hX d2 _).1 hd
  have hn : ∀ Y ∈ D, ¬ Y.NoArcs := fun Y hY => ho Y ((d1.hasPart_iff hX d2).2 ⟨Y, hY, .refl⟩)
  have h0 : D ≠ [] := fun e => hb ((d1.blank_iff hX d2).2 e)
  obtain ⟨Y, hY⟩ := List.exists_mem_of_ne_nil _ h0
  cases k
  · exact hK.elim
  · rcases hK with hK | ⟨⟨Z, z1, z2⟩, -⟩
    · exact absurd hK h0
    · exact absurd z2 (hn Z z1)
  · exact absurd (hK.2 Y hY) (hn Y hY)
  · exact absurd (hK.2 Y hY) (hn Y hY)
  · rfl
  · rfl

/-- the class of the boundary of a multiarc -/
theorem arcBoundary_class (hT : TellsClass P) (hX : X.Consistent) (h : X.arcBoundary P dflt fuel = .ok B) : B.Consistent ∧ B.Describes B.cls := by
  unfold arcBoundary at h
  rw [py_bind_eq_ok] at h
  obtain ⟨⟨s, g⟩, h1, h⟩ := h
  simp only [py_bind_eq_ok] at h
  obtain ⟨u, u1, V, u2, ws, u3, K', u4, i, u5, u6⟩ := h
  obtain ⟨l, ls, lt, hs, -⟩ := shorten_same hX h1
  rw [Enc.inverse_eq l] at u5
  injection u5 with u5
  have u6 : g.inv'.applyLam K' = .ok B := by subst u5; exact u6
  obtain ⟨w1, w2, w3⟩ := lamination_ok u4
  unfold lamination at u4
  rw [py_bind_eq_ok] at u4
  obtain ⟨_, -, u4⟩ := u4
  rw [if_pos rfl] at u4
  have pc := fun w => promote_class (P := P) w u4
  obtain ⟨c1, c2⟩ := pc ⟨hs.1.1, w1⟩
  exact ⟨c1.enc l.inv' u6, (C68_mapping _ l.inv' K' B c1 (c2 hT) u6).2⟩

theorem arc_part_class {parts : Lam Int → Py (Lam Int)} (hT : TellsClass P) (hA : A.Consistent) (ho : A.OnlyHasArcs) (hd : A.Describes A.cls) (h : A.boundaryWith P dflt fuel parts = .ok a) : a.Describes a.cls := by
  by_cases hb : A.Blank
  · have hm : A.cls.isMultiArc = false := by
      by_contra q
      exact (Describes.onlyArcs hA hd (by simpa using q)).2 hb
    have hm' : A.cls.isMultiCurve = false := by
      by_contra q
      exact (Describes.noArcs hA hd (by simpa using q)).2 hb
    unfold boundaryWith at h
    rw [hm, hm', if_neg (by simp), if_neg (by simp), if_pos ((all_zero_iff hA.1).2 hb)] at h
    injection h with h
    subst h
    exact hd
  · unfold boundaryWith at h
    rw [if_pos (ho.isMultiArc hA hb hd)] at h
    exact (arcBoundary_class hT hA h).2

theorem curve_part_class {parts : Lam Int → Py (Lam Int)} (hC : C.NoArcs) (hd : C.Describes C.cls) (h : C.boundaryWith P dflt fuel parts = .ok c) : c.IsUnion C C ∧ c.Describes c.cls := by
  have cC := (noArcs_iff.1 hC).1
  have hm : C.cls.isMultiArc = false := by
    by_contra q
    obtain ⟨q1, q2⟩ := Describes.onlyArcs cC hd (by simpa using q)
    have := hC.isMultiCurve q2 hd
    cases hc : C.cls <;> rw [hc] at this q <;> simp [LamClass.isMultiArc, LamClass.isMultiCurve] at this q
  by_cases hb : C.Blank
  · have hm' : C.cls.isMultiCurve = false := by
      by_contra q
      exact (Describes.noArcs cC hd (by simpa using q)).2 hb
    unfold boundaryWith at h
    rw [hm, hm', if_neg (by simp), if_neg (by simp), if_pos ((all_zero_iff hC.1).2 hb)] at h
    injection h with h
    subst h
    exact ⟨blank_self cC.1 hb, hd⟩
  · have hm' := hC.isMultiCurve hb hd
    unfold boundaryWith at h
    rw [hm, if_neg (by simp), if_pos hm'] at h
    obtain ⟨c1, c2, c3, c4⟩ := mul_two hC h
    have cc := (noArcs_iff.1 c2).1
    have nb : ¬ c.Blank := fun q => hb (fun x hx => by
      have := q x (by rw [c1]; exact hx)
      rw [c3 x] at this
      omega)
    have e : c.cls = .multicurve := by
      unfold mul at h
      rw [show pyAssert (decide ((0 : Int) ≤ 2)) = .ok () from rfl, py_bind_ok] at h
      dsimp only at h
      split at h
      · rename_i q
        rw [q] at hm'
        cases hm'
      · rw [if_neg (by decide), if_neg (by decide), hm, if_neg (by simp), if_pos hm'] at h
        injection h with h
        rw [← h]
    rw [e]
    refine ⟨c4, nb, fun q => ?_, fun X hX => hX.noArcs c2⟩
    rcases q.of_union cc.1 c4 with x | x <;> exact hb x.1

/-- the class of what `boundary` returns is right -/
theorem boundary_class (hT : TellsClass P) (hL : L.Consistent) (hd : L.Describes L.cls) (h : L.boundary P dflt fuel = .ok B) : B.Describes B.cls := by
  unfold boundary at h
  by_cases h1 : L.cls.isMultiArc = true
  · exact arc_part_class hT hL (Describes.onlyArcs hL hd h1).1 hd h
  by_cases h2 : L.cls.isMultiCurve = true
  · exact (curve_part_class (Describes.noArcs hL hd h2).1 hd h).2
  by_cases h3 : L.Blank
  · exact arc_part_class hT hL (h3.onlyArcs hL) hd h
  unfold boundaryWith at h
  rw [if_neg h1, if_neg h2, if_neg (fun q => h3 ((all_zero_iff hL.1).1 q))] at h
  simp only [py_bind_eq_ok] at h
  obtain ⟨A, i1, a, i2, C, i3, c, i4, i5⟩ := h
  obtain ⟨u1, u2, u3, u4, u5⟩ := C71_separate P dflt fuel L hL hd.right A C i1 i3
  obtain ⟨cA, cC⟩ := u1.consistent hL
  have nC := noArcs_of_parts cC u3
  obtain ⟨a1, a2, a3, a4, -⟩ := arc_part cA u2 u4 i2
  obtain ⟨b1, b2, b3⟩ := curve_part nC u5 i4
  have da := arc_part_class hT cA u2 u4 i2
  obtain ⟨uc, dc⟩ := curve_part_class nC u5 i4
  have ca := (noArcs_iff.1 a2).1
  have cc := (noArcs_iff.1 b2).1
  obtain ⟨t1, t2, -⟩ := pair_sum a2.1 b2.1 i5
  unfold disjointSumList at i5
  split at i5
  · cases i5
  by_cases q : a.eqv c = true
  · have e : dictOfIterable [a, c] = [(a, 1)] := by simp [dictOfIterable, q]
    rw [e, ← t1] at i5
    exact (disjointSum_right P ca (ls := [(a, 1)]) (unions_self ca.1) (by simp [ca.1.2]) (by simpa using fun _ => da) i5).2
  · have e : dictOfIterable [a, c] = [(a, 1), (c, 1)] := by simp [dictOfIterable, q]
    -- they do not cross
    have d1 : a.DisjointFrom C := a4 C nC ⟨L, hL, u1.symm⟩
    obtain ⟨S, s1, s2⟩ := DisjointFrom.union cc uc d1 d1
    rw [e] at i5
    have hu : S.Unions [a, c] := .cons s2 (unions_self cc.1)
    rw [← t1, s2.wf.2.2.1] at i5
    refine (disjointSum_right P s1 (ls := [(a, 1), (c, 1)]) hu (by simp [ca.1.2, cc.1.2, s2.wf.2.2.1, s2.wf.2.2.2]) ?_ i5).2
    simp only [List.mem_cons, List.not_mem_nil, or_false, forall_eq_or_imp, forall_eq]
    exact ⟨fun _ _ => da, fun _ _ => dc⟩

end Lam
end Curver
