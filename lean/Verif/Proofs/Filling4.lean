import Verif.Proofs.Filling3

/-!
# `boundary` and `is_filling` of all laminations
-/

namespace Curver
open Triangulation

namespace Lam
variable {P : Lam Int → Py LamClass} {dflt : Int → Int → Bool} {fuel : Nat} {L K s X Y S B M A C : Lam Int} {D : List (Lam Int)}

theorem Describes.onlyArcs (hL : L.Consistent) {c : LamClass} (h : L.Describes c) (hc : c.isMultiArc = true) : L.OnlyHasArcs ∧ ¬ L.Blank := by
  obtain ⟨D, d1, d2⟩ := exists_unions hL
  have h' := (d1.describes_iff hL d2 c).1 h
  have key : (∀ Y ∈ D, ¬ Y.NoArcs) ∧ D ≠ [] := by
    cases c <;> simp [LamClass.isMultiArc] at hc
    · exact ⟨h'.2, fun e => by rw [e] at h'; exact absurd h'.1 (by simp)⟩
    · exact ⟨h'.2, fun e => by rw [e] at h'; exact absurd h'.1 (by simp)⟩
  refine ⟨fun X hX hn => ?_, fun hb => key.2 ((d1.blank_iff hL d2).1 hb)⟩
  obtain ⟨Y, y1, y2⟩ := (d1.hasPart_iff hL d2).1 hX
  exact key.1 Y y1 (y2.symm.noArcs hn)

theorem Describes.noArcs (hL : L.Consistent) {c : LamClass} (h : L.Describes c) (hc : c.isMultiCurve = true) : L.NoArcs ∧ ¬ L.Blank := by
  obtain ⟨D, d1, d2⟩ := exists_unions hL
  have h' := (d1.describes_iff hL d2 c).1 h
  have key : (∀ Y ∈ D, Y.NoArcs) ∧ D ≠ [] := by
    cases c <;> simp [LamClass.isMultiCurve] at hc
    · exact ⟨h'.2, fun e => by rw [e] at h'; exact absurd h'.1 (by simp)⟩
    · exact ⟨h'.2, fun e => by rw [e] at h'; exact absurd h'.1 (by simp)⟩
  exact ⟨d1.noArcs hL key.1, fun hb => key.2 ((d1.blank_iff hL d2).1 hb)⟩

theorem HasPart.of_union (hL : L.Consistent) (hu : L.IsUnion C A) (h : C.HasPart X) : L.HasPart X := by
  obtain ⟨h1, N, h2⟩ := h
  obtain ⟨M, m1, -⟩ := hu.assoc' hL h2
  exact ⟨h1, M, m1⟩

/-- a closed lamination that is not empty is described by the class of multicurves or that of curves -/
theorem NoArcs.isMultiCurve (hL : L.NoArcs) (hb : ¬ L.Blank) {c : LamClass} (h : L.Describes c) : c.isMultiCurve = true := by
  have hC := (noArcs_iff.1 hL).1
  by_cases q : L.Connected
  · have := Describes.unique hC h (c' := .curve) ⟨q, hL⟩
    subst this; rfl
  · have := Describes.unique hC h (c' := .multicurve) ⟨hb, q, fun X hX => by
      obtain ⟨-, N, hN⟩ := hX
      exact hN.noArcs hL⟩
    subst this; rfl

theorem Describes.right (h : L.Describes L.cls) : L.ClassRight := ⟨fun e => by rw [e] at h; exact h, fun e => by rw [e] at h; exact h⟩

/-- what `boundary` of a lamination is made of -/
structure Outlines (L A C a B : Lam Int) : Prop where
  union : L.IsUnion A C
  arcs : A.OnlyHasArcs
  closed : C.NoArcs
  tri : B.tri = L.tri
  noArcs : B.NoArcs
  part : a.NoArcs
  apart : a.DisjointFrom A
  least : ∀ M : Lam Int, M.NoArcs → M.DisjointFrom A → a.DisjointFrom M
  fills : L.tri.ConnectedSurface → ¬ A.Blank → a.Peripheral → A.Fills
  w : (∀ x, L.tri.IsLabel x → B.w x = a.w x + 2 * C.w x) ∨ ∀ x, L.tri.IsLabel x → B.w x = 2 * C.w x ∧ a.w x = 2 * C.w x

theorem Blank.disjoint (hX : X.Blank) (wX : X.WellFormed) (hM : M.Consistent) (ht : X.tri = M.tri) : X.DisjointFrom M := by
  obtain ⟨Z, z1, z2⟩ := union_blank hM.1
  have e : Same Z X := same_of_w z2.wf.1 wX (z2.wf.2.2.1.trans ht.symm) (fun x hx => by
    rw [z1 x hx, hX x (by rw [ht, ← z2.wf.2.2.1]; exact hx)])
  exact ⟨M, hM, z2.same z2.wf.1 hM.1 .refl e .refl⟩

theorem Blank.onlyArcs (hX : X.Blank) (cX : X.Consistent) : X.OnlyHasArcs := by
  obtain ⟨D, d1, d2⟩ := exists_unions cX
  have := (d1.blank_iff cX d2).1 hX
  subst this
  intro Y hY
  obtain ⟨Z, z1, -⟩ := (d1.hasPart_iff cX d2).1 hY
  simp at z1

/-- the boundary of the arcs of a lamination -/
theorem arc_part {parts : Lam Int → Py (Lam Int)} {a : Lam Int} (hA : A.Consistent) (ho : A.OnlyHasArcs) (hd : A.Describes A.cls) (h : A.boundaryWith P dflt fuel parts = .ok a) :
    a.tri = A.tri ∧ a.NoArcs ∧ a.DisjointFrom A ∧ (∀ M : Lam Int, M.NoArcs → M.DisjointFrom A → a.DisjointFrom M) ∧ (A.tri.ConnectedSurface → ¬ A.Blank → a.Peripheral → A.Fills) := by
  by_cases hb : A.Blank
  · have hm : A.cls.isMultiArc = false := by
      by_contra q
      exact (Describes.onlyArcs hA hd (by simpa using q)).2 hb
    have hm' : A.cls.isMultiCurve = false := by
      by_contra q
      exact (Describes.noArcs hA hd (by simpa using q)).2 hb
    unfold boundaryWith at h
    rw [hm, hm', if_neg (by simp), if_neg (by simp), if_pos ((all_zero_iff hA.1).2 hb)] at h
    injection h with h
    subst h
    exact ⟨rfl, hb.noArcs hA, hb.disjoint hA.1 hA rfl, fun M hM hd => hb.disjoint hA.1 (noArcs_iff.1 hM).1 hd.tri.symm, fun _ q => absurd hb q⟩
  · have hm : A.cls.isMultiArc = true := by
      obtain ⟨D, d1, d2⟩ := exists_unions hA
      have hK := (d1.describes_iff hA d2 _).1 hd
      have hn : ∀ Y ∈ D, ¬ Y.NoArcs := fun Y hY => ho Y ((d1.hasPart_iff hA d2).2 ⟨Y, hY, .refl⟩)
      have h0 : D ≠ [] := fun e => hb ((d1.blank_iff hA d2).2 e)
      obtain ⟨Y, hY⟩ := List.exists_mem_of_ne_nil _ h0
      cases hc : A.cls <;> rw [hc] at hK
      · exact hK.elim
      · rcases hK with hK | ⟨⟨Z, z1, z2⟩, -⟩
        · exact absurd hK h0
        · exact absurd z2 (hn Z z1)
      · exact absurd (hK.2 Y hY) (hn Y hY)
      · exact absurd (hK.2 Y hY) (hn Y hY)
      · rfl
      · rfl
    unfold boundaryWith at h
    rw [if_pos hm] at h
    obtain ⟨c1, c2, c3, c4⟩ := C80_disjoint P dflt fuel A hA ho a h
    exact ⟨c1, c2, c3, c4, fun hcs hnb hp => fills_of_boundary hA ho hnb hcs h hp⟩

theorem curve_part {parts : Lam Int → Py (Lam Int)} {c : Lam Int} (hC : C.NoArcs) (hd : C.Describes C.cls) (h : C.boundaryWith P dflt fuel parts = .ok c) :
    c.tri = C.tri ∧ c.NoArcs ∧ ∀ x, C.tri.IsLabel x → c.w x = 2 * C.w x := by
  have cC := (noArcs_iff.1 hC).1
  have hm : C.cls.isMultiArc = false := by
    by_contra q
    obtain ⟨q1, q2⟩ := Describes.onlyArcs cC hd (by simpa using q)
    have := hC.isMultiCurve q2 hd
    cases hc : C.cls <;> rw [hc] at this q <;> simp [LamClass.isMultiArc, LamClass.isMultiCurve] at this q
  by_cases hb : C.Blank
  · have hm' : C.cls.isMultiCurve = false := by
      by_contra q
      exact (Describes.noArcs cC hd (by simpa using q)).2 hb
    unfold boundaryWith at h
    rw [hm, hm', if_neg (by simp), if_neg (by simp), if_pos ((all_zero_iff hC.1).2 hb)] at h
    injection h with h
    subst h
    exact ⟨rfl, hC, fun x hx => by rw [hb x hx]; rfl⟩
  · have hm' := hC.isMultiCurve hb hd
    unfold boundaryWith at h
    rw [hm, if_neg (by simp), if_pos hm'] at h
    obtain ⟨c1, c2, c3, -⟩ := mul_two hC h
    exact ⟨c1, c2, fun x _ => c3 x⟩

/-- what `boundary` does -/
theorem boundary_spec (hL : L.Consistent) (hd : L.Describes L.cls) (h : L.boundary P dflt fuel = .ok B) : ∃ A C a, L.Outlines A C a B := by
  obtain ⟨Z, z1, z2⟩ := union_blank hL.1
  have cZ := (z2.consistent hL).1
  have tZ := z2.wf.2.2.1
  unfold boundary at h
  by_cases h1 : L.cls.isMultiArc = true
  · obtain ⟨o1, o2⟩ := Describes.onlyArcs hL hd h1
    obtain ⟨a1, a2, a3, a4, a5⟩ := arc_part hL o1 hd h
    exact ⟨L, Z, B, z2.symm, o1, z1.noArcs cZ, a1, a2, a2, a3, a4, a5, .inl (fun x hx => by rw [z1 x (by rw [tZ]; exact hx)]; simp)⟩
  by_cases h2 : L.cls.isMultiCurve = true
  · obtain ⟨o1, o2⟩ := Describes.noArcs hL hd h2
    obtain ⟨a1, a2, a3⟩ := curve_part o1 hd h
    exact ⟨Z, L, Z, z2, z1.onlyArcs cZ, o1, a1, a2, z1.noArcs cZ, z1.disjoint cZ.1 cZ rfl, fun M hM hd => z1.disjoint cZ.1 (noArcs_iff.1 hM).1 hd.tri.symm, fun _ q => absurd z1 q,
      .inl (fun x hx => by rw [z1 x (by rw [tZ]; exact hx), a3 x hx]; simp)⟩
  by_cases h3 : L.Blank
  · obtain ⟨a1, a2, a3, a4, a5⟩ := arc_part hL (h3.onlyArcs hL) hd h
    exact ⟨L, Z, B, z2.symm, h3.onlyArcs hL, z1.noArcs cZ, a1, a2, a2, a3, a4, a5, .inl (fun x hx => by rw [z1 x (by rw [tZ]; exact hx)]; simp)⟩
  unfold boundaryWith at h
  rw [if_neg h1, if_neg h2, if_neg (fun q => h3 ((all_zero_iff hL.1).1 q))] at h
  simp only [py_bind_eq_ok] at h
  obtain ⟨A, i1, a, i2, C, i3, c, i4, i5⟩ := h
  obtain ⟨u1, u2, u3, u4, u5⟩ := C71_separate P dflt fuel L hL hd.right A C i1 i3
  obtain ⟨cA, cC⟩ := u1.consistent hL
  have nC := noArcs_of_parts cC u3
  obtain ⟨a1, a2, a3, a4, a5⟩ := arc_part cA u2 u4 i2
  obtain ⟨b1, b2, b3⟩ := curve_part nC u5 i4
  obtain ⟨p1, p2, p3, p4, p5⟩ := pair_sum a2.1 b2.1 i5
  have tC := u1.wf.2.2.2
  refine ⟨A, C, a, u1, u2, nC, p3, ?_, a2, a3, a4, fun hcs => a5 (by rw [u1.wf.2.2.1]; exact hcs), ?_⟩
  · rcases p5 with p5 | ⟨e, p5⟩
    · exact noArcs_add a2 b2 (p1.trans p3.symm) (p2.trans p3.symm) p4 (fun x hx => p5 x (by rw [← p3]; exact hx))
    · exact (same_of_w a2.1 p4 (p1.trans p3.symm) (fun x hx => (p5 x (by rw [← p1]; exact hx)).symm)).noArcs a2
  · rcases p5 with p5 | ⟨e, p5⟩
    · exact .inl (fun x hx => by rw [p5 x hx, b3 x (by rw [tC]; exact hx)])
    · exact .inr (fun x hx => by rw [p5 x hx, e.w, b3 x (by rw [tC]; exact hx)]; simp)

variable {a : Lam Int}

theorem Outlines.consistent (h : L.Outlines A C a B) (hL : L.Consistent) : A.Consistent ∧ C.Consistent := h.union.consistent hL

/-- the curves of the boundary can be drawn without crossing the lamination -/
theorem Outlines.apart' (h : L.Outlines A C a B) (hL : L.Consistent) : a.DisjointFrom L :=
  flag hL h.union h.arcs h.closed h.part h.apart (h.least C h.closed ⟨L, hL, h.union.symm⟩)

theorem Outlines.peripheral (h : L.Outlines A C a B) (hL : L.Consistent) (hC : C.Peripheral) : B.Peripheral ↔ a.Peripheral := by
  have tC := h.union.wf.2.2.2
  have tA := h.union.wf.2.2.1
  have ta := h.apart.tri
  have eC : B.tri = C.tri := h.tri.trans tC.symm
  have ea : B.tri = a.tri := h.tri.trans (tA.symm.trans ta.symm)
  obtain ⟨m, hm⟩ := (peripheral_iff h.closed).1 hC
  rw [peripheral_iff h.noArcs, peripheral_iff h.part]
  rcases h.w with hw | hw
  · -- twice the closed part
    have h2 : (make L.tri (fun x => 2 * C.w x) .integral : Lam Int).Links (fun x => 2 * m x) := by
      refine ⟨fun e f he hs => ?_, fun e he => ?_⟩
      · rw [hm.const e f (by rw [tC]; exact he) (by rw [tC]; exact hs)]
      · have he : L.tri.IsLabel e := he
        rw [make_w _ (fun y => by rw [w_inv]) he, hm.w e (by rw [tC]; exact he)]
        ring
    have hw' : ∀ x, B.tri.IsLabel x → B.w x = a.w x + (make L.tri (fun x => 2 * C.w x) .integral : Lam Int).w x := by
      intro x hx
      rw [h.tri] at hx
      rw [make_w _ (fun y => by rw [w_inv]) hx, hw x hx]
    exact ⟨fun ⟨n, hn⟩ => ⟨_, hn.sub h2 ea.symm h.tri.symm hw'⟩, fun ⟨n, hn⟩ => ⟨_, hn.add h2 ea.symm h.tri.symm hw'⟩⟩
  · have key : ∀ K : Lam Int, K.tri = L.tri → (∀ x, L.tri.IsLabel x → K.w x = 2 * C.w x) → K.Links (fun x => 2 * m x) := by
      intro K hK hw
      refine ⟨fun e f he hs => ?_, fun e he => ?_⟩
      · rw [hm.const e f (by rw [tC, ← hK]; exact he) (by rw [tC, ← hK]; exact hs)]
      · rw [hw e (by rw [← hK]; exact he), hm.w e (by rw [tC, ← hK]; exact he)]
        ring
    exact ⟨fun _ => ⟨_, key a (ta.trans tA) (fun x hx => (hw x hx).2)⟩, fun _ => ⟨_, key B h.tri (fun x hx => (hw x hx).1)⟩⟩

end Lam
end Curver
