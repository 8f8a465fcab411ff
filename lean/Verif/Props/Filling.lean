import Verif.Proofs.Filling4
import Verif.Spec.Filling

/-!
# C80 (all laminations): `boundary`, and C81: `is_filling`
-/

namespace Curver
open Triangulation

namespace Lam
variable {P : Lam Int → Py LamClass} {dflt : Int → Int → Bool} {fuel : Nat} {L X S B M A C N a : Lam Int}

theorem DisjointFrom.more (h : a.DisjointFrom X) (hX : X.IsUnion C N) : ∃ Z : Lam Int, Z.IsUnion C a ∧ Z.DisjointFrom X := by
  obtain ⟨S, s1, s2⟩ := h
  obtain ⟨K, k1, -⟩ := s2.symm.assoc' s1 hX
  obtain ⟨S', t1, t2⟩ := k1.again s1
  obtain ⟨Z, z1, z2⟩ := t2.assoc t1 s2
  exact ⟨Z, z2, S', t1, z1⟩

theorem Outlines.disjoint (h : L.Outlines A C a B) (hL : L.Consistent) (hd : a.DisjointFrom X) (hX : X.IsUnion C N) : B.DisjointFrom X := by
  have tC := h.union.wf.2.2.2
  have ta := h.apart.tri.trans h.union.wf.2.2.1
  rcases h.w with hw | hw
  · obtain ⟨Z, z1, z2⟩ := hd.more hX
    obtain ⟨W, w1, w2⟩ := z2.more hX
    obtain ⟨S, s1, s2⟩ := w2
    have cW := (s2.consistent s1).1
    have cZ := (w1.consistent cW).2
    have tW := w1.wf.2.2.1
    refine ⟨S, s1, s2.same s2.wf.1 s2.wf.2.1 .refl (same_of_w cW.1 h.noArcs.1 ?_ (fun x hx => ?_)) .refl⟩
    · rw [← tW, tC, h.tri]
    · rw [w1.sum cW.1 hx, z1.sum cZ.1 (by rw [w1.wf.2.2.2]; exact hx), hw x (by rw [← tC, tW]; exact hx)]
      ring
  · refine hd.same (same_of_w h.part.1 h.noArcs.1 (ta.trans h.tri.symm) (fun x hx => ?_)) .refl
    obtain ⟨h1, h2⟩ := hw x (by rw [← ta]; exact hx)
    rw [h1, h2]

end Lam

section
variable (P : Lam Int → Py LamClass) (dflt : Int → Int → Bool) (fuel : Nat) (L : Lam Int) (hL : L.Consistent) (hc : L.Describes L.cls)
include hL hc

/-- C80: `L.boundary()` of any integral lamination consists of closed curves that do not cross `L`, and no closed curve that does not cross `L` crosses it. -/
theorem C80_lamination (B : Lam Int) (h : L.boundary P dflt fuel = .ok B) :
    B.tri = L.tri ∧ B.NoArcs ∧ B.DisjointFrom L ∧ ∀ M : Lam Int, M.NoArcs → M.DisjointFrom L → B.DisjointFrom M := by
  obtain ⟨A, C, a, H⟩ := Lam.boundary_spec hL hc h
  refine ⟨H.tri, H.noArcs, H.disjoint hL (H.apart' hL) H.union.symm, fun M hM hd => ?_⟩
  obtain ⟨S, s1, s2⟩ := hd
  obtain ⟨Z, z1, z2⟩ := s2.assoc s1 H.union.symm
  have cZ := (z1.consistent s1).1
  have nZ := Lam.disjoint_noArcs cZ z2 hM H.closed
  have d1 := H.least Z nZ ⟨S, s1, z1⟩
  exact (H.disjoint hL d1 z2.symm).left z2

/-- C80: the boundary of a multicurve consists of two copies of it. -/
theorem C80_multicurve (hm : L.cls.isMultiCurve = true) (B : Lam Int) (h : L.boundary P dflt fuel = .ok B) : B.IsUnion L L := by
  obtain ⟨o1, o2⟩ := Lam.Describes.noArcs hL hc hm
  have hm' : L.cls.isMultiArc = false := by
    cases q : L.cls <;> rw [q] at hm <;> simp [LamClass.isMultiCurve, LamClass.isMultiArc] at hm ⊢
  unfold Lam.boundary Lam.boundaryWith at h
  rw [hm', if_neg (by simp), if_pos hm] at h
  exact (Lam.mul_two o1 h).2.2.2

end

namespace Lam
variable {P : Lam Int → Py LamClass} {dflt : Int → Int → Bool} {fuel : Nat} {L B M A C : Lam Int}

/-- every closed lamination on a surface is peripheral just if it is a sphere with three punctures -/
theorem essential (hT : L.tri.Valid) (hcs : L.tri.ConnectedSurface) {vs : List (List Int)} (hvs : L.tri.vertices = .ok vs) :
    (∀ M : Lam Int, M.tri = L.tri → M.NoArcs → M.Peripheral) ↔ vs.length = 3 ∧ L.tri.zeta = 3 := by
  rw [all_peripheral_iff hT hvs, hcs.three_iff hT hvs]

theorem misses_spec (hL : L.WellFormed) (hcs : L.tri.ConnectedSurface) : ∃ vs comp b, L.tri.vertices = .ok vs ∧ L.tri.components = .ok [comp] ∧ L.missesComponent vs comp = .ok b ∧
    (b = true ↔ ¬ (vs.length = 3 ∧ L.tri.zeta = 3) ∧ L.Blank) := by
  have hc := hL.1.comp
  obtain ⟨comp, c1, c2, c3⟩ := hcs.component hL.1
  obtain ⟨vs, _, v1, -⟩ := hL.1.surface_spec
  obtain ⟨k1, k2, k3, k4⟩ := hc.vertices_mem v1
  have e : vs.filter (fun vertex => vertex.head?.any (· ∈ comp)) = vs := by
    rw [List.filter_eq_self]
    intro v hv
    obtain ⟨h1, h2, h3⟩ := k2 v hv
    cases v with
    | nil => exact absurd rfl h1.1
    | cons x v =>
      simp only [List.head?_cons, Option.any_some, decide_eq_true_eq]
      exact (c2 x).2 (h3 x (by simp))
  have e' : comp.length / 2 = L.tri.zeta := by omega
  have hw : ∀ x ∈ comp, (do let x ← L.wt x; return x == 0 : Py Bool) = .ok (L.w x == 0) := by
    intro x hx
    rw [wt_eq hL.2 ((c2 x).1 hx)]; rfl
  obtain ⟨b, hb⟩ := pyAllM_total (f := fun edge => (do let x ← L.wt edge; return x == 0 : Py Bool)) (l := comp) (fun x hx => ⟨_, hw x hx⟩)
  refine ⟨vs, comp, if vs.length = 3 ∧ L.tri.zeta = 3 then false else b, v1, c1, ?_, ?_⟩
  · unfold missesComponent
    rw [e, e']
    split_ifs
    · rfl
    · exact hb
  · split_ifs with q
    · simp [q]
    · have h1 : b = true ↔ ∀ x ∈ comp, (L.w x == 0) = true := by
        rw [show b = true ↔ (.ok b : Py Bool) = .ok true from ⟨fun e => by rw [e], fun e => by injection e⟩, ← hb, pyAllM_ok_iff]
        refine forall₂_congr (fun x hx => ?_)
        rw [hw x hx]
        exact ⟨fun e => by injection e, fun e => by rw [e]⟩
      rw [h1]
      simp only [beq_iff_eq]
      exact ⟨fun h => ⟨q, fun x hx => h x ((c2 x).2 hx)⟩, fun h x hx => h.2 x ((c2 x).1 hx)⟩

end Lam

section
variable (P : Lam Int → Py LamClass) (dflt : Int → Int → Bool) (fuel : Nat) (L : Lam Int) (hL : L.Consistent) (hc : L.Describes L.cls) (hcs : L.tri.ConnectedSurface)
include hL hc hcs

/-- C81: on a connected surface, `L.is_filling()` says whether `L` meets every essential closed curve.  (For multicurves, the surface must carry essential curves.) -/
theorem C81_is_filling (hmc : L.cls.isMultiCurve = true → ¬ L.tri.ThreePunctures) (b : Bool) (h : L.isFilling P dflt fuel = .ok b) : b = true ↔ L.Fills := by
  obtain ⟨vs, comp, mb, v1, v2, v3, v4⟩ := Lam.misses_spec hL.1 hcs
  have hes := Lam.essential hL.1.1 hcs v1
  unfold Lam.isFilling at h
  by_cases hm : L.cls.isMultiCurve = true
  · rw [if_pos hm] at h
    injection h with h
    subst h
    simp only [Bool.false_eq_true, false_iff]
    intro hf
    obtain ⟨o1, -⟩ := Lam.Describes.noArcs hL hc hm
    have hp := hf L o1 (Lam.double hL)
    refine hmc hm ⟨hcs, ?_⟩
    have := hes.1 (fun M ht hM => hf M hM (hp.disjoint hM o1 ht))
    exact ⟨this.2, vs, v1, this.1⟩
  rw [if_neg hm] at h
  rw [py_bind_eq_ok] at h
  obtain ⟨cs, h1, h⟩ := h
  rw [py_bind_eq_ok] at h
  obtain ⟨b1, h2, h⟩ := h
  have H := Lam.componentsAll_spec hL hc.right h1
  have hpart : ∀ p ∈ cs, L.HasPart p.1 := fun p hp => (H.hasPart_iff hL).2 ⟨p, hp, .refl⟩
  have hcon : ∀ p ∈ cs, p.1.Consistent := fun p hp => by
    obtain ⟨-, N, hN⟩ := hpart p hp
    exact (hN.consistent hL).1
  obtain ⟨i1, i2⟩ := Lam.pyAnyM_spec h2
  cases b1
  · rw [if_neg (by simp), v2, py_bind_ok, v1, py_bind_ok] at h
    have e : Lam.pyAnyM (L.missesComponent vs) [comp] = .ok mb := by
      unfold Lam.pyAnyM
      rw [v3, py_bind_ok]
      cases mb <;> rfl
    rw [e, py_bind_ok] at h
    cases mb
    · rw [if_neg (by simp)] at h
      rw [py_bind_eq_ok] at h
      obtain ⟨B, k1, k2⟩ := h
      obtain ⟨A, C, a, O⟩ := Lam.boundary_spec hL hc k1
      obtain ⟨cA, cC⟩ := O.union.consistent hL
      obtain ⟨b', k3, k4⟩ := Lam.isPeripheral_spec P (Lam.noArcs_iff.1 O.noArcs).1
      rw [k2] at k3
      injection k3 with k3
      subst k3
      rw [k4]
      constructor
      · intro hB
        have hC : C.Peripheral := by
          obtain ⟨D, d1, d2⟩ := Lam.exists_unions cC
          refine d1.peripheral cC (fun X hX => ?_)
          have pX : C.HasPart X := (d1.hasPart_iff cC d2).2 ⟨X, hX, .refl⟩
          have nX : X.NoArcs := by
            obtain ⟨-, N, hN⟩ := pX
            exact hN.noArcs O.closed
          obtain ⟨p, p1, p2⟩ := (H.hasPart_iff hL).1 (pX.of_union hL O.union.symm)
          have np := p2.symm.noArcs nX
          have hp := i2 rfl p p1
          have hcl : p.1.cls = .curve := by
            rcases H.cls p p1 with q | q
            · exact q.1
            · exact absurd np q.2
          rw [hcl, if_pos (by rfl)] at hp
          obtain ⟨b', q1, q2⟩ := Lam.isPeripheral_spec P (hcon p p1)
          rw [q1] at hp
          injection hp with hp
          refine ⟨nX, (q2.1 ?_).same p2⟩
          simpa using hp
        have ha := (O.peripheral hL hC).1 hB
        by_cases hb : A.Blank
        · have hs := O.union.same_of_blank hL.1 hb
          have nL : L.NoArcs := hs.noArcs O.closed
          by_cases hB' : L.Blank
          · have : vs.length = 3 ∧ L.tri.zeta = 3 := by
              by_contra q
              have := v4.2 ⟨q, hB'⟩
              simp at this
            exact fun M hM hd => hes.2 this M hd.tri hM
          · exact absurd (nL.isMultiCurve hB' hc) hm
        · have fA := O.fills hcs hb ha
          exact fun M hM hd => fA M hM (hd.left O.union)
      · intro hf
        have hC : C.Peripheral := hf C O.closed (O.union.symm.again hL)
        exact (O.peripheral hL hC).2 (hf a O.part (O.apart' hL))
    · rw [if_pos rfl] at h
      injection h with h
      subst h
      simp only [Bool.false_eq_true, false_iff]
      intro hf
      obtain ⟨q1, q2⟩ := v4.1 rfl
      exact q1 (hes.1 (fun M ht hM => hf M hM ((q2.disjoint hL.1 (Lam.noArcs_iff.1 hM).1 ht.symm).symm)))
  · rw [if_pos rfl] at h
    injection h with h
    subst h
    simp only [Bool.false_eq_true, false_iff]
    intro hf
    obtain ⟨p, p1, p2⟩ := i1.1 rfl
    split_ifs at p2 with q
    · have q : p.1.cls = .curve := by simpa using q
      have np : p.1.NoArcs := by
        rcases H.cls p p1 with r | r
        · exact r.2
        · rw [q] at r; cases r.1
      obtain ⟨-, N, hN⟩ := hpart p p1
      have hp := hf p.1 np (hN.again hL)
      obtain ⟨b', q1, q2⟩ := Lam.isPeripheral_spec P (hcon p p1)
      rw [q2.2 hp] at q1
      rw [q1] at p2
      cases p2
    · cases p2

end

namespace Lam
variable {P : Lam Int → Py LamClass} {dflt : Int → Int → Bool} {L A C : Lam Int}

theorem arc_part_returns (hd : ∀ w w', dflt w w' = false) (hP : ∀ K, ∃ c, P K = .ok c) {parts : Nat → Lam Int → Py (Lam Int)} (hA : A.Consistent) (ho : A.OnlyHasArcs) (hc : A.Describes A.cls) :
    ∃ a, Returns (fun n => A.boundaryWith P dflt n (parts n)) a := by
  by_cases hm : A.cls.isMultiArc = true
  · obtain ⟨B, N, hB⟩ := C80_returns P dflt A hA ho hd hP
    dsimp only at hB
    refine ⟨B, N, fun n hn => ?_⟩
    show A.boundaryWith P dflt n (parts n) = _
    unfold boundaryWith
    rw [if_pos hm, hB n hn]
  · have hb : A.Blank := by
      by_contra hb
      obtain ⟨D, d1, d2⟩ := exists_unions hA
      have hK := (d1.describes_iff hA d2 _).1 hc
      have hn : ∀ Y ∈ D, ¬ Y.NoArcs := fun Y hY => ho Y ((d1.hasPart_iff hA d2).2 ⟨Y, hY, .refl⟩)
      have h0 : D ≠ [] := fun e => hb ((d1.blank_iff hA d2).2 e)
      obtain ⟨Y, hY⟩ := List.exists_mem_of_ne_nil _ h0
      cases q : A.cls <;> rw [q] at hK hm
      · exact hK.elim
      · rcases hK with hK | ⟨⟨Z, z1, z2⟩, -⟩
        · exact h0 hK
        · exact hn Z z1 z2
      · exact hn Y hY (hK.2 Y hY)
      · exact hn Y hY (hK.2 Y hY)
      · exact hm rfl
      · exact hm rfl
    have hm' : A.cls.isMultiCurve = false := by
      by_contra q
      exact (Describes.noArcs hA hc (by simpa using q)).2 hb
    refine ⟨A, 0, fun n _ => ?_⟩
    show A.boundaryWith P dflt n (parts n) = _
    unfold boundaryWith
    rw [if_neg hm, hm', if_neg (by simp), if_pos ((all_zero_iff hA.1).2 hb)]

theorem curve_part_returns {parts : Nat → Lam Int → Py (Lam Int)} (hC : C.NoArcs) (hc : C.Describes C.cls) : ∃ c, Returns (fun n => C.boundaryWith P dflt n (parts n)) c := by
  have cC := (noArcs_iff.1 hC).1
  by_cases hb : C.Blank
  · exact ⟨C, 0, fun n _ => by
      have hm : C.cls.isMultiArc = false := by
        by_contra q
        exact (Describes.onlyArcs cC hc (by simpa using q)).2 hb
      have hm' : C.cls.isMultiCurve = false := by
        by_contra q
        exact (Describes.noArcs cC hc (by simpa using q)).2 hb
      show C.boundaryWith P dflt n (parts n) = _
      unfold boundaryWith
      rw [hm, hm', if_neg (by simp), if_neg (by simp), if_pos ((all_zero_iff hC.1).2 hb)]⟩
  · have hm := hC.isMultiCurve hb hc
    have hm' : C.cls.isMultiArc = false := by
      cases q : C.cls <;> rw [q] at hm <;> simp [LamClass.isMultiCurve, LamClass.isMultiArc] at hm ⊢
    obtain ⟨c, hc⟩ : ∃ c, C.mul P 2 = .ok c := by
      unfold Lam.mul
      cases q : C.cls <;> rw [q] at hm <;> simp [LamClass.isMultiCurve] at hm <;> exact ⟨_, rfl⟩
    refine ⟨c, 0, fun n _ => ?_⟩
    show C.boundaryWith P dflt n (parts n) = _
    unfold boundaryWith
    rw [hm', if_neg (by simp), if_pos hm, hc]

end Lam

section
variable (P P' : Lam Int → Py LamClass) (dflt dflt' : Int → Int → Bool) (fuel fuel' : Nat)

/-- C80: without acceleration, `boundary()` of every integral lamination returns. -/
theorem C80_lamination_returns (hd : ∀ w w', dflt w w' = false) (hP : ∀ K, ∃ c, P K = .ok c) (L : Lam Int) (hL : L.Consistent) (hc : L.Describes L.cls) :
    ∃ B, Returns (fun n => L.boundary P dflt n) B := by
  by_cases h1 : L.cls.isMultiArc = true
  · exact Lam.arc_part_returns hd hP (parts := fun n => Lam.boundaryWith P dflt n (fun _ => .error .outOfFuel)) hL (Lam.Describes.onlyArcs hL hc h1).1 hc
  by_cases h2 : L.cls.isMultiCurve = true
  · exact Lam.curve_part_returns (parts := fun n => Lam.boundaryWith P dflt n (fun _ => .error .outOfFuel)) (Lam.Describes.noArcs hL hc h2).1 hc
  by_cases h3 : L.Blank
  · exact Lam.arc_part_returns hd hP (parts := fun n => Lam.boundaryWith P dflt n (fun _ => .error .outOfFuel)) hL (h3.onlyArcs hL) hc
  obtain ⟨cs, -, -, -, -, A, C, s, ⟨N1, e1⟩, ⟨N2, e2⟩, -⟩ := C74_components P dflt hd L hL hc.right
  dsimp only at e1 e2
  obtain ⟨u1, u2, u3, u4, u5⟩ := C71_separate P dflt (N1 + N2) L hL hc.right A C (e1 _ (by omega)) (e2 _ (by omega))
  obtain ⟨cA, cC⟩ := u1.consistent hL
  have nC := Lam.noArcs_of_parts cC u3
  obtain ⟨a, N3, e3⟩ := Lam.arc_part_returns hd hP (parts := fun n _ => .error .outOfFuel) cA u2 u4
  obtain ⟨c, N4, e4⟩ := Lam.curve_part_returns (P := P) (dflt := dflt) (parts := fun n _ => .error .outOfFuel) nC u5
  dsimp only at e3 e4
  obtain ⟨a1, a2, -⟩ := Lam.arc_part cA u2 u4 (e3 N3 le_rfl)
  obtain ⟨b1, b2, -⟩ := Lam.curve_part nC u5 (e4 N4 le_rfl)
  have ta := a1.trans u1.wf.2.2.1
  have tc := b1.trans u1.wf.2.2.2
  obtain ⟨B, hB⟩ : ∃ B, L.tri.disjointSumList P [a, c] = .ok B := by
    unfold disjointSumList
    rw [if_neg (by simp [ta, tc])]
    refine Lam.disjointSumDict_total ?_
    intro p hp
    have : p.2 = 1 ∧ (p.1 = a ∨ p.1 = c) := by
      unfold dictOfIterable at hp
      by_cases q : a.eqv c = true
      · simp [q] at hp; simp [hp]
      · simp [q] at hp
        rcases hp with rfl | rfl <;> simp
    rcases this with ⟨q, q' | q'⟩
    · rw [q, q']; exact ⟨ta, by decide, (Lam.noArcs_iff.1 a2).1⟩
    · rw [q, q']; exact ⟨tc, by decide, (Lam.noArcs_iff.1 b2).1⟩
  refine ⟨B, N1 + N2 + N3 + N4, fun n hn => ?_⟩
  show L.boundary P dflt n = _
  unfold Lam.boundary
  rw [Lam.boundaryWith, if_neg h1, if_neg h2, if_neg (fun q => h3 ((Lam.all_zero_iff hL.1).1 q)), e1 n (by omega), py_bind_ok, e3 n (by omega), py_bind_ok, e2 n (by omega), py_bind_ok,
    e4 n (by omega), py_bind_ok, hB]

/-- C81: mapping classes preserve the answer of `is_filling()`; so do flips. -/
theorem C81_mapping (g : Enc) (hg : g.Legal) (L L' : Lam Int) (hL : L.Consistent) (hc : L.Describes L.cls) (hcs : L.tri.ConnectedSurface) (ha : g.applyLam L = .ok L')
    (b b' : Bool) (h : L.isFilling P dflt fuel = .ok b) (h' : L'.isFilling P' dflt' fuel' = .ok b') : b = b' := by
  have e := (hg.undo hL.1 ha).2.2.1
  by_cases hm : L.cls.isMultiCurve = true
  · unfold Lam.isFilling at h h'
    rw [if_pos hm] at h
    rw [e, if_pos hm] at h'
    injection h with h
    injection h' with h'
    rw [← h, ← h']
  · have hL' := hL.enc hg ha
    have hc' : L'.Describes L'.cls := by rw [e]; exact hc.enc hL hg ha
    have hcs' : L'.tri.ConnectedSurface := by
      rw [(hg.undo hL.1 ha).2.1]
      exact ConnectedSurface.enc hg (by rw [Enc.applyLam_source ha]; exact hcs)
    have h1 := C81_is_filling P dflt fuel L hL hc hcs (fun q => absurd q hm) b h
    have h2 := C81_is_filling P' dflt' fuel' L' hL' hc' hcs' (fun q => absurd (by rw [← e]; exact q) hm) b' h'
    have : b = true ↔ b' = true := by
      rw [h1, h2]
      exact ⟨fun f => f.enc hL hg ha, fun f => f.enc hL' hg.inv' (hg.undo hL.1 ha).2.2.2⟩
    exact Bool.eq_iff_iff.2 this

/-- C81: without acceleration, `is_filling()` returns. -/
theorem C81_returns (hd : ∀ w w', dflt w w' = false) (hP : ∀ K, ∃ c, P K = .ok c) (L : Lam Int) (hL : L.Consistent) (hc : L.Describes L.cls) :
    ∃ b, Returns (fun n => L.isFilling P dflt n) b := by
  by_cases hm : L.cls.isMultiCurve = true
  · refine ⟨false, 0, fun n _ => ?_⟩
    show L.isFilling P dflt n = _
    unfold Lam.isFilling
    rw [if_pos hm]
  obtain ⟨cs, H, N1, e1⟩ := Lam.componentsAll_returns P dflt hd L hL hc.right
  dsimp only at e1
  obtain ⟨b1, h1, -⟩ := Lam.pyAnyM_total (f := fun p : Lam Int × Int => if p.1.cls == .curve then do
      let b ← p.1.isPeripheral P
      return !b
      else .ok false) (l := cs) (fun p hp => by
    have hcon : p.1.Consistent := by
      obtain ⟨-, N, hN⟩ := (H.hasPart_iff hL).2 ⟨p, hp, .refl⟩
      exact (hN.consistent hL).1
    obtain ⟨b', q1, -⟩ := Lam.isPeripheral_spec P hcon
    split_ifs
    · rw [q1]; exact ⟨_, rfl⟩
    · exact ⟨_, rfl⟩)
  obtain ⟨vs, ds, v1, v2, -⟩ := hL.1.1.surface_spec
  obtain ⟨m1, m2, m3, m4, m5⟩ := hL.1.1.comp.components_mem v2
  obtain ⟨b2, h2, -⟩ := Lam.pyAnyM_total (f := L.missesComponent vs) (l := ds) (fun comp hcomp => by
    unfold Lam.missesComponent
    split_ifs
    · exact ⟨_, rfl⟩
    · exact Lam.pyAllM_total (fun x hx => by
        rw [Lam.wt_eq hL.1.2 ((m3 comp hcomp).2.2 x hx)]; exact ⟨_, rfl⟩))
  obtain ⟨B, N2, e2⟩ := C80_lamination_returns P dflt hd hP L hL hc
  dsimp only at e2
  obtain ⟨b3, h3, -⟩ := Lam.isPeripheral_spec P (Lam.noArcs_iff.1 (C80_lamination P dflt N2 L hL hc B (e2 N2 le_rfl)).2.1).1
  refine ⟨if b1 then false else if b2 then false else b3, N1 + N2, fun n hn => ?_⟩
  show L.isFilling P dflt n = _
  unfold Lam.isFilling
  rw [if_neg hm, e1 n (by omega), py_bind_ok, h1, py_bind_ok, v2, py_bind_ok, v1, py_bind_ok, h2, py_bind_ok, e2 n (by omega), py_bind_ok, h3]
  cases b1 <;> cases b2 <;> rfl

end

/-- C81: on the torus with a puncture, one arc does not fill and two do; on the sphere with four punctures, two arcs that end at a common vertex fill.  The sphere with three punctures carries no essential
curves: even the empty lamination fills it. -/
example : (⟨torus, [-1, 0, 0], .arc⟩ : Lam Int).isFilling anyClass neverSlow 20 = .ok false ∧ (⟨torus, [-1, -1, 0], .multiarc⟩ : Lam Int).isFilling anyClass neverSlow 20 = .ok true ∧
    (⟨torus, [-1, 1, 1], .integral⟩ : Lam Int).isFilling anyClass neverSlow 20 = .ok false ∧ (⟨sphere4, [-1, 0, 0, 0, 0, 0], .arc⟩ : Lam Int).isFilling anyClass neverSlow 20 = .ok false ∧
    (⟨sphere4, [-1, -1, 0, 0, 0, 0], .multiarc⟩ : Lam Int).isFilling anyClass neverSlow 20 = .ok true ∧
    (⟨threePunctures, [0, 0, 0], .integral⟩ : Lam Int).isFilling anyClass neverSlow 20 = .ok true := by decide +kernel

/-- the torus is connected -/
theorem torus_connected : torus.ConnectedSurface := by
  obtain ⟨b, b1, b2⟩ := C35_connected torus torus_valid (by decide)
  have : torus.isConnected = .ok true := by decide +kernel
  rw [this] at b1
  injection b1 with b1
  exact ⟨by decide, b2.1 b1.symm⟩

/-- C81: the hypotheses of `C81_is_filling` are met: two edges of the torus fill it. -/
example : (⟨torus, [-1, -1, 0], .multiarc⟩ : Lam Int).Fills := by
  have hL : (⟨torus, [-1, -1, 0], .multiarc⟩ : Lam Int).Consistent := by
    rw [Lam.consistent_iff]
    refine ⟨⟨torus_valid, by decide⟩, ?_⟩
    intro a b c h
    rcases h with h | h | h <;> simp [torus] at h <;> rcases h with ⟨rfl, rfl, rfl⟩ | ⟨rfl, rfl, rfl⟩ <;> first | decide | (unfold TriEven; decide)
  have H := Lam.componentsAll_spec (P := anyClass) (dflt := neverSlow) (fuel := 20) (cs := [(⟨torus, [-1, 0, 0], .arc⟩, 1), (⟨torus, [0, -1, 0], .arc⟩, 1)]) hL
    ⟨fun h => (by cases h), fun h => (by cases h)⟩ (by decide +kernel)
  have hc : (⟨torus, [-1, -1, 0], .multiarc⟩ : Lam Int).Describes .multiarc := by
    refine (H.union.describes_iff hL (Lam.flat_connected H) _).2 ⟨by decide, ?_⟩
    intro Y hY
    obtain ⟨p, hp, hY⟩ := List.mem_flatMap.1 hY
    have := (List.mem_replicate.1 hY).2
    subst this
    rcases H.cls p hp with q | q
    · simp only [List.mem_cons, List.not_mem_nil, or_false] at hp
      rcases hp with rfl | rfl <;> cases q.1
    · exact q.2
  exact (C81_is_filling anyClass neverSlow 20 _ hL hc torus_connected (fun h => by cases h) true (by decide +kernel)).1 rfl

/-- two tori -/
def twoTori : Triangulation := ⟨[⟨-6, -4, -5⟩, ⟨-3, -1, -2⟩, ⟨0, 1, 2⟩, ⟨3, 4, 5⟩]⟩

theorem twoTori_valid : twoTori.Valid := ⟨by decide, by decide, by decide⟩

/-- arcs that fill one torus, and a curve around the puncture of the other one -/
def oneFilled : Lam Int := ⟨twoTori, [-1, -1, 0, 2, 2, 2], .integral⟩

theorem oneFilled_consistent : oneFilled.Consistent := by
  rw [Lam.consistent_iff]
  refine ⟨⟨twoTori_valid, by decide⟩, ?_⟩
  intro a b c h
  rcases h with h | h | h <;> simp [oneFilled, twoTori] at h <;> rcases h with ⟨rfl, rfl, rfl⟩ | ⟨rfl, rfl, rfl⟩ | ⟨rfl, rfl, rfl⟩ | ⟨rfl, rfl, rfl⟩ <;> first | decide | (unfold TriEven; decide)

/-- C81 is false for surfaces that are not connected (finding 28): `is_filling` wants the lamination to meet each component of the surface and its boundary to be peripheral, but a component of the surface in which
the lamination only goes round a vertex passes both tests. -/
theorem C81_disconnected : oneFilled.Consistent ∧ oneFilled.Describes oneFilled.cls ∧ oneFilled.isFilling anyClass neverSlow 20 = .ok true ∧ ¬ oneFilled.Fills := by
  have hL := oneFilled_consistent
  have hr : oneFilled.ClassRight := ⟨fun h => (by cases h), fun h => (by cases h)⟩
  obtain ⟨u1, u2, u3, u4, u5⟩ := C71_separate anyClass neverSlow 20 oneFilled hL hr ⟨twoTori, [-1, -1, 0, 0, 0, 0], .multiarc⟩ ⟨twoTori, [0, 0, 0, 2, 2, 2], .curve⟩ (by decide +kernel)
    (by decide +kernel)
  obtain ⟨cA, cC⟩ := u1.consistent hL
  have nC := Lam.noArcs_of_parts cC u3
  have H := Lam.componentsAll_spec (P := anyClass) (dflt := neverSlow) (fuel := 20)
    (cs := [(⟨twoTori, [0, 0, 0, 2, 2, 2], .curve⟩, 1), (⟨twoTori, [-1, 0, 0, 0, 0, 0], .arc⟩, 1), (⟨twoTori, [0, -1, 0, 0, 0, 0], .arc⟩, 1)]) hL hr (by decide +kernel)
  refine ⟨hL, .inr ⟨⟨_, (H.hasPart_iff hL).2 ⟨_, List.mem_cons_self .., .refl⟩, nC⟩, ⟨_, (H.hasPart_iff hL).2 ⟨_, List.mem_cons_of_mem _ (List.mem_cons_self ..), .refl⟩, ?_⟩⟩, by decide +kernel, ?_⟩
  · rcases H.cls _ (List.mem_cons_of_mem _ (List.mem_cons_self ..)) with q | q
    · cases q.1
    · exact q.2
  · intro hf
    have nM : (⟨twoTori, [0, 0, 0, 1, 1, 0], .curve⟩ : Lam Int).NoArcs := by
      rw [Lam.noArcs_iff, Lam.consistent_iff]
      refine ⟨⟨⟨twoTori_valid, by decide⟩, ?_⟩, ?_⟩ <;> intro a b c h <;> rcases h with h | h | h <;> simp [twoTori] at h <;>
        rcases h with ⟨rfl, rfl, rfl⟩ | ⟨rfl, rfl, rfl⟩ | ⟨rfl, rfl, rfl⟩ | ⟨rfl, rfl, rfl⟩ <;> first | decide | (unfold TriEven; decide)
    have pC : (⟨twoTori, [0, 0, 0, 2, 2, 2], .curve⟩ : Lam Int).Peripheral := by
      obtain ⟨b, b1, b2⟩ := Lam.isPeripheral_spec anyClass cC
      have : (⟨twoTori, [0, 0, 0, 2, 2, 2], .curve⟩ : Lam Int).isPeripheral anyClass = .ok true := by decide +kernel
      rw [this] at b1
      injection b1 with b1
      exact b2.1 b1.symm
    have d1 : (⟨twoTori, [0, 0, 0, 1, 1, 0], .curve⟩ : Lam Int).DisjointFrom ⟨twoTori, [-1, -1, 0, 0, 0, 0], .multiarc⟩ := by
      have lab : ∀ x, twoTori.IsLabel x → x ∈ [0, 1, 2, 3, 4, 5, -1, -2, -3, -4, -5, -6] := by
        intro x hx
        unfold IsLabel at hx
        have : twoTori.zeta = 6 := by decide
        simp only [List.mem_cons, List.not_mem_nil, or_false]
        omega
      refine Lam.disjoint_of_support nM cA rfl (fun x hx => ?_) (fun x hx => ?_) <;> have := lab x hx <;> clear hx <;> revert x <;> decide
    have hp := hf _ nM (Lam.flag hL u1 u2 nC nM d1 (pC.disjoint nM nC rfl))
    obtain ⟨b, b1, b2⟩ := Lam.isPeripheral_spec anyClass (Lam.noArcs_iff.1 nM).1
    have : (⟨twoTori, [0, 0, 0, 1, 1, 0], .curve⟩ : Lam Int).isPeripheral anyClass = .ok false := by decide +kernel
    rw [this] at b1
    injection b1 with b1
    subst b1
    exact absurd (b2.2 hp) (by simp)

/-- C80, finding 27: on the torus, take an edge and the curve next to it.  The boundary of the edge consists of two copies of the curve, and so does that of the curve; `boundary` of both together should consist of four, but as
`disjoint_sum` of a list ignores repeated entries, two of them are lost. -/
theorem C80_copies_lost : (⟨torus, [-1, 1, 1], .integral⟩ : Lam Int).boundary anyClass neverSlow 20 = .ok ⟨torus, [0, 2, 2], .curve⟩ ∧ (⟨torus, [-1, 0, 0], .arc⟩ : Lam Int).boundary anyClass neverSlow 20 = .ok ⟨torus, [0, 2, 2], .curve⟩ ∧
    (⟨torus, [0, 1, 1], .curve⟩ : Lam Int).boundary anyClass neverSlow 20 = .ok ⟨torus, [0, 2, 2], .multicurve⟩ := by decide +kernel

end Curver
