import Verif.Proofs.BoundaryUnion
import Verif.Props.Crossing

/-!
# C97: `boundary_union` and `fills_with`

`P` stands for `promote()`; it returns the class that describes the lamination.  `c` is a multicurve, and `other` any integral lamination, which may cross `c`.
-/

namespace Curver
open Triangulation

section
variable (P : Lam Int → Py LamClass) (dflt : Int → Int → Bool) (fuel : Nat) (c : Lam Int) (hc : c.NoArcs) (hcls : c.Describes c.cls) (hP : ∀ L, ∃ k, P L = .ok k) (hT : Lam.TellsClass P)
variable (other : Lam Int) (ho : other.Consistent) (hd : other.Describes other.cls)
include hc hcls hP

/-- C97: crushing always leads to a lamination, even if `other` crosses the multicurve (when it returns). -/
theorem C97_crush (f : CrushEnc) (h : c.crushOf P dflt fuel = .ok f) (hT : Lam.TellsClass P) (ho : other.Consistent) (hd : other.Describes other.cls) (K : Lam Int) (hK : f.applyLam P other = .ok K) :
    K.tri = f.target ∧ K.Consistent ∧ K.Describes K.cls := by
  obtain ⟨h1, h2, h3⟩ := (Lam.crushOf_spec hP hc hcls h).1.2 other K ho.1 hK
  exact ⟨h2, (h3 ho).1, (h3 ho).2 hT hd⟩

include hT ho hd

theorem boundaryUnion_parts {B : Lam Int} (h : c.boundaryUnion P dflt fuel other = .ok B) : ∃ f g K m, c.crushOf P dflt fuel = .ok f ∧ f.inverse = .ok g ∧ f.applyLam P other = .ok K ∧ K.boundary P dflt fuel = .ok m ∧
    g.applyLam P m = .ok B ∧ K.Consistent ∧ K.Describes K.cls ∧ m.tri = f.target ∧ m.NoArcs := by
  unfold Lam.boundaryUnion at h
  simp only [py_bind_eq_ok] at h
  obtain ⟨_, -, f, h1, g, h2, K, h3, m, h4, h5⟩ := h
  obtain ⟨k1, k2, k3⟩ := C97_crush P dflt fuel c hc hcls hP other f h1 hT ho hd K h3
  obtain ⟨m1, m2, -⟩ := C80_lamination P dflt fuel K k2 k3 m h4
  exact ⟨f, g, K, m, h1, h2, h3, h4, h5, k2, k3, m1.trans k1, m2⟩

/-- C97: the result of `c.boundary_union(other)` consists of closed curves, and they do not cross `c`. -/
theorem C97_boundary_union (B : Lam Int) (h : c.boundaryUnion P dflt fuel other = .ok B) : B.tri = c.tri ∧ B.NoArcs ∧ B.DisjointFrom c := by
  obtain ⟨f, g, K, m, h1, h2, h3, h4, h5, k2, k3, m1, m2⟩ := boundaryUnion_parts P dflt fuel c hc hcls hP hT other ho hd h
  obtain ⟨g', r1, r2⟩ := (Lam.crushOf_spec hP hc hcls h1).lift hc
  rw [h2] at r1
  injection r1 with r1
  subst r1
  obtain ⟨M, s1, s2, s3, s4⟩ := r2 m m2 m1
  rw [h5] at s1
  injection s1 with s1
  subst s1
  exact ⟨s2, s3, s4⟩

/-- C97: if `other` does not cross the essential components of `c`, the result crosses no closed curve that avoids both. -/
theorem C97_surrounds (B : Lam Int) (h : c.boundaryUnion P dflt fuel other = .ok B) (ha : other.Avoids c) (M : Lam Int) (hM : M.NoArcs) (h1 : M.DisjointFrom c) (h2 : M.DisjointFrom other) : B.DisjointFrom M := by
  obtain ⟨f, g, K, m, i1, i2, i3, i4, i5, k2, k3, m1, m2⟩ := boundaryUnion_parts P dflt fuel c hc hcls hP hT other ho hd h
  obtain ⟨bt, bn, bd⟩ := C97_boundary_union P dflt fuel c hc hcls hP hT other ho hd B h
  have av := (avoids_iff c M hc hM).2 h1
  obtain ⟨g', A, M', Ds, j1, j2, j3, j4, j5, j6⟩ := (Lam.crushOf_spec hP hc hcls i1).lift_crush hc hM h1
  rw [i2] at j1
  injection j1 with j1
  subst j1
  -- the image of `M` does not cross that of `other`, nor its boundary
  obtain ⟨A', K', a1, a2, a3⟩ := (Lam.crushOf_spec hP hc hcls i1).disjoint hc av ha h2
  rw [j2] at a1
  injection a1 with a1
  subst a1
  rw [i3] at a2
  injection a2 with a2
  subst a2
  obtain ⟨A'', b1, b2, b3, b4⟩ := (Lam.crushOf_spec hP hc hcls i1).crush hc av
  rw [j2] at b1
  injection b1 with b1
  subst b1
  have e1 := (C80_lamination P dflt fuel K k2 k3 m i4).2.2.2 A (b4 hM) a3
  have e2 : B.DisjointFrom M' := (Lam.crushOf_spec hP hc hcls i1).lift_disjoint hc i2 m2 (b4 hM) m1 e1 i5 j3
  -- `M` consists of parts of `c` and the lift
  have key : ∀ (D : List (Lam Int)) (S : Lam Int), S.Unions (D ++ [M']) → S.Consistent → S.tri = B.tri → (∀ d ∈ D, B.DisjointFrom d) → B.DisjointFrom S := by
    intro D
    induction D with
    | nil =>
      intro S hS cS tS _
      cases hS with
      | cons u1 u2 =>
        cases u2 with
        | nil hb =>
          refine .union cS u1 e2 (hb.disjoint (u1.consistent cS).2.1 (Lam.noArcs_iff.1 bn).1 (u1.wf.2.2.2.trans tS)).symm
    | cons d D ih =>
      intro S hS cS tS q
      cases hS with
      | cons u1 u2 => exact .union cS u1 (q d (by simp)) (ih _ u2 (u1.consistent cS).2 (u1.wf.2.2.2.trans tS) (fun x hx => q x (by simp [hx])))
  refine key Ds M j4 (Lam.noArcs_iff.1 hM).1 (h1.tri.trans bt.symm) (fun d hd => ?_)
  exact ((avoids_iff c B hc bn).2 bd).2.2 d (j5 d hd)

omit hd in
/-- the boundary of closed curves -/
theorem boundary_closed {K m : Lam Int} (hK : K.NoArcs) (hd : K.Describes K.cls) (h : K.boundary P dflt fuel = .ok m) : m.IsUnion K K := by
  have cK := (Lam.noArcs_iff.1 hK).1
  by_cases hb : K.Blank
  · have h1 : K.cls.isMultiArc = false := by
      by_contra q
      exact (Lam.Describes.onlyArcs cK hd (by simpa using q)).2 hb
    have h2 : K.cls.isMultiCurve = false := by
      by_contra q
      exact (Lam.Describes.noArcs cK hd (by simpa using q)).2 hb
    unfold Lam.boundary Lam.boundaryWith at h
    rw [h1, h2, if_neg (by simp), if_neg (by simp), if_pos ((Lam.all_zero_iff cK.1).2 hb)] at h
    injection h with h
    subst h
    exact Lam.blank_self cK.1 hb
  · exact C80_multicurve P dflt fuel K cK hd (hK.isMultiCurve hb hd) m h

/-- C97: for closed curves that do not cross `c`: the result consists of two copies of what is left of `other` when its components that are components of `c` are removed.  In particular `c` itself is not there. -/
theorem C97_closed (hn : other.NoArcs) (hdis : other.DisjointFrom c) (B : Lam Int) (h : c.boundaryUnion P dflt fuel other = .ok B) : ∃ M, ∃ Ds : List (Lam Int), B.IsUnion M M ∧ other.Unions (Ds ++ [M]) ∧
    (∀ d ∈ Ds, c.EssentialPart d) ∧ (∀ X, c.EssentialPart X → ¬ M.HasPart X) ∧ ∀ X, c.EssentialPart X → ¬ B.HasPart X := by
  obtain ⟨f, g, K, m, i1, i2, i3, i4, i5, k2, k3, m1, m2⟩ := boundaryUnion_parts P dflt fuel c hc hcls hP hT other ho hd h
  obtain ⟨g', A, M, Ds, j1, j2, j3, j4, j5, j6⟩ := (Lam.crushOf_spec hP hc hcls i1).lift_crush hc hn hdis
  rw [i2] at j1
  injection j1 with j1
  subst j1
  rw [i3] at j2
  injection j2 with j2
  subst j2
  obtain ⟨K', b1, b2, b3, b4⟩ := (Lam.crushOf_spec hP hc hcls i1).crush hc ((avoids_iff c other hc hn).2 hdis)
  rw [i3] at b1
  injection b1 with b1
  subst b1
  have u := boundary_closed P dflt fuel c hc hcls hP hT other ho (b4 hn) k3 i4
  obtain ⟨B', M1, M2, v1, v2, v3, v4⟩ := (Lam.crushOf_spec hP hc hcls i1).lift_union hc i2 m2 m1 u
  rw [i5] at v1
  injection v1 with v1
  subst v1
  rw [j3] at v2 v3
  injection v2 with v2
  subst v2
  injection v3 with v3
  subst v3
  refine ⟨M, Ds, v4, j4, j5, j6, fun X hX q => ?_⟩
  have cB := (Lam.noArcs_iff.1 (C97_boundary_union P dflt fuel c hc hcls hP hT other ho hd B h).2.1).1
  have cM := (v4.consistent cB).1
  obtain ⟨D, d1, d2⟩ := Lam.exists_unions cM
  have w : B.Unions (D ++ D) := d1.glue cB v4 d1
  obtain ⟨Y, y1, y2⟩ := (Lam.Unions.hasPart_iff cB w (by simpa using d2)).1 q
  exact j6 X hX ((Lam.Unions.hasPart_iff cM d1 d2).2 ⟨Y, by simpa using y1, y2⟩)

end

/-! ## `fills_with` -/

section
variable (P : Lam Int → Py LamClass) (dflt : Int → Int → Bool) (fuel : Nat) (c : Lam Int) (hc : c.NoArcs) (hcls : c.Describes c.cls) (other : Lam Int) (ho : other.Consistent)
variable (hperi : other.NoArcs ∨ ∀ X, c.HasPart X → ¬ X.Peripheral)
include hc hcls ho hperi

/-- the components of `c` that are tested -/
theorem fillsWith_parts {b : Bool} (h : c.fillsWith P dflt fuel other = .ok b) :
    ((∃ X, c.HasPart X ∧ X.DisjointFrom other) ∧ b = false) ∨ (∀ X, c.HasPart X → ¬ X.DisjointFrom other) ∧ ∃ f K, c.crushOf P dflt fuel = .ok f ∧ f.applyLam P other = .ok K ∧ K.isFilling P dflt fuel = .ok b := by
  have cc := (Lam.noArcs_iff.1 hc).1
  unfold Lam.fillsWith at h
  simp only [py_bind_eq_ok] at h
  obtain ⟨_, -, cs, h1, b1, h2, h⟩ := h
  have H := Lam.componentsAll_spec cc hcls.right h1
  have parts : ∀ X, c.HasPart X ↔ ∃ p ∈ cs, Lam.Same p.1 X := fun X => H.hasPart_iff cc
  have isPart : ∀ p ∈ cs, c.HasPart p.1 := fun p hp => (parts _).2 ⟨p, hp, .refl⟩
  have zero : ∀ p ∈ cs, ∀ t, (do let x ← p.1.intersectionAll P dflt fuel other; return x == 0 : Py Bool) = .ok t → (t = true ↔ p.1.DisjointFrom other) := by
    intro p hp t ht
    rw [py_bind_eq_ok] at ht
    obtain ⟨x, x1, x2⟩ := ht
    injection x2 with x2
    subst x2
    have pp := isPart p hp
    have pc := (pp.consistent cc).1
    rw [beq_iff_eq]
    rcases hperi with q | q
    · exact (C85_closed P dflt fuel p.1 other pc q x x1).2
    · refine (C85_any P dflt fuel p.1 other pc (fun X hX _ hper => ?_) ho x x1).2
      exact q X (by
        obtain ⟨x1, N, hN⟩ := hX
        obtain ⟨_, M, hM⟩ := pp
        exact Lam.HasPart.of_union cc hM ⟨x1, N, hN⟩) hper
  obtain ⟨i1, i2⟩ := Lam.pyAnyM_spec h2
  cases b1
  · rw [if_neg (by simp)] at h
    simp only [py_bind_eq_ok] at h
    obtain ⟨f, h3, K, h4, h5⟩ := h
    refine .inr ⟨fun X hX q => ?_, f, K, h3, h4, h5⟩
    obtain ⟨p, p1, p2⟩ := (parts X).1 hX
    have := (zero p p1 false (i2 rfl p p1)).2 (q.same p2.symm .refl)
    cases this
  · rw [if_pos rfl] at h
    injection h with h
    obtain ⟨p, p1, p2⟩ := i1.1 rfl
    exact .inl ⟨⟨p.1, isPart p p1, (zero p p1 true p2).1 rfl⟩, h.symm⟩

/-- C97: if `other` misses a component of `c`, the answer is `False`.  (If that component is essential, it is an essential closed curve that crosses neither.) -/
theorem C97_missed (X : Lam Int) (hX : c.HasPart X) (hd : other.DisjointFrom X) (b : Bool) (h : c.fillsWith P dflt fuel other = .ok b) : b = false ∧ X.NoArcs ∧ X.DisjointFrom c ∧ X.DisjointFrom other := by
  refine ⟨?_, hX.noArcs hc, ?_, hd.symm⟩
  · rcases fillsWith_parts P dflt fuel c hc hcls other ho hperi h with q | q
    · exact q.2
    · exact absurd hd.symm (q.1 X hX)
  · obtain ⟨-, N, hN⟩ := hX
    exact hN.again (Lam.noArcs_iff.1 hc).1

/-- C97: if the crushed surface is connected, the answer is `True` just if `other` crosses each component of `c` and what it becomes when `c` is crushed meets every essential closed curve. -/
theorem C97_fills_with (hP : ∀ L, ∃ k, P L = .ok k) (hT : Lam.TellsClass P) (hd : other.Describes other.cls) (f : CrushEnc) (hf : c.crushOf P dflt fuel = .ok f) (hs : f.target.ConnectedSurface)
    (h3 : ∀ K, f.applyLam P other = .ok K → K.cls.isMultiCurve = true → ¬ f.target.ThreePunctures) (b : Bool) (h : c.fillsWith P dflt fuel other = .ok b) :
    b = true ↔ (∀ X, c.HasPart X → ¬ X.DisjointFrom other) ∧ ∃ K, f.applyLam P other = .ok K ∧ K.Fills := by
  rcases fillsWith_parts P dflt fuel c hc hcls other ho hperi h with ⟨⟨X, q1, q2⟩, q3⟩ | ⟨q1, f', K, q2, q3, q4⟩
  · subst q3
    simp only [Bool.false_eq_true, false_iff]
    exact fun q => q.1 X q1 q2
  · rw [hf] at q2
    injection q2 with q2
    subst q2
    obtain ⟨k1, k2, k3⟩ := C97_crush P dflt fuel c hc hcls hP other f hf hT ho hd K q3
    rw [C81_is_filling P dflt fuel K k2 k3 (by rw [k1]; exact hs) (by rw [k1]; exact h3 K q3) b q4]
    constructor
    · exact fun q => ⟨q1, K, q3, q⟩
    · rintro ⟨-, K', r1, r2⟩
      rw [q3] at r1
      injection r1 with r1
      subst r1
      exact r2

omit hperi in
/-- C97: closed curves never fill together with a multicurve that has a component around a vertex, according to `fills_with`. -/
theorem C97_peripheral (hn : other.NoArcs) (ht : other.tri = c.tri) (X : Lam Int) (hX : c.HasPart X) (hp : X.Peripheral) (b : Bool) (h : c.fillsWith P dflt fuel other = .ok b) : b = false :=
  (C97_missed P dflt fuel c hc hcls other ho (.inl hn) X hX (hp.disjoint hn (hX.noArcs hc) (ht.trans (hX.consistent (Lam.noArcs_iff.1 hc).1).2.symm)) b h).1

end

/-! ## the hypotheses are met -/

open Classical in
/-- `promote()`, given enough time: what it returns within 50 rounds, and otherwise the class that describes the lamination -/
noncomputable def rightClass (L : Lam Int) : Py LamClass := match Lam.classAll neverSlow 50 L with
  | .ok k => .ok k
  | .error _ => if h : L.Consistent then .ok (Classical.choose (Lam.exists_describes h)) else .ok .integral

theorem rightClass_returns (L : Lam Int) : ∃ k, rightClass L = .ok k := by
  unfold rightClass
  split
  · exact ⟨_, rfl⟩
  · split_ifs <;> exact ⟨_, rfl⟩

theorem rightClass_tells : Lam.TellsClass rightClass := by
  intro L k hL h
  unfold rightClass at h
  split at h
  · rename_i k' hk
    injection h with h
    subst h
    unfold Lam.classAll at hk
    simp only [py_bind_eq_ok] at hk
    obtain ⟨⟨s, g⟩, s1, s2⟩ := hk
    injection s2 with s2
    dsimp only at s2
    have := (C68_shorten _ _ _ _ _ hL.1 s g s1).2
    rwa [s2] at this
  · rw [dif_pos hL] at h
    injection h with h
    subst h
    exact Classical.choose_spec (Lam.exists_describes hL)

theorem torusCurve_describes : torusCurve.Describes torusCurve.cls := by
  have h : rightClass torusCurve = .ok .curve := by decide +kernel
  exact rightClass_tells torusCurve .curve torusCurve_consistent h

theorem torusLong_describes : torusLong.Describes torusLong.cls := by
  have h : rightClass torusLong = .ok .curve := by decide +kernel
  exact rightClass_tells torusLong .curve (Lam.noArcs_iff.1 torusLong_noArcs).1 h

/-- two curves on a torus with one puncture that cross: the boundary of their union goes round the puncture -/
theorem torus_boundary_union : ∃ B, torusCurve.boundaryUnion rightClass neverSlow 50 torusLong = .ok B ∧ B.geometric = [2, 2, 2] := by
  have h : (do let B ← torusCurve.boundaryUnion rightClass neverSlow 50 torusLong; return B.geometric : Py (List Int)) = .ok [2, 2, 2] := by decide +kernel
  rw [py_bind_eq_ok] at h
  obtain ⟨B, h1, h2⟩ := h
  injection h2 with h2
  exact ⟨B, h1, h2⟩

example : ∃ B, torusCurve.boundaryUnion rightClass neverSlow 50 torusLong = .ok B ∧ ¬ B.Blank ∧ B.NoArcs ∧ B.DisjointFrom torusCurve := by
  obtain ⟨B, h1, h2⟩ := torus_boundary_union
  obtain ⟨b1, b2, b3⟩ := C97_boundary_union rightClass neverSlow 50 torusCurve torusCurve_noArcs torusCurve_describes rightClass_returns rightClass_tells torusLong (Lam.noArcs_iff.1 torusLong_noArcs).1 torusLong_describes B h1
  refine ⟨B, h1, fun q => ?_, b2, b3⟩
  have := q 0 (by rw [b1]; decide)
  unfold Lam.w at this
  rw [h2] at this
  exact absurd this (by decide)

/-- they fill the torus, and `fills_with` says so; `C97_fills_with` applies -/
example : ∃ f K, torusCurve.crushOf rightClass neverSlow 50 = .ok f ∧ f.applyLam rightClass torusLong = .ok K ∧ K.Fills := by
  obtain ⟨f, hf⟩ : ∃ f, torusCurve.crushOf rightClass neverSlow 50 = .ok f := exists_ok (by decide +kernel)
  have ht : (do let f ← torusCurve.crushOf rightClass neverSlow 50; return f.target.triangles : Py (List Tri)) = .ok [⟨-3, 0, 1⟩, ⟨-2, -1, 2⟩] := by decide +kernel
  rw [hf, py_bind_ok] at ht
  injection ht with ht
  have hk : (do let f ← torusCurve.crushOf rightClass neverSlow 50; let K ← f.applyLam rightClass torusLong; return K.cls : Py LamClass) = .ok .multiarc := by decide +kernel
  rw [hf, py_bind_ok] at hk
  have hv := (Lam.crushOf_spec rightClass_returns torusCurve_noArcs torusCurve_describes hf).valid
  have hs : f.target.ConnectedSurface := by
    obtain ⟨b, b1, b2⟩ := C35_connected f.target hv (by rw [ht]; decide)
    have e : f.target = ⟨[⟨-3, 0, 1⟩, ⟨-2, -1, 2⟩]⟩ := by
      cases h : f.target with
      | mk ts => rw [h] at ht; rw [← ht]
    have : f.target.isConnected = .ok true := by rw [e]; decide +kernel
    rw [this] at b1
    injection b1 with b1
    exact ⟨by rw [ht]; decide, b2.1 b1.symm⟩
  have h : torusCurve.fillsWith rightClass neverSlow 50 torusLong = .ok true := by decide +kernel
  have := (C97_fills_with rightClass neverSlow 50 torusCurve torusCurve_noArcs torusCurve_describes torusLong (Lam.noArcs_iff.1 torusLong_noArcs).1 (.inl torusLong_noArcs) rightClass_returns rightClass_tells torusLong_describes f hf hs
    (fun K hK hm => by
      rw [hK, py_bind_ok] at hk
      injection hk with hk
      rw [hk] at hm
      exact absurd hm (by decide)) true h).1 rfl
  obtain ⟨-, K, k1, k2⟩ := this
  exact ⟨f, K, hf, k1, k2⟩

/-- `boundary_union` of a curve with itself is empty, though a neighbourhood of the curve has two boundary components -/
example : sphereShort.NoArcs ∧ sphereShort.DisjointFrom sphereShort ∧
    (do let B ← sphereShort.boundaryUnion rightClass neverSlow 50 sphereShort; return B.geometric : Py (List Int)) = .ok [0, 0, 0, 0, 0, 0] :=
  ⟨sphereShort_noArcs, self_avoids _ sphereShort_noArcs, by decide +kernel⟩

/-- two components of a multicurve on two tori, and a curve round a puncture: the puncture is what is left -/
example : (do let B ← bothTori.boundaryUnion rightClass neverSlow 50 ⟨twoTori, [2, 2, 2, 0, 0, 0], .curve⟩; return B.geometric : Py (List Int)) = .ok [4, 4, 4, 0, 0, 0] := by decide +kernel

/-- adding the curve round the puncture turns `True` into `False` -/
example : torusBoth.IsUnion torusCurve torusAround ∧ torusCurve.fillsWith rightClass neverSlow 50 torusLong = .ok true ∧ torusBoth.fillsWith rightClass neverSlow 50 torusLong = .ok false :=
  ⟨torusBoth_union, by decide +kernel, by decide +kernel⟩

end Curver
