import Verif.Proofs.MultiCrush
import Verif.Props.Union
import Verif.Props.Filling

/-!
# C92: what crushing along a curve does to disjoint unions, disjointness, and connected laminations; C93: crushing along multicurves

`P` stands for `promote()`, which is only asked to return.  In C92 `c` is an essential closed curve and `f = c.crush()`; in C93 `c` is any multicurve, and `f = c.crush()` crushes along all its essential components.
-/

namespace Curver
open Triangulation

section
variable (P : Lam Int → Py LamClass) (dflt : Int → Int → Bool) (fuel : Nat) (c : Lam Int) (hc : c.NoArcs) (hP : ∀ L, ∃ k, P L = .ok k)
variable (hn : c.Connected) (hp : ¬ c.Peripheral) (f : CrushEnc) (h : c.crush P dflt fuel = .ok f)
include hc hP hn hp h

/-- C92: a crush respects disjoint unions. -/
theorem C92_union (S X Y : Lam Int) (hd : S.DisjointFrom c) (hu : S.IsUnion X Y) : ∃ K A B, f.applyLam P S = .ok K ∧ f.applyLam P X = .ok A ∧ f.applyLam P Y = .ok B ∧ K.IsUnion A B := by
  obtain ⟨g1, g2, m, s, a, b, e, Z, H⟩ := Lam.crush_spec hc hp h
  exact H.union hP hd hu

/-- C92: a lift respects disjoint unions. -/
theorem C92_lift_union (g : CrushEnc) (hg : f.inverse = .ok g) (N X Y : Lam Int) (hN : N.NoArcs) (ht : N.tri = f.target) (hu : N.IsUnion X Y) :
    ∃ M A B, g.applyLam P N = .ok M ∧ g.applyLam P X = .ok A ∧ g.applyLam P Y = .ok B ∧ M.IsUnion A B := by
  obtain ⟨g1, g2, m, s, a, b, e, Z, H⟩ := Lam.crush_spec hc hp h
  rw [H.inverse] at hg
  injection hg with hg
  rw [← hg]
  exact H.lift_union hP hN ht hu

/-- C92: laminations that do not cross `c` or each other do not cross each other afterwards. -/
theorem C92_disjoint (X Y : Lam Int) (hX : X.DisjointFrom c) (hY : Y.DisjointFrom c) (hd : X.DisjointFrom Y) : ∃ A B, f.applyLam P X = .ok A ∧ f.applyLam P Y = .ok B ∧ A.DisjointFrom B := by
  obtain ⟨g, H⟩ := Lam.crush_crusher hc hn hp hP h
  obtain ⟨A, a1, -⟩ := C90_crush P dflt fuel c hc hP hp f h X hX
  obtain ⟨B, b1, -⟩ := C90_crush P dflt fuel c hc hP hp f h Y hY
  have s := C88_surface P dflt fuel c hc hp f h
  exact ⟨A, B, a1, b1, H.disjoint (by simpa using hX) (by simpa using hY) (hX.tri.trans s.1.symm) hd a1 b1⟩

/-- C92: lifts of closed curves that do not cross do not cross. -/
theorem C92_lift_disjoint (g : CrushEnc) (hg : f.inverse = .ok g) (X Y : Lam Int) (hX : X.NoArcs) (hY : Y.NoArcs) (ht : X.tri = f.target) (hd : X.DisjointFrom Y) :
    ∃ A B, g.applyLam P X = .ok A ∧ g.applyLam P Y = .ok B ∧ A.DisjointFrom B := by
  obtain ⟨g', H⟩ := Lam.crush_crusher hc hn hp hP h
  have := H.inverse
  rw [hg] at this
  injection this with this
  subst this
  obtain ⟨A, a1, -⟩ := H.lift X hX ht
  obtain ⟨B, b1, -⟩ := H.lift Y hY (hd.tri.symm.trans ht)
  exact ⟨A, B, a1, b1, H.lift_disjoint hX hY ht hd a1 b1⟩

/-- C92: a closed curve that is disjoint from `c` and not `c` itself is mapped to a single closed curve, from which it can be recovered.  This curve is essential if the curve was. -/
theorem C92_curve (g : CrushEnc) (hg : f.inverse = .ok g) (L : Lam Int) (hL : L.NoArcs) (hl : L.Connected) (hd : L.DisjointFrom c) (hne : L.geometric ≠ c.geometric) :
    ∃ K M, f.applyLam P L = .ok K ∧ K.NoArcs ∧ K.Connected ∧ (¬ L.Peripheral → ¬ K.Peripheral) ∧ g.applyLam P K = .ok M ∧ M.tri = L.tri ∧ M.geometric = L.geometric := by
  obtain ⟨g', H⟩ := Lam.crush_crusher hc hn hp hP h
  have := H.inverse
  rw [hg] at this
  injection this with this
  subst this
  obtain ⟨K, k1, k2, k3, k4⟩ := C90_crush P dflt fuel c hc hP hp f h L hd
  have s := C88_surface P dflt fuel c hc hp f h
  have ht := hd.tri.trans s.1.symm
  have nn : ∀ d ∈ [c], ¬ Lam.Same d L := by
    intro d hd e
    rw [List.mem_singleton.1 hd] at e
    exact hne e.2.symm
  obtain ⟨i1, M, m1, m2⟩ := H.image hL hl ht (by simpa using hd) nn k1
  exact ⟨K, M, k1, k4 hL, i1, H.image_essential hL hl ht (by simpa using hd) nn k1, m1, m2⟩

/-- C92: a closed curve in the crushed surface lifts to a single closed curve, and around a vertex it lifts to `c` or to a curve around a vertex. -/
theorem C92_lift_curve (g : CrushEnc) (hg : f.inverse = .ok g) (N : Lam Int) (hN : N.NoArcs) (hl : N.Connected) (ht : N.tri = f.target) :
    ∃ M, g.applyLam P N = .ok M ∧ M.NoArcs ∧ M.Connected ∧ (N.Peripheral → M.Peripheral ∨ M.geometric = c.geometric) := by
  obtain ⟨g', H⟩ := Lam.crush_crusher hc hn hp hP h
  have := H.inverse
  rw [hg] at this
  injection this with this
  subst this
  obtain ⟨M, m1, m2, m3, -⟩ := H.lift N hN ht
  refine ⟨M, m1, m3, H.lift_connected hN hl ht m1, fun q => ?_⟩
  rcases H.links N M hN q hl ht m1 with r | ⟨d, r1, r2⟩
  · exact .inl r
  · rw [List.mem_singleton.1 r1] at r2
    exact .inr r2.2

end

/-- For closed curves, not crossing the essential components of `c` means not crossing `c`. -/
theorem avoids_iff (c L : Lam Int) (hc : c.NoArcs) (hL : L.NoArcs) : L.Avoids c ↔ L.DisjointFrom c := by
  have hcc := (Lam.noArcs_iff.1 hc).1
  constructor
  · rintro ⟨a1, a2, a3⟩
    obtain ⟨D, d1, d2⟩ := Lam.exists_unions hcc
    have key : ∀ {D : List (Lam Int)} {S : Lam Int}, S.Unions D → S.Consistent → S.tri = L.tri → (∀ X ∈ D, L.DisjointFrom X) → L.DisjointFrom S := by
      intro D S hu
      induction hu with
      | nil hb => exact fun q1 q2 _ => (Lam.Blank.disjoint hb q1.1 a1 q2).symm
      | cons h1 h2 ih => exact fun q1 q2 q3 => .union q1 h1 (q3 _ (by simp)) (ih (h1.consistent q1).2 (h1.wf.2.2.2.trans q2) (fun X hX => q3 X (by simp [hX])))
    refine key d1 hcc a2.symm (fun X hX => ?_)
    have hpart : c.HasPart X := (Lam.Unions.hasPart_iff hcc d1 d2).2 ⟨X, hX, .refl⟩
    by_cases q : X.Peripheral
    · exact q.disjoint hL (hpart.noArcs hc) (a2.trans (hpart.consistent hcc).2.symm)
    · exact a3 X ⟨hpart, q⟩
  · intro hd
    refine ⟨(Lam.noArcs_iff.1 hL).1, hd.tri, fun X hX => ?_⟩
    obtain ⟨⟨-, N, hN⟩, -⟩ := hX
    exact hd.left hN

section
variable (P : Lam Int → Py LamClass) (dflt : Int → Int → Bool) (fuel : Nat) (c : Lam Int) (hc : c.NoArcs) (hP : ∀ L, ∃ k, P L = .ok k) (f : CrushEnc) (h : c.crushAll P dflt fuel = .ok f)
include hc hP h

/-- C93: the crushed surface has as many edges as before, and two more vertices for every essential component of the multicurve. -/
theorem C93_surface : f.source = c.tri ∧ f.target.Valid ∧ f.target.zeta = c.tri.zeta ∧ ∃ E n, c.ListsEssential E ∧ c.tri.numVertices = .ok n ∧ f.target.numVertices = .ok (n + 2 * E.length) := by
  obtain ⟨s, E, g, H, hE⟩ := Lam.crushAll_spec hP hc h
  obtain ⟨n, n1, n2⟩ := H.verts
  refine ⟨s, H.valid.2, by rw [H.zeta, s], E, n, ⟨fun X => ?_, ?_, fun Y hY => by rw [(H.curves Y hY).2.2.2, s]⟩, by rw [← s]; exact n1, n2⟩
  · rw [hE]
    constructor
    · rintro ⟨Y, y1, y2⟩
      exact ⟨y2.1.symm.trans ((H.curves Y y1).2.2.2.trans s), Y, y1, y2.2⟩
    · rintro ⟨x, Y, y1, y2⟩
      exact ⟨Y, y1, ((H.curves Y y1).2.2.2.trans s).trans x.symm, y2⟩
  · unfold List.Nodup
    rw [List.pairwise_map]
    refine H.apart.imp_of_mem (fun {d e} hd he q => ?_)
    exact fun x => q.2 ⟨(H.curves d hd).2.2.2.trans (H.curves e he).2.2.2.symm, x⟩

/-- C93: everything that does not cross the essential components, arcs included, can be crushed, and closed curves are mapped to closed curves. -/
theorem C93_crush (L : Lam Int) (hL : L.Avoids c) : ∃ K, f.applyLam P L = .ok K ∧ K.tri = f.target ∧ K.Consistent ∧ (L.NoArcs → K.NoArcs) := by
  obtain ⟨s, E, g, H, hE⟩ := Lam.crushAll_spec hP hc h
  exact H.apply L hL.1 (hL.2.1.trans s.symm) (fun d hd => hL.2.2 d ((hE d).2 ⟨d, hd, .refl⟩))

/-- C93: disjoint unions are respected. -/
theorem C93_union (S X Y : Lam Int) (hS : S.Avoids c) (hu : S.IsUnion X Y) : ∃ K A B, f.applyLam P S = .ok K ∧ f.applyLam P X = .ok A ∧ f.applyLam P Y = .ok B ∧ K.IsUnion A B := by
  obtain ⟨s, E, g, H, hE⟩ := Lam.crushAll_spec hP hc h
  have hd : ∀ d ∈ E, S.DisjointFrom d := fun d hd => hS.2.2 d ((hE d).2 ⟨d, hd, .refl⟩)
  have ht := hS.2.1.trans s.symm
  obtain ⟨K, k1, -⟩ := H.apply S hS.1 ht hd
  obtain ⟨A, B, a, b, u⟩ := H.union_ok hS.1 ht hd hu k1
  exact ⟨K, A, B, k1, a, b, u⟩

/-- C93: laminations that do not cross stay so. -/
theorem C93_disjoint (X Y : Lam Int) (hX : X.Avoids c) (hY : Y.Avoids c) (hd : X.DisjointFrom Y) : ∃ A B, f.applyLam P X = .ok A ∧ f.applyLam P Y = .ok B ∧ A.DisjointFrom B := by
  obtain ⟨s, E, g, H, hE⟩ := Lam.crushAll_spec hP hc h
  have h1 : ∀ d ∈ E, X.DisjointFrom d := fun d hd => hX.2.2 d ((hE d).2 ⟨d, hd, .refl⟩)
  have h2 : ∀ d ∈ E, Y.DisjointFrom d := fun d hd => hY.2.2 d ((hE d).2 ⟨d, hd, .refl⟩)
  obtain ⟨A, a, -⟩ := H.apply X hX.1 (hX.2.1.trans s.symm) h1
  obtain ⟨B, b, -⟩ := H.apply Y hY.1 (hY.2.1.trans s.symm) h2
  exact ⟨A, B, a, b, H.disjoint h1 h2 (hX.2.1.trans s.symm) hd a b⟩

/-- C93: the crush can be inverted, and its inverse lifts closed curves to closed curves that do not cross the multicurve. -/
theorem C93_lift : ∃ g, f.inverse = .ok g ∧ ∀ N : Lam Int, N.NoArcs → N.tri = f.target → ∃ M, g.applyLam P N = .ok M ∧ M.tri = c.tri ∧ M.NoArcs ∧ M.DisjointFrom c := by
  obtain ⟨s, E, g, H, hE⟩ := Lam.crushAll_spec hP hc h
  refine ⟨g, H.inverse, fun N hN ht => ?_⟩
  obtain ⟨M, m1, m2, m3, m4⟩ := H.lift N hN ht
  refine ⟨M, m1, m2.trans s, m3, (avoids_iff c M hc m3).1 ⟨(Lam.noArcs_iff.1 m3).1, m2.trans s, fun X hX => ?_⟩⟩
  obtain ⟨Y, y1, y2⟩ := (hE X).1 hX
  exact (m4 Y y1).same .refl y2

/-- C93: lifts respect disjoint unions. -/
theorem C93_lift_union (g : CrushEnc) (hg : f.inverse = .ok g) (N X Y : Lam Int) (hN : N.NoArcs) (ht : N.tri = f.target) (hu : N.IsUnion X Y) :
    ∃ M A B, g.applyLam P N = .ok M ∧ g.applyLam P X = .ok A ∧ g.applyLam P Y = .ok B ∧ M.IsUnion A B := by
  obtain ⟨s, E, g', H, hE⟩ := Lam.crushAll_spec hP hc h
  have := H.inverse
  rw [hg] at this
  injection this with this
  subst this
  obtain ⟨M, m1, -⟩ := H.lift N hN ht
  obtain ⟨A, B, a, b, u⟩ := H.lift_ok hN ht hu m1
  exact ⟨M, A, B, m1, a, b, u⟩

/-- C93: lifting after crushing: closed curves that do not cross the multicurve come back, except for the copies of its essential components, all of which are lost. -/
theorem C93_lift_crush (L : Lam Int) (hL : L.NoArcs) (hd : L.DisjointFrom c) : ∃ g K M, ∃ Ds : List (Lam Int), f.inverse = .ok g ∧ f.applyLam P L = .ok K ∧ g.applyLam P K = .ok M ∧
    L.Unions (Ds ++ [M]) ∧ (∀ d ∈ Ds, c.EssentialPart d) ∧ ∀ X, c.EssentialPart X → ¬ M.HasPart X := by
  obtain ⟨s, E, g, H, hE⟩ := Lam.crushAll_spec hP hc h
  have av := (avoids_iff c L hc hL).2 hd
  have hdE : ∀ d ∈ E, L.DisjointFrom d := fun d hd => av.2.2 d ((hE d).2 ⟨d, hd, .refl⟩)
  have ht := av.2.1.trans s.symm
  obtain ⟨K, k1, k2, k3, k4⟩ := H.apply L av.1 ht hdE
  obtain ⟨M, m1, -⟩ := H.lift K (k4 hL) k2
  obtain ⟨Ds, d1, d2, d3⟩ := H.lift_apply L K M hL ht hdE k1 m1
  refine ⟨g, K, M, Ds, H.inverse, k1, m1, d2, fun d hd => (hE d).2 ⟨d, d1 d hd, .refl⟩, fun X hX q => ?_⟩
  obtain ⟨Y, y1, y2⟩ := (hE X).1 hX
  obtain ⟨-, Z, hZ⟩ := q.same' y2.symm
  exact d3 Y y1 ⟨Z, hZ⟩

/-- C93: crushing after lifting: closed curves of the crushed surface come back, except for curves that lift to essential components of the multicurve. -/
theorem C93_crush_lift (g : CrushEnc) (hg : f.inverse = .ok g) (N : Lam Int) (hN : N.NoArcs) (ht : N.tri = f.target) : ∃ M K, ∃ Ps : List (Lam Int), g.applyLam P N = .ok M ∧ f.applyLam P M = .ok K ∧
    N.Unions (Ps ++ [K]) ∧ ∀ p ∈ Ps, p.Connected ∧ ∃ d, g.applyLam P p = .ok d ∧ c.EssentialPart d := by
  obtain ⟨s, E, g', H, hE⟩ := Lam.crushAll_spec hP hc h
  have := H.inverse
  rw [hg] at this
  injection this with this
  subst this
  obtain ⟨M, m1, m2, m3, m4⟩ := H.lift N hN ht
  obtain ⟨K, k1, -⟩ := H.apply M (Lam.noArcs_iff.1 m3).1 m2 m4
  obtain ⟨Ps, p1, p2⟩ := H.apply_lift N M K hN ht m1 k1
  refine ⟨M, K, Ps, m1, k1, p1, fun p hp => ?_⟩
  obtain ⟨q1, d, q2, e, q3, q4⟩ := p2 p hp
  exact ⟨q1, d, q2, (hE d).2 ⟨e, q3, q4.symm⟩⟩

/-- C93: a closed curve that does not cross the multicurve, and is not one of its essential components, is mapped to a single closed curve, from which it can be recovered.  This curve is essential if the curve was. -/
theorem C93_curve (g : CrushEnc) (hg : f.inverse = .ok g) (L : Lam Int) (hL : L.NoArcs) (hl : L.Connected) (hd : L.DisjointFrom c) (hne : ¬ c.EssentialPart L) :
    ∃ K M, f.applyLam P L = .ok K ∧ K.NoArcs ∧ K.Connected ∧ (¬ L.Peripheral → ¬ K.Peripheral) ∧ g.applyLam P K = .ok M ∧ M.tri = L.tri ∧ M.geometric = L.geometric := by
  obtain ⟨s, E, g', H, hE⟩ := Lam.crushAll_spec hP hc h
  have := H.inverse
  rw [hg] at this
  injection this with this
  subst this
  have av := (avoids_iff c L hc hL).2 hd
  have hdE : ∀ d ∈ E, L.DisjointFrom d := fun d hd => av.2.2 d ((hE d).2 ⟨d, hd, .refl⟩)
  have ht := av.2.1.trans s.symm
  have nn : ∀ d ∈ E, ¬ Lam.Same d L := fun d hd q => hne ((hE L).2 ⟨d, hd, q⟩)
  obtain ⟨K, k1, k2, k3, k4⟩ := H.apply L av.1 ht hdE
  obtain ⟨i1, M, m1, m2⟩ := H.image hL hl ht hdE nn k1
  exact ⟨K, M, k1, k4 hL, i1, H.image_essential hL hl ht hdE nn k1, m1, m2⟩

/-- C93: an essential component is mapped to nothing. -/
theorem C93_component (X : Lam Int) (hX : c.EssentialPart X) : ∃ K, f.applyLam P X = .ok K ∧ K.Blank := by
  have hXn := hX.1.noArcs hc
  have hd : X.DisjointFrom c := by
    refine (avoids_iff c X hc hXn).1 ⟨(Lam.noArcs_iff.1 hXn).1, (hX.1.consistent (Lam.noArcs_iff.1 hc).1).2, fun Y hY => ?_⟩
    by_cases q : Lam.Same X Y
    · obtain ⟨B, b1, b2⟩ := Lam.double (Lam.noArcs_iff.1 hXn).1
      exact Lam.DisjointFrom.same ⟨B, b1, b2⟩ .refl q
    · exact hX.1.disjoint hY.1 (Lam.noArcs_iff.1 hc).1 q
  obtain ⟨g, K, M, Ds, q1, q2, q3, q4, q5, q6⟩ := C93_lift_crush P dflt fuel c hc hP f h X hXn hd
  refine ⟨K, q2, ?_⟩
  obtain ⟨s, E, g', H, hE⟩ := Lam.crushAll_spec hP hc h
  have := H.inverse
  rw [q1] at this
  injection this with this
  subst this
  have av := (avoids_iff c X hc hXn).2 hd
  have hdE : ∀ d ∈ E, X.DisjointFrom d := fun d hd => av.2.2 d ((hE d).2 ⟨d, hd, .refl⟩)
  obtain ⟨w1, w2, w3⟩ := H.apply_wf av.1 (av.2.1.trans s.symm) hdE q2
  refine H.blank_of_lift (w3 hXn) w2 q3 ?_
  obtain ⟨Q, hQ⟩ := q4.pull av.1 (X := M) (by simp)
  rcases hX.1.1.of_union hXn.1 hQ with r | ⟨-, r⟩
  · exact r.1
  · obtain ⟨Z, z1, -⟩ := Lam.Crusher.same_union (r.wf hXn.1) (Lam.Same.refl (X := M))
    exact absurd (⟨hX.1.1.same r, Z, z1⟩ : M.HasPart M) (q6 M ⟨hX.1.same' r, fun y => hX.2 (y.same r.symm)⟩)

/-- C93: a closed curve of the crushed surface lifts to a single closed curve; around a vertex it lifts to an essential component of the multicurve or to a curve around a vertex. -/
theorem C93_lift_curve (g : CrushEnc) (hg : f.inverse = .ok g) (N : Lam Int) (hN : N.NoArcs) (hl : N.Connected) (ht : N.tri = f.target) :
    ∃ M, g.applyLam P N = .ok M ∧ M.NoArcs ∧ M.Connected ∧ (N.Peripheral → M.Peripheral ∨ c.EssentialPart M) := by
  obtain ⟨s, E, g', H, hE⟩ := Lam.crushAll_spec hP hc h
  have := H.inverse
  rw [hg] at this
  injection this with this
  subst this
  obtain ⟨M, m1, m2, m3, -⟩ := H.lift N hN ht
  refine ⟨M, m1, m3, H.lift_connected hN hl ht m1, fun q => ?_⟩
  rcases H.links N M hN q hl ht m1 with r | ⟨d, r1, r2⟩
  · exact .inl r
  · exact .inr ((hE M).2 ⟨d, r1, r2.symm⟩)

end

/-! ## the hypotheses are met -/

/-- a curve on each of two tori -/
def bothTori : Lam Int := ⟨twoTori, [1, 1, 0, 1, 1, 0], .multicurve⟩

theorem bothTori_noArcs : bothTori.NoArcs := by
  rw [Lam.noArcs_iff, Lam.consistent_iff]
  refine ⟨⟨⟨twoTori_valid, by decide⟩, ?_⟩, ?_⟩
  · intro a b c h
    rcases h with h | h | h <;> simp [bothTori, twoTori] at h <;>
      rcases h with ⟨rfl, rfl, rfl⟩ | ⟨rfl, rfl, rfl⟩ | ⟨rfl, rfl, rfl⟩ | ⟨rfl, rfl, rfl⟩ <;> intro _ _ _ <;> decide
  · intro a b c h
    rcases h with h | h | h <;> simp [bothTori, twoTori] at h <;>
      rcases h with ⟨rfl, rfl, rfl⟩ | ⟨rfl, rfl, rfl⟩ | ⟨rfl, rfl, rfl⟩ | ⟨rfl, rfl, rfl⟩ <;> decide

theorem bothTori_crush : ∃ f, bothTori.crushAll anyClass neverSlow 50 = .ok f := exists_ok (by decide +kernel)

/-- two tori with one puncture each become two spheres with three punctures each; all conclusions of C93 apply -/
example : ∃ f, bothTori.crushAll anyClass neverSlow 50 = .ok f ∧ f.target.zeta = 6 ∧ f.target.numVertices = .ok 6 ∧ ∃ E, bothTori.ListsEssential E ∧ E.length = 2 := by
  obtain ⟨f, h⟩ := bothTori_crush
  obtain ⟨-, h2, h3, E, n, h4, h5, h6⟩ := C93_surface anyClass neverSlow 50 bothTori bothTori_noArcs (fun _ => ⟨_, rfl⟩) f h
  rw [show bothTori.tri.numVertices = .ok 2 from by decide +kernel] at h5
  injection h5 with h5
  have h7 : (do let f ← bothTori.crushAll anyClass neverSlow 50; f.target.numVertices) = .ok 6 := by decide +kernel
  rw [h, py_bind_ok] at h7
  refine ⟨f, h, h3, h7, E, h4, ?_⟩
  rw [h7] at h6
  injection h6 with h6
  omega

/-- the curves around the six vertices lift to the curves around the two old vertices and, twice each, to the components -/
example : (do
    let f ← bothTori.crushAll anyClass neverSlow 50
    let g ← f.inverse
    let vs ← f.target.vertices
    vs.mapM (fun v => do let L ← g.applyLam anyClass (f.target.curveFromCutSequence v); return L.geometric)) =
      .ok [[0, 0, 0, 2, 2, 2], [0, 0, 0, 1, 1, 0], [0, 0, 0, 1, 1, 0], [2, 2, 2, 0, 0, 0], [1, 1, 0, 0, 0, 0], [1, 1, 0, 0, 0, 0]] := by decide +kernel

/-- a multicurve does not cross itself -/
theorem self_avoids (c : Lam Int) (hc : c.NoArcs) : c.DisjointFrom c := Lam.double (Lam.noArcs_iff.1 hc).1

/-- `crush` of a multicurve with a peripheral component, which is kept, and three copies of an essential curve, which are lost -/
example : (do
    let f ← (⟨sphereLoop, [0, 1, 3, 3, 3, 0], .multicurve⟩ : Lam Int).crushAll anyClass neverSlow 50
    let g ← f.inverse
    let K ← f.applyLam anyClass ⟨sphereLoop, [0, 1, 3, 3, 3, 0], .multicurve⟩
    let M ← g.applyLam anyClass K
    return M.geometric) = .ok [0, 1, 0, 0, 0, 0] := by decide +kernel

theorem sphereShort_connected : sphereShort.Connected := by
  have h : (do let r ← Lam.shortenAll anyClass neverSlow 50 neverSlow sphereShort; return r.1.cls) = (.ok .curve : Py LamClass) := by decide +kernel
  rw [py_bind_eq_ok] at h
  obtain ⟨⟨s, g⟩, h1, h2⟩ := h
  injection h2 with h2
  have := (C68_shorten anyClass neverSlow neverSlow 50 sphereShort sphereShort_noArcs.1 s g h1).2
  rw [h2] at this
  exact this.1

/-- C92 applies to the curve on the sphere with four punctures, and to two copies of it -/
example : ∃ f A B, sphereShort.crush anyClass neverSlow 100 = .ok f ∧ f.applyLam anyClass sphereShort = .ok A ∧ f.applyLam anyClass sphereShort = .ok B ∧ A.DisjointFrom B := by
  obtain ⟨f, h⟩ := sphereShort_crush
  have d := self_avoids sphereShort sphereShort_noArcs
  obtain ⟨A, B, h1, h2, h3⟩ := C92_disjoint anyClass neverSlow 100 sphereShort sphereShort_noArcs (fun _ => ⟨_, rfl⟩) sphereShort_connected sphereShort_essential f h _ _ d d d
  exact ⟨f, A, B, h, h1, h2, h3⟩

end Curver
