import Verif.Proofs.Geodesic

/-!
# C99: `quasiconvex`, `all_tight_geodesic_multicurves`, `tight_geodesic`, `geodesic` and `distance`

`P` stands for `promote()`; it returns the class that describes the lamination.  `cycles` stands for `networkx.simple_cycles` and `shortest` for `networkx.algorithms.shortest_path`.
-/

namespace Curver
open Triangulation CurveGraph

namespace CurveGraph
variable {T : Triangulation} {a b M N : Lam Int}

theorem eq_of_same (h : Lam.Same M N) (hc : M.cls = N.cls) : M = N := by
  obtain ⟨h1, h2⟩ := h
  cases M
  cases N
  simp_all

theorem MultiCurveOn.eq_of_same (hM : MultiCurveOn T M) (hN : MultiCurveOn T N) (h : Lam.Same M N) : M = N :=
  CurveGraph.eq_of_same h (Lam.Describes.unique hN.2.1 (hM.2.2.2.same hM.2.1 h) hN.2.2.2)

theorem MultiCurveOn.part (h : MultiCurveOn T M) : ∃ X, M.HasPart X := by
  obtain ⟨D, d1, d2⟩ := Lam.exists_unions h.2.1
  cases D with
  | nil => exact absurd ((d1.blank_iff h.2.1 d2).2 rfl) h.noArcs.2
  | cons X D => exact ⟨X, (d1.hasPart_iff h.2.1 d2).2 ⟨X, by simp, .refl⟩⟩

theorem MultiCurveOn.not_adjacent (h : MultiCurveOn T M) : ¬ Adjacent M M := by
  obtain ⟨X, hX⟩ := h.part
  exact fun q => q.2 ⟨X, hX, hX⟩

end CurveGraph

section
variable (cycles : List (Int × Int) → List (List Int)) (hcy : ListsCycles cycles) (P : Lam Int → Py LamClass) (dflt : Int → Int → Bool) (fuel : Nat) (T : Triangulation)
variable (hT : Lam.TellsClass P) (a b : Lam Int) (ha : a.Consistent) (hb : b.Consistent) (hda : a.Describes a.cls) (hdb : b.Describes b.cls)
include hcy hT ha hb hda hdb

/-- C99: `quasiconvex` returns a set of curves on the surface, among them `a` and `b`. -/
theorem C99_quasiconvex (r : List (Lam Int)) (h : quasiconvex P dflt fuel cycles T a b = .ok r) : a ∈ r ∧ b ∈ r ∧ ∀ K ∈ r, K.tri = T ∧ K.cls = .curve ∧ K.Connected ∧ K.NoArcs := by
  obtain ⟨⟨x, x1, x2⟩, ⟨y, y1, y2⟩, h3⟩ := quasiconvex_spec hcy hT ha hb hda hdb h
  have hab : a.cls = .curve ∧ b.cls = .curve := by
    unfold quasiconvex at h
    rw [py_bind_eq_ok] at h
    obtain ⟨_, h0, -⟩ := h
    exact ⟨(checkCurves_ok h0).1, (checkCurves_ok h0).2.1⟩
  refine ⟨?_, ?_, fun K hK => ?_⟩
  · rwa [← CurveGraph.eq_of_same x2 ((h3 x x1).1.trans hab.1.symm)]
  · rwa [← CurveGraph.eq_of_same y2 ((h3 y y1).1.trans hab.2.symm)]
  · obtain ⟨k1, k2, -, -, k4⟩ := h3 K hK
    rw [k1] at k4
    exact ⟨k2, k1, k4.1, k4.2⟩

end

section
variable (P : Lam Int → Py LamClass) (dflt : Int → Int → Bool) (fuel : Nat) (T : Triangulation) (hP : ∀ L, ∃ k, P L = .ok k) (hT : Lam.TellsClass P)
include hP hT

/-- C99: the multicurves of all tight paths between the curves of a set `guide`: they are the elements of `guide`, and the essential multicurves `boundary_union` of two elements.  If any two elements fill the surface, there is no result. -/
theorem C99_multicurves (guide R : List (Lam Int)) (hg : ∀ c ∈ guide, MultiCurveOn T c) (h : tightMulticurves P dflt fuel T guide = .ok R) :
    (∀ c ∈ guide, c ∈ R) ∧ (∀ M ∈ R, MultiCurveOn T M) ∧ (∀ M ∈ R, M ∈ guide ∨ ∃ c ∈ guide, ∃ d ∈ guide, c.boundaryUnion P dflt fuel d = .ok M ∧ ¬ M.Peripheral ∧ Adjacent M c ∧ ¬ ∃ X, d.HasPart X ∧ M.HasPart X) ∧
      ∀ c ∈ guide, ∀ d ∈ guide, c.fillsWith P dflt fuel d = .ok false := by
  obtain ⟨h1, h2⟩ := tightMulticurves_calls h (fun S => ∀ M ∈ S, MultiCurveOn T M ∧ (M ∈ guide ∨ ∃ c ∈ guide, ∃ d ∈ guide, c.boundaryUnion P dflt fuel d = .ok M ∧ ¬ M.Peripheral ∧ Adjacent M c ∧ ¬ ∃ X, d.HasPart X ∧ M.HasPart X))
    (by simp) (fun S n paths c hc d hd hS hp M hM => by
      rcases foldl_addTo.1 M hM with q | q
      · exact hS M q
      · obtain ⟨p, p1, p2⟩ := List.mem_flatten.1 q
        rcases tightPaths_parts hP hT (hg c hc) (hg d hd) hp p p1 M p2 with rfl | rfl | ⟨q1, q2, q3, q4, q5, q6⟩
        · exact ⟨hg _ hc, .inl hc⟩
        · exact ⟨hg _ hd, .inl hd⟩
        · exact ⟨q2, .inr ⟨c, hc, d, hd, q1, q3, ⟨q4, fun ⟨X, x1, x2⟩ => q5 ⟨X, x2, x1⟩⟩, q6⟩⟩)
  refine ⟨fun c hc => ?_, fun M hM => (h1 M hM).1, fun M hM => (h1 M hM).2, fun c hc d hd => ?_⟩
  · obtain ⟨paths, p1, p2⟩ := h2 0 (by unfold quasiconvexity; omega) c hc c hc
    obtain ⟨q1, q2⟩ := C98_zero P dflt fuel T c c paths p1
    have q1 := q1.resolve_right (q2.2 rfl)
    subst q1
    obtain ⟨K, k1, k2⟩ := p2 [c] (by simp) c (by simp)
    rwa [← (h1 K k1).1.eq_of_same (hg c hc) k2]
  · obtain ⟨paths, p1, -⟩ := h2 3 (by unfold quasiconvexity; omega) c hc d hd
    exact (C98_never P dflt fuel T hP hT c d (hg c hc).2.1 (hg d hd).2.1 (hg c hc).2.2.2 (hg d hd).2.2.2 3 le_rfl paths p1).2

variable (cycles : List (Int × Int) → List (List Int)) (hcy : ListsCycles cycles) (a b : Lam Int) (ha : a.Consistent) (hb : b.Consistent) (hda : a.Describes a.cls) (hdb : b.Describes b.cls)
include hcy ha hb hda hdb

/-- C99: `all_tight_geodesic_multicurves` returns a set of multicurves on the surface, among them `a` and `b`; and it returns nothing unless `fills_with` says that `a` and `b` do not fill the surface. -/
theorem C99_all (R : List (Lam Int)) (h : allTight P dflt fuel cycles T a b = .ok R) : a ∈ R ∧ b ∈ R ∧ (∀ M ∈ R, MultiCurveOn T M) ∧ a.fillsWith P dflt fuel b = .ok false ∧ b.fillsWith P dflt fuel a = .ok false := by
  unfold allTight at h
  simp only [py_bind_eq_ok] at h
  obtain ⟨_, -, guide, h1, h2⟩ := h
  obtain ⟨g1, g2, -⟩ := C99_quasiconvex cycles hcy P dflt fuel T hT a b ha hb hda hdb guide h1
  have hg := (quasiconvex_spec hcy hT ha hb hda hdb h1).2.2
  obtain ⟨m1, m2, -, m4⟩ := C99_multicurves P dflt fuel T hP hT guide R (fun c hc => (hg c hc).2) h2
  exact ⟨m1 a g1, m1 b g2, m2, m4 a g1 b g2, m4 b g2 a g1⟩

variable (shortest : List (Lam Int × Lam Int) → Lam Int → Lam Int → Py (List (Lam Int))) (hs : FindsShortest shortest)
include hs

/-- the walk that is tightened -/
theorem tightGeodesic_walk {r : List (Lam Int)} (h : tightGeodesic P dflt fuel cycles shortest T a b = .ok r) : ∃ R p, allTight P dflt fuel cycles T a b = .ok R ∧ IsWalk T a b p ∧ (∀ M ∈ p, M ∈ R) ∧
    (∀ q, IsWalk T a b q → (∀ M ∈ q, M ∈ R) → p.length ≤ q.length) ∧ tighten P dflt fuel p = .ok r := by
  unfold tightGeodesic at h
  simp only [py_bind_eq_ok] at h
  obtain ⟨_, -, R, h1, E, h2, p, h3, h4⟩ := h
  obtain ⟨m1, m2, m3, -⟩ := C99_all P dflt fuel T hP hT cycles hcy a b ha hb hda hdb R h1
  obtain ⟨e1, e2⟩ := graphEdges_spec m3 h2
  obtain ⟨-, -, ⟨w1, w2, w3, w4⟩, w5⟩ := hs E a b p h3
  have inR : ∀ M ∈ p, M ∈ R := by
    intro M hM
    rcases w1 M hM with (rfl | rfl) | ⟨e, he, rfl | rfl⟩
    · exact m1
    · exact m2
    · exact (e1 e he).1
    · exact (e1 e he).2.1
  refine ⟨R, p, h1, ⟨fun M hM => m3 M (inR M hM), w2, w3, w4.imp (fun u v hj => ?_)⟩, inR, fun q hq hqR => ?_, h4⟩
  · obtain ⟨e, he, ⟨q1, q2⟩ | ⟨q1, q2⟩⟩ := hj
    · exact (e1 e he).2.2.same (Lam.eqv_same.1 q1).symm (Lam.eqv_same.1 q2).symm
    · exact (e1 e he).2.2.symm.same (Lam.eqv_same.1 q1).symm (Lam.eqv_same.1 q2).symm
  · by_cases hl : q.length ≤ 1
    · -- a walk of length 0
      obtain ⟨k1, ⟨x, x1, x2⟩, ⟨z, z1, z2⟩, -⟩ := hq
      have hqx : q = [x] := by
        cases q with
        | nil => simp at x1
        | cons y q =>
          cases q with
          | nil => simpa using x1
          | cons _ _ => simp at hl
      subst hqx
      have hxz : x = z := by simpa using z1
      subst hxz
      have xa : x = a := (k1 x (by simp)).eq_of_same (m3 a m1) (Lam.eqv_same.1 x2)
      subst xa
      refine w5 [x] ⟨fun y hy => .inl (.inl (by simpa using hy)), ⟨x, rfl, x2⟩, ⟨x, rfl, z2⟩, by simp⟩
    · refine w5 q ⟨fun x hx => ?_, hq.2.1, hq.2.2.1, ?_⟩
      · -- each entry has a neighbour
        obtain ⟨l1, l2, rfl⟩ := List.append_of_mem hx
        have hc := hq.2.2.2
        rcases l2 with _ | ⟨y, l2⟩
        · rcases List.eq_nil_or_concat l1 with rfl | ⟨l1, y, rfl⟩
          · simp at hl
          · have adj : Adjacent y x := by
              rw [List.concat_eq_append, List.append_assoc, List.isChain_append] at hc
              simpa using hc.2.1
            rcases e2 y (hqR y (by simp)) x (hqR x (by simp)) (fun t => (m3 x (hqR x (by simp))).not_adjacent (t ▸ adj)) adj with t | t
            · exact .inr ⟨_, t, .inr rfl⟩
            · exact .inr ⟨_, t, .inl rfl⟩
        · have adj : Adjacent x y := by
            rw [List.isChain_append] at hc
            have := hc.2.1
            rw [List.isChain_cons_cons] at this
            exact this.1
          rcases e2 x (hqR x (by simp)) y (hqR y (by simp)) (fun t => (m3 x (hqR x (by simp))).not_adjacent (by rw [← t] at adj; exact adj)) adj with t | t
          · exact .inr ⟨_, t, .inl rfl⟩
          · exact .inr ⟨_, t, .inr rfl⟩
      · have key : ∀ l : List (Lam Int), (∀ M ∈ l, M ∈ R) → l.IsChain Adjacent → l.IsChain (Joined E) := by
          intro l
          induction l with
          | nil => simp
          | cons x l ih =>
            intro hl hc
            cases l with
            | nil => simp
            | cons y l =>
              rw [List.isChain_cons_cons] at hc ⊢
              have mx := hl x (by simp)
              have my := hl y (by simp)
              refine ⟨?_, ih (fun M hM => hl M (by simp at hM ⊢; tauto)) hc.2⟩
              rcases e2 x mx y my (fun t => (m3 x mx).not_adjacent (by have := hc.1; rw [← t] at this; exact this)) hc.1 with t | t
              · exact ⟨_, t, .inl ⟨Lam.eqv_same.2 .refl, Lam.eqv_same.2 .refl⟩⟩
              · exact ⟨_, t, .inr ⟨Lam.eqv_same.2 .refl, Lam.eqv_same.2 .refl⟩⟩
        exact key q hqR hq.2.2.2

/-- C99: `tight_geodesic` returns closed curves, from `a` to `b`, as many as there are multicurves on some walk from `a` to `b` in the complex of multicurves.  Each one but the last does not cross the one before it. -/
theorem C99_tight_geodesic (r : List (Lam Int)) (h : tightGeodesic P dflt fuel cycles shortest T a b = .ok r) :
    (∃ p, IsWalk T a b p ∧ r.length = p.length) ∧ (∃ x, r.head? = some x ∧ x.eqv a = true) ∧ (∃ z, r.getLast? = some z ∧ z.eqv b = true) ∧
      (∀ M ∈ r, M.tri = T ∧ M.NoArcs ∧ M.Describes M.cls) ∧ r.dropLast.IsChain (fun M N => N.DisjointFrom M) := by
  obtain ⟨R, p, -, hw, -, -, ht⟩ := tightGeodesic_walk P dflt fuel T hP hT cycles hcy a b ha hb hda hdb shortest hs h
  cases p with
  | nil =>
    obtain ⟨-, ⟨x, x1, -⟩, -⟩ := hw
    simp at x1
  | cons x l =>
    unfold tighten at ht
    rw [py_bind_eq_ok] at ht
    obtain ⟨tail, t1, t2⟩ := ht
    injection t2 with t2
    subst t2
    have hx := hw.1 x (by simp)
    obtain ⟨i1, i2, i3, i4⟩ := tightenAfter_spec hP hT hx.1 hx.noArcs.1 hx.2.2.2 (fun M hM => hw.1 M (by simp [hM])) t1
    refine ⟨⟨_, hw, by simp [i1]⟩, ?_, ?_, ?_, ?_⟩
    · obtain ⟨y, y1, y2⟩ := hw.2.1
      exact ⟨y, y1, y2⟩
    · obtain ⟨z, z1, z2⟩ := hw.2.2.1
      refine ⟨z, ?_, z2⟩
      rw [List.getLast?_cons, i2, ← List.getLast?_cons]
      exact z1
    · intro M hM
      rcases List.mem_cons.1 hM with rfl | hM
      · exact ⟨hx.1, hx.noArcs.1, hx.2.2.2⟩
      · exact i3 M hM
    · cases tail with
      | nil => simp
      | cons y t =>
        rw [List.dropLast_cons_of_ne_nil (by simp)]
        exact i4

/-- C99: `geodesic` picks a component of each. -/
theorem C99_geodesic (g : List (Lam Int)) (h : geodesic P dflt fuel cycles shortest T a b = .ok g) :
    ∃ r, tightGeodesic P dflt fuel cycles shortest T a b = .ok r ∧ List.Forall₂ (fun M c => M.HasPart c ∧ c.Connected ∧ c.NoArcs) r g ∧ (∃ x, g.head? = some x ∧ Lam.Same a x) ∧ ∃ z, g.getLast? = some z ∧ Lam.Same b z := by
  unfold geodesic at h
  simp only [py_bind_eq_ok] at h
  obtain ⟨_, h0, r, h1, h2⟩ := h
  obtain ⟨c1, c2, -, -⟩ := checkCurves_ok h0
  obtain ⟨-, ⟨x, x1, x2⟩, ⟨z, z1, z2⟩, r3, -⟩ := C99_tight_geodesic P dflt fuel T hP hT cycles hcy a b ha hb hda hdb shortest hs r h1
  have key : ∀ (l g : List (Lam Int)), (∀ M ∈ l, M.tri = T ∧ M.NoArcs ∧ M.Describes M.cls) → l.mapM (fun multicurve => multicurve.peekComponent P dflt fuel) = .ok g → List.Forall₂ (fun M c => M.HasPart c ∧ c.Connected ∧ c.NoArcs) l g := by
    intro l
    induction l with
    | nil =>
      intro g _ h
      cases h
      exact .nil
    | cons M l ih =>
      intro g hl h
      rw [List.mapM_cons] at h
      simp only [py_bind_eq_ok] at h
      obtain ⟨c, k1, cs, k2, h⟩ := h
      injection h with h
      subst h
      obtain ⟨-, n, d⟩ := hl M (by simp)
      refine .cons ?_ (ih cs (fun N hN => hl N (by simp [hN])) k2)
      have k1' := k1
      unfold Lam.peekComponent at k1'
      rw [py_bind_eq_ok] at k1'
      obtain ⟨cs', k3, -⟩ := k1'
      have := ((C72_peek P dflt fuel M (Lam.noArcs_iff.1 n).1 d.right cs' k3).1 c k1).1
      exact ⟨this, this.1, this.noArcs n⟩
  have F := key r g r3 h2
  refine ⟨r, h1, F, ?_, ?_⟩
  · cases F with
    | nil => simp at x1
    | cons q _ =>
      obtain rfl := Option.some.inj x1
      refine ⟨_, rfl, ?_⟩
      rw [c1] at hda
      exact Lam.Connected.hasPart hda.1 ha.1 (q.1.same (Lam.eqv_same.1 x2))
  · have F' := List.rel_reverse F
    rw [← List.head?_reverse] at z1 ⊢
    generalize r.reverse = r' at F' z1
    generalize g.reverse = g' at F' ⊢
    cases F' with
    | nil => simp at z1
    | cons q _ =>
      obtain rfl := Option.some.inj z1
      refine ⟨_, rfl, ?_⟩
      rw [c2] at hdb
      exact Lam.Connected.hasPart hdb.1 hb.1 (q.1.same (Lam.eqv_same.1 z2))

/-- C99: when `distance` returns `d`, there is a walk of length `d` from `a` to `b` in the complex of multicurves; and none is shorter, among those that use the multicurves that `all_tight_geodesic_multicurves` returns.  So the
distance is 0 just for equal curves, and 1 just for different curves that do not cross. -/
theorem C99_distance (d : Int) (h : distance P dflt fuel cycles shortest T a b = .ok d) : (∃ p, IsWalk T a b p ∧ (p.length : Int) = d + 1) ∧
    (∃ R, allTight P dflt fuel cycles T a b = .ok R ∧ ∀ q, IsWalk T a b q → (∀ M ∈ q, M ∈ R) → d + 1 ≤ q.length) ∧ (d = 0 ↔ a.eqv b = true) ∧ (d = 1 ↔ a.DisjointFrom b ∧ a.eqv b = false) := by
  unfold distance at h
  rw [py_bind_eq_ok] at h
  obtain ⟨g, h1, h2⟩ := h
  injection h2 with h2
  obtain ⟨r, r1, F, -⟩ := C99_geodesic P dflt fuel T hP hT cycles hcy a b ha hb hda hdb shortest hs g h1
  obtain ⟨R, p, hR, hw, hpR, hmin, ht⟩ := tightGeodesic_walk P dflt fuel T hP hT cycles hcy a b ha hb hda hdb shortest hs r1
  have hl : r.length = p.length := by
    cases p with
    | nil =>
      unfold tighten at ht
      injection ht with ht
      subst ht
      rfl
    | cons x l =>
      unfold tighten at ht
      rw [py_bind_eq_ok] at ht
      obtain ⟨tail, t1, t2⟩ := ht
      injection t2 with t2
      subst t2
      have hx := hw.1 x (by simp)
      have := (tightenAfter_spec hP hT hx.1 hx.noArcs.1 hx.2.2.2 (fun M hM => hw.1 M (by simp [hM])) t1).1
      simp [this]
  have hgl := F.length_eq
  obtain ⟨m1, m2, m3, -⟩ := C99_all P dflt fuel T hP hT cycles hcy a b ha hb hda hdb R hR
  have cc : a.cls = .curve ∧ b.cls = .curve := by
    unfold geodesic at h1
    rw [py_bind_eq_ok] at h1
    obtain ⟨_, h0, -⟩ := h1
    exact ⟨(checkCurves_ok h0).1, (checkCurves_ok h0).2.1⟩
  have pos : 1 ≤ p.length := by
    obtain ⟨-, ⟨x, x1, -⟩, -⟩ := hw
    cases p with
    | nil => simp at x1
    | cons _ _ => simp
  have e0 : d = 0 ↔ a.eqv b = true := by
    constructor
    · intro h0
      have hp : p.length = 1 := by omega
      obtain ⟨x, rfl⟩ := List.length_eq_one_iff.1 hp
      obtain ⟨-, ⟨y, y1, y2⟩, ⟨z, z1, z2⟩, -⟩ := hw
      have : y = z := by
        have e1 : x = y := by simpa using y1
        have e2 : x = z := by simpa using z1
        rw [← e1, e2]
      subst this
      exact Lam.eqv_same.2 ((Lam.eqv_same.1 y2).symm.trans (Lam.eqv_same.1 z2))
    · intro h0
      have := hmin [a] ⟨by simpa using m3 a m1, ⟨a, rfl, Lam.eqv_same.2 .refl⟩, ⟨a, rfl, h0⟩, by simp⟩ (by simpa using m1)
      simp at this
      omega
  refine ⟨⟨p, hw, by omega⟩, ⟨R, hR, fun q q1 q2 => ?_⟩, e0, ?_⟩
  · have := hmin q q1 q2
    omega
  · constructor
    · intro h0
      refine ⟨?_, by
        by_contra q
        have := e0.2 (by simpa using q)
        omega⟩
      have hp : p.length = 2 := by omega
      obtain ⟨x, y, rfl⟩ := List.length_eq_two.1 hp
      obtain ⟨-, ⟨u, u1, u2⟩, ⟨v, v1, v2⟩, w⟩ := hw
      have e1 : x = u := by simpa using u1
      have e2 : y = v := by simpa using v1
      subst e1 e2
      have w : Adjacent x y := by simpa using w
      exact (w.same (Lam.eqv_same.1 u2) (Lam.eqv_same.1 v2)).1
    · rintro ⟨h3, h4⟩
      have adj : Adjacent a b := by
        refine ⟨h3, fun ⟨X, x1, x2⟩ => ?_⟩
        rw [cc.1] at hda
        rw [cc.2] at hdb
        have := Lam.eqv_same.2 ((Lam.Connected.hasPart hda.1 ha.1 x1).trans (Lam.Connected.hasPart hdb.1 hb.1 x2).symm)
        rw [this] at h4
        cases h4
      have := hmin [a, b] ⟨by
        intro M hM
        rcases List.mem_cons.1 hM with rfl | hM
        · exact m3 _ m1
        · rw [List.mem_singleton.1 hM]
          exact m3 b m2, ⟨a, rfl, Lam.eqv_same.2 .refl⟩, ⟨b, rfl, Lam.eqv_same.2 .refl⟩, by simpa using adj⟩ (by
        intro M hM
        rcases List.mem_cons.1 hM with rfl | hM
        · exact m1
        · rw [List.mem_singleton.1 hM]
          exact m2)
      have ne : d ≠ 0 := fun t => by
        rw [e0.1 t] at h4
        cases h4
      simp at this
      omega

/-- C99: curves that fill the surface, according to `fills_with`, have no distance: none of the methods returns. -/
theorem C99_filling (hf : a.fillsWith P dflt fuel b = .ok true) : (∀ R, allTight P dflt fuel cycles T a b ≠ .ok R) ∧ (∀ r, tightGeodesic P dflt fuel cycles shortest T a b ≠ .ok r) ∧ (∀ g, geodesic P dflt fuel cycles shortest T a b ≠ .ok g) ∧
    ∀ d, distance P dflt fuel cycles shortest T a b ≠ .ok d := by
  have h1 : ∀ R, allTight P dflt fuel cycles T a b ≠ .ok R := by
    intro R h
    have := (C99_all P dflt fuel T hP hT cycles hcy a b ha hb hda hdb R h).2.2.2.1
    rw [hf] at this
    cases this
  have h2 : ∀ r, tightGeodesic P dflt fuel cycles shortest T a b ≠ .ok r := by
    intro r h
    obtain ⟨R, _, q, -⟩ := tightGeodesic_walk P dflt fuel T hP hT cycles hcy a b ha hb hda hdb shortest hs h
    exact h1 R q
  have h3 : ∀ g, geodesic P dflt fuel cycles shortest T a b ≠ .ok g := by
    intro g h
    obtain ⟨r, q, -⟩ := C99_geodesic P dflt fuel T hP hT cycles hcy a b ha hb hda hdb shortest hs g h
    exact h2 r q
  refine ⟨h1, h2, h3, fun d h => ?_⟩
  unfold distance at h
  rw [py_bind_eq_ok] at h
  obtain ⟨g, q, -⟩ := h
  exact h3 g q

end

/-! ## the hypotheses are met -/

open Classical in
/-- the simple cycles of a graph, starting with a given one if it is one of them -/
noncomputable def cyclesFrom (c : List Int) (edges : List (Int × Int)) : List (List Int) :=
  (if c ≠ [] ∧ c.Nodup ∧ ∀ p ∈ c.zip (c.rotate 1), p ∈ edges then [c] else []) ++ Classical.choose exists_listsCycles edges

theorem cyclesFrom_lists (c : List Int) : ListsCycles (cyclesFrom c) := by
  intro edges
  obtain ⟨h1, h2⟩ := Classical.choose_spec exists_listsCycles edges
  refine ⟨fun d hd => ?_, fun d hd => ?_⟩
  · rcases List.mem_append.1 hd with q | q
    · split_ifs at q with t
      · rw [List.mem_singleton.1 q]
        exact t
      · cases q
    · exact h1 d q
  · obtain ⟨e, e1, e2⟩ := h2 d hd
    exact ⟨e, List.mem_append_right _ e1, e2⟩

open Classical in
/-- a shortest walk, if the graph has one -/
noncomputable def someShortest (edges : List (Lam Int × Lam Int)) (a b : Lam Int) : Py (List (Lam Int)) :=
  if h : (∃ v, Joined edges a v) ∧ (∃ v, Joined edges b v) ∧ ∃ n p, GraphWalk edges a b p ∧ p.length = n then .ok (Classical.choose (Nat.find_spec h.2.2)) else .error .valueError

theorem someShortest_finds : FindsShortest someShortest := by
  classical
  intro edges a b p h
  unfold someShortest at h
  split_ifs at h with q
  injection h with h
  obtain ⟨k1, k2⟩ := Classical.choose_spec (Nat.find_spec q.2.2)
  rw [h] at k1 k2
  exact ⟨q.1, q.2.1, k1, fun w hw => by rw [k2]; exact Nat.find_min' q.2.2 ⟨w, hw, rfl⟩⟩

theorem across_quasiconvex : quasiconvex rightClass neverSlow 50 (cyclesFrom [-6, 1, -5]) twicePunctured acrossOne acrossThree = .ok [acrossOne, acrossThree] := by decide +kernel

theorem across_tight (n : Nat) (hn : 3 ≤ n) : ∀ c ∈ [acrossOne, acrossThree], ∀ d ∈ [acrossOne, acrossThree], tightPaths rightClass neverSlow 50 twicePunctured c d n = .ok [] := by
  obtain ⟨n, rfl⟩ : ∃ k, n = k + 3 := ⟨n - 3, by omega⟩
  have h : ∀ c ∈ [acrossOne, acrossThree], ∀ d ∈ [acrossOne, acrossThree], checkEnds twicePunctured c d = .ok () ∧ c.fillsWith rightClass neverSlow 50 d = .ok false := by decide +kernel
  intro c hc d hd
  obtain ⟨h1, h2⟩ := h c hc d hd
  unfold tightPaths
  rw [h1, py_bind_ok, h2, py_bind_ok]
  rfl

/-- longer lengths add nothing -/
theorem tightMulticurves_short {P : Lam Int → Py LamClass} {dflt : Int → Int → Bool} {fuel : Nat} {T : Triangulation} {guide R : List (Lam Int)} (h : ∀ n, 3 ≤ n → ∀ c ∈ guide, ∀ d ∈ guide, tightPaths P dflt fuel T c d n = .ok [])
    (h3 : [0, 1, 2].foldlM (fun s length => guide.foldlM (fun s c1 => guide.foldlM (fun s c2 => do
        let paths ← tightPaths P dflt fuel T c1 c2 length
        return paths.flatten.foldl Lam.addTo s) s) s) [] = (.ok R : Py _)) : tightMulticurves P dflt fuel T guide = .ok R := by
  have e : List.range (6 * quasiconvexity + 2 + 1) = [0, 1, 2] ++ (List.range 60).map (fun i => i + 3) := by decide
  have same : ∀ {α : Type} (l : List α) (f : List (Lam Int) → α → Py (List (Lam Int))), (∀ x ∈ l, ∀ s, f s x = .ok s) → ∀ s, l.foldlM f s = .ok s := by
    intro α l f
    induction l with
    | nil => exact fun _ _ => rfl
    | cons x l ih =>
      intro hl s
      rw [List.foldlM_cons, hl x (by simp) s, py_bind_ok]
      exact ih (fun y hy => hl y (by simp [hy])) s
  unfold tightMulticurves
  rw [e, List.foldlM_append, h3, py_bind_ok]
  refine same _ _ (fun n hn s => ?_) R
  obtain ⟨i, -, rfl⟩ := List.mem_map.1 hn
  refine same _ _ (fun c hc s => same _ _ (fun d hd s => ?_) s) s
  rw [h _ (by omega) c hc d hd, py_bind_ok]
  rfl

theorem across_all : allTight rightClass neverSlow 50 (cyclesFrom [-6, 1, -5]) twicePunctured acrossOne acrossThree = .ok [acrossOne, acrossThree] := by
  unfold allTight
  have h : checkCurves twicePunctured acrossOne acrossThree = .ok () := by decide
  rw [h, py_bind_ok, across_quasiconvex, py_bind_ok]
  exact tightMulticurves_short across_tight (by decide +kernel)

theorem across_edges : graphEdges rightClass neverSlow 50 [acrossOne, acrossThree] = .ok [(acrossOne, acrossThree)] := by decide +kernel

/-- two curves that do not cross: the distance is found, and it is 1 -/
example : distance rightClass neverSlow 50 (cyclesFrom [-6, 1, -5]) someShortest twicePunctured acrossOne acrossThree = .ok 1 := by
  have h : checkCurves twicePunctured acrossOne acrossThree = .ok () := by decide
  have j : Joined [(acrossOne, acrossThree)] acrossOne acrossThree := ⟨(acrossOne, acrossThree), by simp, .inl ⟨by decide, by decide⟩⟩
  have j' : Joined [(acrossOne, acrossThree)] acrossThree acrossOne := ⟨(acrossOne, acrossThree), by simp, .inr ⟨by decide, by decide⟩⟩
  have w : GraphWalk [(acrossOne, acrossThree)] acrossOne acrossThree [acrossOne, acrossThree] :=
    ⟨by simp, ⟨acrossOne, rfl, by decide⟩, ⟨acrossThree, rfl, by decide⟩, by simpa using j⟩
  obtain ⟨p, hp⟩ : ∃ p, someShortest [(acrossOne, acrossThree)] acrossOne acrossThree = .ok p := by
    unfold someShortest
    rw [dif_pos ⟨⟨_, j⟩, ⟨_, j'⟩, _, _, w, rfl⟩]
    exact ⟨_, rfl⟩
  obtain ⟨-, -, ⟨p1, ⟨x, x1, x2⟩, ⟨z, z1, z2⟩, -⟩, p2⟩ := someShortest_finds _ _ _ p hp
  have cls : ∀ y ∈ p, y = acrossOne ∨ y = acrossThree := by
    intro y hy
    rcases p1 y hy with q | ⟨e, he, q⟩
    · exact q
    · rw [List.mem_singleton.1 he] at q
      exact q
  have hl := p2 _ w
  have ex : x = acrossOne := by
    rcases cls x (List.mem_of_mem_head? x1) with rfl | rfl
    · rfl
    · exact absurd x2 (by decide)
  have ez : z = acrossThree := by
    rcases cls z (List.mem_of_getLast? z1) with rfl | rfl
    · exact absurd z2 (by decide)
    · rfl
  have e : p = [acrossOne, acrossThree] := by
    subst ex ez
    match p, x1, z1, hl with
    | [y], x1, z1, _ =>
      have e1 := Option.some.inj x1
      have e2 := Option.some.inj z1
      exact absurd (e1.symm.trans e2) (by decide)
    | [y, t], x1, z1, _ =>
      have e1 := Option.some.inj x1
      have e2 : t = acrossThree := Option.some.inj z1
      rw [e1, e2]
    | _ :: _ :: _ :: l, _, _, hl => simp at hl
  subst e
  unfold distance geodesic tightGeodesic
  rw [h, py_bind_ok, py_bind_ok, across_all, py_bind_ok, across_edges, py_bind_ok, hp, py_bind_ok]
  decide +kernel

/-- a curve whose distance to itself is not found: it is the only vertex that is considered, and the graph, which is given by its edges, has no vertices -/
example (shortest : List (Lam Int × Lam Int) → Lam Int → Lam Int → Py (List (Lam Int))) (hs : FindsShortest shortest) (d : Int) :
    distance rightClass neverSlow 50 (cyclesFrom [1, 3, 2]) shortest twicePunctured acrossOne acrossOne ≠ .ok d := by
  have h : checkCurves twicePunctured acrossOne acrossOne = .ok () := by decide
  have q : quasiconvex rightClass neverSlow 50 (cyclesFrom [1, 3, 2]) twicePunctured acrossOne acrossOne = .ok [acrossOne] := by decide +kernel
  have t : tightMulticurves rightClass neverSlow 50 twicePunctured [acrossOne] = .ok [acrossOne] :=
    tightMulticurves_short (fun n hn c hc d hd => across_tight n hn c (by rw [List.mem_singleton.1 hc]; simp) d (by rw [List.mem_singleton.1 hd]; simp)) (by decide +kernel)
  have g : graphEdges rightClass neverSlow 50 [acrossOne] = .ok [] := rfl
  intro hd
  unfold distance geodesic tightGeodesic allTight at hd
  rw [h, py_bind_ok, py_bind_ok, py_bind_ok, q, py_bind_ok, t, py_bind_ok, g, py_bind_ok] at hd
  simp only [py_bind_eq_ok] at hd
  obtain ⟨_, ⟨_, ⟨p, hp, -⟩, -⟩, -⟩ := hd
  obtain ⟨⟨_, _, he, -⟩, -⟩ := hs _ _ _ p hp
  cases he

/-- `C99_filling` applies to two curves on a torus with one puncture -/
example (d : Int) : distance rightClass neverSlow 50 (cyclesFrom []) someShortest torus torusCurve torusLong ≠ .ok d :=
  (C99_filling rightClass neverSlow 50 torus rightClass_returns rightClass_tells _ (cyclesFrom_lists []) torusCurve torusLong torusCurve_consistent (Lam.noArcs_iff.1 torusLong_noArcs).1 torusCurve_describes torusLong_describes
    someShortest someShortest_finds (by decide +kernel)).2.2.2 d

end Curver
