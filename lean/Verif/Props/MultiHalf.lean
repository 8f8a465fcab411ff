import Verif.Proofs.MultiHalf2

/-!
# C84: half twists about multiarcs

`L.encode_halftwist(power)` for a multiarc `L` whose components join different vertices and have no ends in common.  Nothing is assumed about the weights of `L`.
-/

namespace Curver
open Triangulation

section
variable (P : Lam Int → Py LamClass) (dflt : Int → Int → Bool) (fuel : Nat) (L : Lam Int) (hL : L.Consistent) (hc : L.ClassRight) (power : Int)
include hL hc

/-- C84: `encode_halftwist` raises `ValueError` exactly for the laminations some of whose components end at the same vertex (whenever `has_distinct_endpoints` returns). -/
theorem C84_rejects (b : Bool) (hb : L.hasDistinctEndpoints P dflt fuel = .ok b) (hd : ¬ L.DistinctEnds) : L.encodeHalftwist P dflt fuel power = .error .valueError := by
  have := C82_distinct P dflt fuel L hL hc b hb
  cases b with
  | true => exact absurd (this.1 rfl) hd
  | false => unfold Lam.encodeHalftwist; rw [hb, py_bind_ok, if_pos rfl]

section
variable (h : Enc) (hh : L.encodeHalftwist P dflt fuel power = .ok h)
include hh

/-- C84: if it returns, the components of `L` run between different vertices and have no ends in common. -/
theorem C84_requires : L.DistinctEnds := by
  unfold Lam.encodeHalftwist at hh
  rw [py_bind_eq_ok] at hh
  obtain ⟨b, h1, hh⟩ := hh
  cases b with
  | false => rw [if_pos rfl] at hh; cases hh
  | true => exact (C82_distinct P dflt fuel L hL hc true h1).1 rfl

theorem Lam.encodeHalftwist_zero (hp : power = 0) : L.tri.idEncoding = .ok h := by
  unfold Lam.encodeHalftwist at hh
  rw [py_bind_eq_ok] at hh
  obtain ⟨b, h1, hh⟩ := hh
  cases b with
  | false => rw [if_pos rfl] at hh; cases hh
  | true => rwa [if_neg (by simp), if_pos hp] at hh

/-- C84: `encode_halftwist(power)` is a mapping class of the triangulation of `L`. -/
theorem C84_mapping_class : h.Legal ∧ h.kind = .mappingClass ∧ h.source = L.tri ∧ h.target = L.tri := by
  by_cases hp : power = 0
  · have := Lam.encodeHalftwist_zero P dflt fuel L hL hc power h hh hp
    obtain ⟨j, j1, j2, j3, j4, j5, -⟩ := C14_identity L.tri hL.1.1
    cases this.symm.trans j1
    exact ⟨j2, j3, j4, j5⟩
  · obtain ⟨-, s, g, K, cs, hs, start, k, M⟩ := Lam.encodeHalftwist_made hL hc hp hh
    obtain ⟨h1, h2, h3, h4, -⟩ := M.holds (fun _ => False) (fun _ q => q.elim) (fun _ _ _ _ _ _ _ _ q => q.elim)
    exact ⟨h1, h2, h3, h4⟩

/-- C84: it fixes every component of the multiarc. -/
theorem C84_fixes_components (X : Lam Int) (hX : L.HasPart X) : h.applyLam X = .ok X := by
  by_cases hp : power = 0
  · have := Lam.encodeHalftwist_zero P dflt fuel L hL hc power h hh hp
    obtain ⟨j, j1, -, -, -, -, j6, -⟩ := C14_identity L.tri hL.1.1
    cases this.symm.trans j1
    obtain ⟨-, N, hN⟩ := hX
    exact j6 Int X hN.wf.1 hN.wf.2.2.1
  · obtain ⟨-, s, g, K, cs, hs, start, k, M⟩ := Lam.encodeHalftwist_made hL hc hp hh
    exact M.fixes_part hL hX

/-- C84: it fixes the multiarc. -/
theorem C84_fixes_self : h.applyLam L = .ok L := by
  obtain ⟨h1, h2, h3, h4⟩ := C84_mapping_class P dflt fuel L hL hc power h hh
  obtain ⟨⟨L', c1, c2⟩, a1⟩ := h1.applyLam_total (R := Int) ⟨L, hL, h3.symm⟩
  dsimp only at a1
  obtain ⟨D, d1, d2⟩ := Lam.exists_unions hL
  obtain ⟨E, e1, e2⟩ := d1.enc hL h1 a1
  have hfix : D.mapM h.applyLam = .ok (D.map id) := mapM_ok (fun X hX => C84_fixes_components P dflt fuel L hL hc power h hh X ((d1.hasPart_iff hL d2).2 ⟨X, hX, .refl⟩))
  rw [hfix] at e1
  injection e1 with e1
  rw [List.map_id] at e1
  subst e1
  rw [a1]
  congr 1
  have hcl := (h1.undo hL.1 a1).2.2.1
  exact Lam.ext_w (c2.trans h4) hcl c1.1.2 hL.1.2 (fun x hx => by
    rw [e2.w c1.1 hx, d1.w hL.1 (by rw [← h4, ← c2]; exact hx)])

/-- C84: it fixes every lamination without arcs that can be drawn disjoint from the multiarc. -/
theorem C84_fixes_disjoint (M : Lam Int) (hM : M.NoArcs) (hd : M.DisjointFrom L) : h.applyLam M = .ok M := by
  by_cases hp : power = 0
  · have := Lam.encodeHalftwist_zero P dflt fuel L hL hc power h hh hp
    obtain ⟨j, j1, -, -, -, -, j6, -⟩ := C14_identity L.tri hL.1.1
    cases this.symm.trans j1
    exact j6 Int M hM.1 hd.tri
  · obtain ⟨-, s, g, K, cs, hs, start, k, N⟩ := Lam.encodeHalftwist_made hL hc hp hh
    exact N.fixes_closed hM hd

/-- C84: odd powers exchange the two ends of each component, even powers fix them. -/
theorem C84_ends (X : Lam Int) (hX : L.HasPart X) (vs : List (List Int)) (hvs : L.tri.vertices = .ok vs) (v u : List Int) (hv : v ∈ vs) (hu : u ∈ vs) (hne : v ≠ u) (rv : X.Reaches v) (ru : X.Reaches u)
    (vm : PyDict (List Int) (List Int)) (hm : h.vertexMap = .ok vm) : (v, if power % 2 = 0 then v else u) ∈ vm := by
  obtain ⟨h1, h2, h3, h4⟩ := C84_mapping_class P dflt fuel L hL hc power h hh
  rw [C43_characterised h h1 vm vs vs hm (by rw [h3]; exact hvs) (by rw [h4]; exact hvs)]
  refine ⟨hv, by split_ifs <;> assumption, ?_⟩
  rw [h3, h4]
  have hl : ∀ z ∈ vs, (L.tri.curveFromCutSequence z : Lam Int).WellFormed := fun z _ => ⟨hL.1.1, Lam.curve_length _ _⟩
  by_cases hp : power = 0
  · have := Lam.encodeHalftwist_zero P dflt fuel L hL hc power h hh hp
    obtain ⟨j, j1, -, -, -, -, j6, -⟩ := C14_identity L.tri hL.1.1
    cases this.symm.trans j1
    rw [if_pos (by rw [hp]; rfl)]
    exact j6 Int _ (hl v hv) rfl
  · obtain ⟨-, s, g, K, cs, hs, start, k, M⟩ := Lam.encodeHalftwist_made hL hc hp hh
    have H := M.shortens
    obtain ⟨gm, gs, gt, m1, m2, m3, m4, m5, m6, m7⟩ := C43_vertex_map g H.legal
    rw [H.source, hvs] at m2; cases m2
    rw [H.target] at m3
    have img : ∀ z ∈ vs, ∃ z' ∈ gt, (z, z') ∈ gm := by
      intro z hz
      rw [← m4] at hz
      obtain ⟨⟨a, b⟩, q1, q2⟩ := List.mem_map.1 hz
      dsimp only at q2
      subst q2
      exact ⟨b, m5.mem_iff.1 (List.mem_map_of_mem (f := Prod.snd) q1), q1⟩
    obtain ⟨v', v1, v2⟩ := img v hv
    obtain ⟨u', u1, u2⟩ := img u hu
    have gv := m7 v v' v2
    have gu := m7 u u' u2
    obtain ⟨Y, y1, y2⟩ := hX.enc hL H.legal M.acts
    have hXc : X.Consistent := by obtain ⟨-, N, hN⟩ := hX; exact (hN.consistent hL).1
    have rv' := (Lam.reaches_enc hXc H.legal y1 gv).2 rv
    have ru' := (Lam.reaches_enc hXc H.legal y1 gu).2 ru
    have hpart : s.HasPart Y := by
      obtain ⟨c, N, hN⟩ := y2
      exact ⟨c, N, hN.same hN.wf.1 hN.wf.2.1 M.same .refl .refl⟩
    obtain ⟨Z, z1, z2⟩ := (M.comps.union.hasPart_iff M.con (Lam.flat_connected M.comps)).1 hpart
    obtain ⟨q, hq, e⟩ := List.mem_flatMap.1 z1
    rw [List.eq_of_mem_replicate e] at z2
    rw [H.source, H.target] at gv gu
    have hne' : v' ≠ u' := by
      rintro rfl
      have := (H.legal.undo (hl v hv) gv).2.2.2
      rw [(H.legal.undo (hl u hu) gu).2.2.2] at this
      injection this with this
      exact hne (hL.1.1.comp.link_inj (R := Int) hvs hu hv (by unfold curveFromCutSequence at this; injection this)).symm
    have hk := M.link hq m3 v1 u1 hne' (rv'.same z2.symm) (ru'.same z2.symm)
    obtain ⟨i, i1, i2⟩ := Lam.keeps_conj (R := Int) (k := k) M.product.legal H.legal M.conj M.product.kind H.kind (M.product.source.trans H.target.symm)
    rw [Enc.inverse_eq H.legal] at i1
    cases i1
    rw [i2 _ (hl v hv), gv, py_bind_ok, hk, py_bind_ok]
    have e2 : (Int.fmod power 2 = 0) = (power % 2 = 0) := by rw [Int.fmod_eq_emod_of_nonneg _ (by omega)]
    simp only [e2]
    split_ifs
    · exact (H.legal.undo (hl v hv) gv).2.2.2
    · exact (H.legal.undo (hl u hu) gu).2.2.2

/-- C84: it fixes the vertices at which the multiarc does not end. -/
theorem C84_vertices (vs : List (List Int)) (hvs : L.tri.vertices = .ok vs) (v : List Int) (hv : v ∈ vs) (rv : ¬ L.Reaches v)
    (vm : PyDict (List Int) (List Int)) (hm : h.vertexMap = .ok vm) : (v, v) ∈ vm := by
  obtain ⟨h1, h2, h3, h4⟩ := C84_mapping_class P dflt fuel L hL hc power h hh
  rw [C43_characterised h h1 vm vs vs hm (by rw [h3]; exact hvs) (by rw [h4]; exact hvs)]
  refine ⟨hv, hv, ?_⟩
  rw [h3, h4]
  unfold Lam.Reaches at rv
  rw [not_not] at rv
  refine C84_fixes_disjoint P dflt fuel L hL hc power h hh _ ?_ rv
  obtain ⟨q1, q2, q3, q4⟩ := hL.1.1.comp.vertices_mem hvs
  obtain ⟨x, hx⟩ := List.exists_mem_of_ne_nil _ (q2 v hv).1.ne
  have lx := (q2 v hv).2.2 x hx
  refine (Lam.link_ok hL.1.1 lx ?_).1
  obtain ⟨z'', vs'', r1, r2, r3, r4, _⟩ := hL.1.1.comp.vertexOf_ok lx
  rw [hvs] at r2; cases r2
  rw [r1, q3 z'' r3 v hv x r4 hx]

end
end

namespace Lam
variable {P : Lam Int → Py LamClass} {dflt : Int → Int → Bool} {L arc : Lam Int} {T : Triangulation} {i : Int} {power : Int}

theorem boundaryTwist_returns (hd : ∀ w w', dflt w w' = false) (hP : ∀ K, ∃ c, P K = .ok c) (hT : T.Valid) (ha : arc.IsEdgeArc T i) (q : Int) : ∃ u, Returns (fun n => boundaryTwist P dflt n arc q) u := by
  obtain ⟨B, N1, e1⟩ := C80_lamination_returns P dflt hd hP arc (ha.consistent hT) (ha.describes hT)
  dsimp only at e1
  have hB := (C80_lamination P dflt N1 arc (ha.consistent hT) (ha.describes hT) B (e1 N1 le_rfl)).2.1
  obtain ⟨u, ⟨N2, e2⟩, -⟩ := C76_twist P dflt hd B hB q
  dsimp only at e2
  refine ⟨u, N1 + N2, fun n hn => ?_⟩
  show boundaryTwist P dflt n arc q = _
  unfold boundaryTwist
  rw [e1 n (by omega), py_bind_ok, e2 n (by omega)]

theorem halfFactor_returns (hd : ∀ w w', dflt w w' = false) (hP : ∀ K, ∃ c, P K = .ok c) (hT : T.Valid) {p : Lam Int × Int} (ha : p.1.IsEdgeArc T i) (h2 : p.1.TwoEnds) (hp : power ≠ 0) :
    ∃ e, Returns (fun n => halfFactor P dflt n power p) e := by
  obtain ⟨a, ns, T1, e1, c, hh, k, k1, k2, k3⟩ := HalfTwist.made hT ha (h2.distinct hT ha)
  have key : ∀ n, halfFactor P dflt n power p = (do
      let t ← (do
        let k ← HalfTwist.build T (norm i)
        if |power| ≤ 1 then do
          let p' ← k.pow power
          return ⟨p.1, power, k, p'⟩
        else if Int.fmod power 2 = 0 then do
          let p' ← boundaryTwist P dflt n p.1 (Int.fdiv power 2)
          return ⟨p.1, power, k, p'⟩
        else do
          let t ← boundaryTwist P dflt n p.1 (Int.fdiv power 2)
          let p' ← t.mul k
          return ⟨p.1, power, k, p'⟩ : Py HalfTwist)
      return t.encodingPower) := by
    intro n
    unfold halfFactor
    rw [HalfTwist.create_eq _ hT ha hp]
  obtain ⟨u, N, hu⟩ := boundaryTwist_returns hd hP hT ha (Int.fdiv power 2)
  dsimp only at hu
  by_cases q1 : |power| ≤ 1
  · obtain ⟨p', r1, -⟩ := Enc.pow_eq k3.conj.legal k3.conj.kind power
    refine ⟨p', 0, fun n _ => ?_⟩
    show halfFactor P dflt n power p = _
    rw [key, k2, py_bind_ok, if_pos q1, r1]
    rfl
  · by_cases q2 : Int.fmod power 2 = 0
    · refine ⟨u, N, fun n hn => ?_⟩
      show halfFactor P dflt n power p = _
      rw [key, k2, py_bind_ok, if_neg q1, if_pos q2, hu n hn]
      rfl
    · obtain ⟨l, -⟩ := boundaryTwist_closed ha hT (hu N le_rfl)
      have hsrc : k.target = u.source := by
        have := hu N le_rfl
        unfold boundaryTwist at this
        rw [py_bind_eq_ok] at this
        obtain ⟨B, b1, b2⟩ := this
        obtain ⟨c1, c2, -⟩ := boundary_off hT ha b1
        rw [(C60_mapping_class P dflt N B c2 _ u b2).2.2.1, c1]
        exact k3.conj.target.trans k3.csource
      obtain ⟨m, m1, -⟩ := C14_composition u k l k3.conj.legal hsrc.symm
      refine ⟨m, N, fun n hn => ?_⟩
      show halfFactor P dflt n power p = _
      rw [key, k2, py_bind_ok, if_neg q1, if_neg q2, hu n hn, py_bind_ok, m1]
      rfl

theorem returns_mapM {α β : Type} {f : Nat → α → Py β} : ∀ {l : List α}, (∀ x ∈ l, ∃ y, Returns (fun n => f n x) y) → ∃ r, Returns (fun n => l.mapM (f n)) r
  | [], _ => ⟨[], 0, fun _ _ => rfl⟩
  | x :: l, h => by
    obtain ⟨y, N, hy⟩ := h x (by simp)
    obtain ⟨r, N', hr⟩ := returns_mapM (f := f) (l := l) (fun z hz => h z (by simp [hz]))
    refine ⟨y :: r, N + N', fun n hn => ?_⟩
    have h1 := hy n (by omega)
    have h2 := hr n (by omega)
    dsimp only at h1 h2 ⊢
    rw [List.mapM_cons, h1, py_bind_ok, h2]
    rfl

end Lam

/-- C84: without acceleration, `encode_halftwist(power)` returns for every multiarc with distinct end points. -/
theorem C84_returns (P : Lam Int → Py LamClass) (dflt : Int → Int → Bool) (hd : ∀ w w', dflt w w' = false) (hP : ∀ K, ∃ c, P K = .ok c) (L : Lam Int) (hL : L.Consistent) (hc : L.ClassRight) (hD : L.DistinctEnds) (power : Int) :
    ∃ h, Returns (fun n => L.encodeHalftwist P dflt n power) h ∧ h.Legal ∧ h.applyLam L = .ok L := by
  obtain ⟨b, ⟨N0, e0⟩, hb⟩ := C82_distinct_returns P dflt L hL hc hd
  dsimp only at e0
  rw [hb.2 hD] at e0
  have fin : ∀ h, Returns (fun n => L.encodeHalftwist P dflt n power) h → ∃ h, Returns (fun n => L.encodeHalftwist P dflt n power) h ∧ h.Legal ∧ h.applyLam L = .ok L := by
    rintro h ⟨N, hN⟩
    exact ⟨h, ⟨N, hN⟩, (C84_mapping_class P dflt N L hL hc power h (hN N le_rfl)).1, C84_fixes_self P dflt N L hL hc power h (hN N le_rfl)⟩
  by_cases hp : power = 0
  · obtain ⟨j, j1, -⟩ := C14_identity L.tri hL.1.1
    refine fin j ⟨N0, fun n hn => ?_⟩
    show L.encodeHalftwist P dflt n power = _
    unfold Lam.encodeHalftwist
    rw [e0 n hn, py_bind_ok, if_neg (by simp), if_pos hp, j1]
  · obtain ⟨⟨s, g⟩, N1, e1⟩ := Lam.shorten_returns (P := P) (dflt := dflt) hL hd
    have h2 := e1 N1 le_rfl
    obtain ⟨H, -⟩ := Lam.shortenAll_spec hL.1 h2
    obtain ⟨l, -, -, hS, K, k1, k2, k3, k4⟩ := Lam.shorten_same hL h2
    have hsc := (C68_shorten P dflt dflt N1 L hL.1 s g h2).1.classRight
    obtain ⟨cs, hI, N2, e2⟩ := Lam.componentsAll_returns P dflt hd s hS hsc
    dsimp only at e2
    have hle := (hD.onlyArcs hL).short hL h2
    have hds : s.DistinctEnds := by
      obtain ⟨D, d1, d2, d3⟩ := hD.enc hL l k1
      exact ⟨D, d1.same k3, d2, d3⟩
    obtain ⟨q1, q2⟩ := Lam.short_parts hS hle hds hI
    obtain ⟨hs, N3, e3⟩ := Lam.returns_mapM (f := fun n => Lam.halfFactor P dflt n power) (l := cs) (fun p hp' => by
      obtain ⟨a1, i, a2⟩ := q1 p hp'
      exact Lam.halfFactor_returns hd hP hS.1.1 a2 a1 hp)
    dsimp only at e3
    obtain ⟨start, j1, -⟩ := C14_identity s.tri hS.1.1
    have hk : ∀ e ∈ hs, e.Keeps s.tri (fun _ => False) := by
      intro e he
      obtain ⟨p, p1, p2⟩ := mapM_mem (e3 N3 le_rfl) he
      unfold Lam.halfFactor at p2
      rw [py_bind_eq_ok] at p2
      obtain ⟨t, t1, t2⟩ := p2
      cases t2
      obtain ⟨a1, i, a2⟩ := q1 p p1
      have := Lam.halftwist_holds hS.1.1 a2 a1 t1
      exact ⟨this.legal, this.source, this.target, this.kind, fun _ q => q.elim⟩
    obtain ⟨k, hk1⟩ := Lam.encProduct_total (start := start) hk
    have hk2 := Enc.keeps_product (Enc.keeps_id hS.1.1 (fun _ q => q.elim) j1) hk hk1
    obtain ⟨h, i, c1, -⟩ := C15_conjugate k g hk2.legal H.legal hk2.kind H.kind (H.target.trans hk2.source.symm)
    refine fin h ⟨N0 + N1 + N2 + N3, fun n hn => ?_⟩
    show L.encodeHalftwist P dflt n power = _
    unfold Lam.encodeHalftwist
    rw [e0 n (by omega), py_bind_ok, if_neg (by simp), if_neg hp, e1 n (by omega), py_bind_ok]
    dsimp only
    rw [e2 n (by omega), py_bind_ok]
    have e3' := e3 n (by omega)
    unfold Lam.halfFactor at e3'
    rw [e3', py_bind_ok, j1, py_bind_ok, hk1, py_bind_ok, c1]

/-! ## Non-vacuity -/

/-- the half twist about two opposite edges of the tetrahedron -/
theorem sphereTwoArcs_halftwist : ∃ h, sphereTwoArcs.encodeHalftwist anyClass neverSlow 20 1 = .ok h ∧ 0 < h.sequence.length := by
  obtain ⟨h, h3, h4⟩ := Py.of_toOption (x := sphereTwoArcs.encodeHalftwist anyClass neverSlow 20 1) (f := fun h => decide (0 < h.sequence.length)) (v := true) (by decide +kernel)
  exact ⟨h, h3, of_decide_eq_true h4⟩

example : ∃ h, sphereTwoArcs.encodeHalftwist anyClass neverSlow 20 1 = .ok h ∧ h.applyLam sphereTwoArcs = .ok sphereTwoArcs := by
  obtain ⟨h, h1, -⟩ := sphereTwoArcs_halftwist
  exact ⟨h, h1, C84_fixes_self anyClass neverSlow 20 _ sphereTwoArcs_consistent sphereTwoArcs_class 1 h h1⟩

example : torusMixed.encodeHalftwist anyClass neverSlow 20 1 = .error .valueError := by decide +kernel

example : ∃ h, Returns (fun n => sphereTwoArcs.encodeHalftwist anyClass neverSlow n 5) h ∧ h.Legal ∧ h.applyLam sphereTwoArcs = .ok sphereTwoArcs :=
  C84_returns anyClass neverSlow neverSlow_never (fun _ => ⟨_, rfl⟩) sphereTwoArcs sphereTwoArcs_consistent sphereTwoArcs_class
    ((C82_distinct anyClass neverSlow 20 _ sphereTwoArcs_consistent sphereTwoArcs_class _ sphereTwoArcs_distinct).1 rfl) 5

end Curver
