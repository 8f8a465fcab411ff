import Verif.Proofs.CrushUse
import Verif.Props.Twist
import Verif.Props.Encoding
import Verif.Props.Shorten
import Verif.Props.LamClass

/-!
# C88: the surface that `crush` leads to; C89: lifting through a crush; C90: crushing what is disjoint from the curve

Here `c` is an essential closed curve, `f = c.crush()` and `g = f.inverse()`.  `P` stands for `promote()`, which is only asked to return.
-/

namespace Curver
open Triangulation

section
variable (P : Lam Int → Py LamClass) (dflt : Int → Int → Bool) (fuel : Nat) (c : Lam Int) (hc : c.NoArcs)
include hc

/-- C88: crushing along an essential curve leads to a triangulation with as many edges, and so the same Euler characteristic, and with two more vertices. -/
theorem C88_surface (hp : ¬ c.Peripheral) (f : CrushEnc) (h : c.crush P dflt fuel = .ok f) : f.source = c.tri ∧ f.target.Valid ∧ f.target.zeta = c.tri.zeta ∧
    ∃ n, c.tri.numVertices = .ok n ∧ f.target.numVertices = .ok (n + 2) := by
  obtain ⟨g1, g2, m, s, a, b, e, X, H⟩ := Lam.crush_spec hc hp h
  obtain ⟨a1, -, -, ⟨n1, _, n2, n3, -⟩, -⟩ := C36_invariant g1 H.legal1
  obtain ⟨b1, -, -, ⟨n4, _, n5, n6, -⟩, -⟩ := C36_invariant g2 H.legal2
  have ft : f.target = g2.target := by rw [H.eq]
  refine ⟨by rw [H.eq]; exact H.source1, by rw [ft]; exact H.legal2.path.valid_target, ?_, n1, by rw [← H.source1]; exact n2, ?_⟩
  · rw [ft, b1, H.source2, H.crush.target.zeta, ← H.target1, a1, H.source1]
  · rw [ft, n6]
    rw [H.source2] at n5
    rw [H.target1] at n3
    obtain ⟨vs, v1, -⟩ := H.crush.loop.valid.comp.vertices_ok
    obtain ⟨vs', v1', -⟩ := H.crush.target.comp.vertices_ok
    have := H.crush.target.vertices H.crush.loop v1 v1'
    unfold numVertices at n3 n5
    rw [v1] at n3
    rw [v1'] at n5
    injection n3 with n3
    injection n5 with n5
    rw [← n5, ← n3, this]

/-- C88: along a curve around a vertex nothing happens. -/
theorem C88_peripheral (hp : c.Peripheral) (f : CrushEnc) (h : c.crush P dflt fuel = .ok f) (L : Lam Int) (hL : L.WellFormed) (ht : L.tri = c.tri) : f.source = c.tri ∧ f.target = c.tri ∧ f.applyLam P L = .ok L := by
  unfold Lam.crush Lam.crushWith at h
  obtain ⟨p, p1, p2⟩ := Lam.isPeripheral_spec P (Lam.noArcs_iff.1 hc).1
  rw [p1, py_bind_ok, p2.2 hp, if_pos rfl] at h
  obtain ⟨i, i1, i2, -, i3, i4, i5, -⟩ := C14_identity c.tri hc.1.1
  rw [i1, py_bind_ok] at h
  injection h with h
  subst h
  refine ⟨i3, i4, ?_⟩
  unfold CrushEnc.applyLam
  dsimp only
  rw [Triangulation.eq_decide, i3, ht]
  simp only [decide_true, Bool.not_true, Bool.false_eq_true, if_false, List.foldlM_cons, List.foldlM_nil, CrushPart.applyLam]
  rw [i5 Int L hL ht, py_bind_ok]
  rfl

variable (hP : ∀ L, ∃ k, P L = .ok k) (hp : ¬ c.Peripheral) (f : CrushEnc) (h : c.crush P dflt fuel = .ok f)
include hP hp h

/-- C89: lamination of closed curves in the crushed surface can be lifted, and give closed curves that are disjoint from `c`. -/
theorem C89_lift : ∃ g, f.inverse = .ok g ∧ ∀ N : Lam Int, N.NoArcs → N.tri = f.target → ∃ M, g.applyLam P N = .ok M ∧ M.tri = c.tri ∧ M.NoArcs ∧ M.DisjointFrom c := by
  obtain ⟨g1, g2, m, s, a, b, e, X, H⟩ := Lam.crush_spec hc hp h
  refine ⟨_, H.inverse, fun N hN ht => ?_⟩
  obtain ⟨N1, M1, M, -, -, -, -, -, -, -, -, -, h1, h2, h3, h4⟩ := H.mul_lift hP hN ht
  exact ⟨M, h4, h2, h1, h3⟩

/-- C89: lifting after crushing: the closed curves that are disjoint from `c` come back, except for the copies of `c`, which are lost. -/
theorem C89_lift_crush (L : Lam Int) (hL : L.NoArcs) (hd : L.DisjointFrom c) : ∃ g K M, ∃ n : Nat, f.inverse = .ok g ∧ f.applyLam P L = .ok K ∧ g.applyLam P K = .ok M ∧
    L.Unions (List.replicate n c ++ [M]) ∧ ¬ ∃ Y, M.IsUnion c Y := by
  obtain ⟨g1, g2, m, s, a, b, e, X, H⟩ := Lam.crush_spec hc hp h
  obtain ⟨L1, K1, K, k, t, l1, l2, l3, l4, l5, l6, l7, l8, l9, l10, l11, l12⟩ := H.mul_apply hP hd
  have hL1 := H.legal1.noArcs hL l1
  have hcr : Crushed L1.tri m.target b e := by rw [l8]; exact H.crush.target
  have hK1 := l6.noArcs l5 hcr hL1
  have hK := H.legal2.noArcs hK1 l3
  obtain ⟨N1, M1, M, m1, m2, m3, m4, m5, m6, m7, m8, m9, m10, m11, m12, m13⟩ := H.mul_lift hP hK l12
  have e1 : N1 = K1 := by
    have := (H.legal2.undo hK1.1 l3).2.2.2
    rw [m1] at this
    injection this
  subst e1
  obtain ⟨u1, u2⟩ := Lam.Crushing.lift_crush l5 l6 hcr (by rw [l8]; exact m6) l7
  obtain ⟨K0, k1, k2⟩ := H.acts
  have cut : Lam.Same (L1.tri.curveFromCutSequence X) K0 := by
    rw [l8]
    exact H.crush.cut.symm.trans k2.symm
  refine ⟨_, K, M, t.toNat, H.inverse, l4, m13, ?_, ?_⟩
  · have v := u1.congr (Lam.noArcs_iff.1 hL1).1 (Lam.forall₂_append (Lam.forall₂_replicate cut t.toNat) (.cons .refl .nil))
    exact v.map (Lam.noArcs_iff.1 hL1).1 H.legal1.inv' (H.legal1.undo hL.1 l1).2.2.2 (Lam.forall₂_append (Lam.forall₂_replicate (R := fun X Y => g1.inv'.applyLam X = .ok Y) (H.legal1.undo hc.1 k1).2.2.2 _) (.cons m8 .nil))
  · rintro ⟨Y, hY⟩
    obtain ⟨X1, Y1, x1, x2, x3⟩ := hY.enc (Lam.noArcs_iff.1 m10).1 H.legal1 m9
    rw [k1] at x1
    injection x1 with x1
    subst x1
    exact u2 ⟨Y1, x3.same x3.wf.1 x3.wf.2.1 .refl cut.symm .refl⟩

/-- C90: everything that is disjoint from `c`, arcs included, can be crushed: the sanity checks of the code hold, and the result is a lamination of the crushed surface; it has no arcs if there were none. -/
theorem C90_crush (L : Lam Int) (hd : L.DisjointFrom c) : ∃ K, f.applyLam P L = .ok K ∧ K.tri = f.target ∧ K.Consistent ∧ (L.NoArcs → K.NoArcs) := by
  obtain ⟨g1, g2, m, s, a, b, e, X, H⟩ := Lam.crush_spec hc hp h
  obtain ⟨L1, K1, K, k, t, l1, l2, l3, l4, l5, l6, l7, l8, l9, l10, l11, l12⟩ := H.mul_apply hP hd
  refine ⟨K, l4, l12, l11, fun hL => ?_⟩
  exact H.legal2.noArcs (l6.noArcs l5 (by rw [l8]; exact H.crush.target) (H.legal1.noArcs hL l1)) l3

/-- C90: crushing after lifting.  There are two curves `l` and `r` around vertices of the crushed surface which lift to `c`; closed curves in the crushed surface come back, except for the copies of these two, which are lost. -/
theorem C90_crush_lift : ∃ g, f.inverse = .ok g ∧ ∃ l r : Lam Int, l.Peripheral ∧ r.Peripheral ∧ l.NoArcs ∧ r.NoArcs ∧ l.tri = f.target ∧ r.tri = f.target ∧ l.Connected ∧ r.Connected ∧ l.geometric ≠ r.geometric ∧
    (∃ M, g.applyLam P l = .ok M ∧ M.tri = c.tri ∧ M.geometric = c.geometric) ∧ (∃ M, g.applyLam P r = .ok M ∧ M.tri = c.tri ∧ M.geometric = c.geometric) ∧
    ∀ N : Lam Int, N.NoArcs → N.tri = f.target → ∃ M K, ∃ n k : Nat, g.applyLam P N = .ok M ∧ f.applyLam P M = .ok K ∧
      N.Unions (List.replicate n l ++ List.replicate k r ++ [K]) ∧ (¬ ∃ Y, K.IsUnion l Y) ∧ ¬ ∃ Y, K.IsUnion r Y := by
  obtain ⟨g1, g2, m, s, a, b, e, X, H⟩ := Lam.crush_spec hc hp h
  obtain ⟨vs, hvs, -⟩ := H.crush.verts
  obtain ⟨v1, v2, w1, w2, w3, s1, s2, d1, d2, d3⟩ := H.crush.news hvs
  obtain ⟨K0, k1, k2⟩ := H.acts
  have back := (H.legal1.undo hc.1 k1).2.2.2
  have key : ∀ v, v ∈ vs → m.target.Star v → (inv b ∈ v ∨ inv e ∈ v) → ∃ l : Lam Int, g2.applyLam (m.target.curveFromCutSequence v) = .ok l ∧ l.Peripheral ∧ l.NoArcs ∧ l.tri = f.target ∧ l.Connected ∧
      ∃ M, CrushEnc.applyLam P ⟨[.enc g2.inv', .lift m, .enc g1.inv'], f.target, f.source⟩ l = .ok M ∧ M.tri = c.tri ∧ M.geometric = c.geometric := by
    intro v hv st hm
    have hn := Lam.link_noArcs st.valid st.ex
    obtain ⟨⟨l, l'⟩, l1⟩ := H.legal2.applyLam_total ⟨_, (Lam.noArcs_iff.1 hn).1, H.source2.symm⟩
    dsimp only at l1
    have hl := H.legal2.noArcs hn l1
    have hper : (m.target.curveFromCutSequence v : Lam Int).Peripheral := by
      obtain ⟨p, p1, p2⟩ := Lam.isPeripheral_spec P (Lam.noArcs_iff.1 hn).1
      rw [Lam.star_isPeripheral st] at p1
      injection p1 with p1
      exact p2.1 p1.symm
    have ht : l.tri = f.target := by rw [l'.2, H.eq]
    refine ⟨l, l1, hper.enc hn H.legal2 l1, hl, ht, (Lam.link_connected st).enc (Lam.noArcs_iff.1 hn).1 H.legal2 l1, ?_⟩
    obtain ⟨N1, M1, M, m1, m2, m3, m4, m5, m6, m7, m8, m9, m10, m11, m12, m13⟩ := H.mul_lift hP hl ht
    have e1 : N1 = m.target.curveFromCutSequence v := by
      have := (H.legal2.undo hn.1 l1).2.2.2
      rw [m1] at this
      injection this
    subst e1
    obtain ⟨M', q1, -, -, q2, -⟩ := H.crush.lift_vertex hP hvs hv
    rw [m5] at q1
    injection q1 with q1
    subst q1
    have sm : Lam.Same K0 M1 := k2.trans (q2 hm)
    have := Enc.applyLam_cls back sm.1.symm sm.2.symm
    rw [m8] at this
    injection this with this
    exact ⟨M, m13, m11, by rw [this]⟩
  obtain ⟨l, l1, l2, l3, l4, l5, l6⟩ := key v1 w1 s1 (.inl ((d3 v1 w1).1.2 rfl))
  obtain ⟨r, r1, r2, r3, r4, r5, r6⟩ := key v2 w2 s2 (.inr ((d3 v2 w2).2.2 rfl))
  refine ⟨_, H.inverse, l, r, l2, r2, l3, r3, l4, r4, l5, r5, ?_, l6, r6, ?_⟩
  · intro q
    have n1 := Lam.link_noArcs s1.valid s1.ex
    have n2 := Lam.link_noArcs s2.valid s2.ex
    have b1 := (H.legal2.undo n1.1 l1).2.2.2
    have b2 := (H.legal2.undo n2.1 r1).2.2.2
    have := Enc.applyLam_cls b2 (l4.trans r4.symm) q
    rw [b1] at this
    injection this with this
    have hw := congrArg (fun L : Lam Int => L.w b) this
    have B := H.crush.loop.fan.base
    have lb := H.crush.target.label.2 B.labels.2.1
    have hw' : (m.target.curveFromCutSequence v1 : Lam Int).w b = (m.target.curveFromCutSequence v2 : Lam Int).w b := hw
    rw [link_w (T := m.target) v1 lb, link_w (T := m.target) v2 lb, d1 b lb, d1 _ (isLabel_inv.2 lb), d2 b lb, d2 _ (isLabel_inv.2 lb), if_neg (Curver.inv_ne b).symm, if_pos rfl, norm_inv, if_pos rfl] at hw'
    simp at hw'
  · intro N hN ht
    obtain ⟨N1, M1, M, m1, m2, m3, m4, m5, m6, m7, m8, m9, m10, m11, m12, m13⟩ := H.mul_lift hP hN ht
    obtain ⟨L1, K1, K, k, t, j1, j2, j3, j4, j5, j6, j7, j8, j9, j10, j11, j12⟩ := H.mul_apply hP m12
    rw [m9] at j1
    injection j1 with j1
    subst j1
    have hk : k = N1.lf a := by
      rw [← j5.flat.belt.first]
      exact (m6.flat (m3.clear H.crush.loop H.crush.target m4) H.crush.loop H.crush.target m4).1.belt.first
    obtain ⟨p, q, u1, u2, u3⟩ := Lam.Crushing.crush_lift m3 H.crush.loop H.crush.target m4 m6 j5 hk j6 j7 s1 d1 s2 d2
    refine ⟨M, K, p, q, m13, j4, ?_, ?_, ?_⟩
    · exact u1.map (Lam.noArcs_iff.1 m3).1 H.legal2 m2 (Lam.forall₂_append (Lam.forall₂_append (Lam.forall₂_replicate (R := fun X Y => g2.applyLam X = .ok Y) l1 p) (Lam.forall₂_replicate (R := fun X Y => g2.applyLam X = .ok Y) r1 q)) (.cons j3 .nil))
    · rintro ⟨Y, hY⟩
      obtain ⟨X1, Y1, x1, x2, x3⟩ := hY.enc j11 H.legal2.inv' (H.legal2.undo j10.1 j3).2.2.2
      rw [(H.legal2.undo (Lam.link_noArcs s1.valid s1.ex).1 l1).2.2.2] at x1
      injection x1 with x1
      subst x1
      exact u2 ⟨_, x3⟩
    · rintro ⟨Y, hY⟩
      obtain ⟨X1, Y1, x1, x2, x3⟩ := hY.enc j11 H.legal2.inv' (H.legal2.undo j10.1 j3).2.2.2
      rw [(H.legal2.undo (Lam.link_noArcs s2.valid s2.ex).1 r1).2.2.2] at x1
      injection x1 with x1
      subst x1
      exact u3 ⟨_, x3⟩

/-- C90 does not extend to arcs (finding 29): although an arc that is disjoint from `c` can be crushed, its image can never be lifted back, since `Lift` asserts that nothing ends at the vertices whose curves lift to peripheral ones; these are the old vertices rather than the two new ones. -/
theorem C90_arcs_do_not_lift (L : Lam Int) (hL : ¬ L.NoArcs) (hd : L.DisjointFrom c) : ∃ g K, f.inverse = .ok g ∧ f.applyLam P L = .ok K ∧ g.applyLam P K = .error .assertionError := by
  obtain ⟨g1, g2, m, s, a, b, e, X, H⟩ := Lam.crush_spec hc hp h
  obtain ⟨L1, K1, K, k, t, l1, l2, l3, l4, l5, l6, l7, l8, l9, l10, l11, l12⟩ := H.mul_apply hP hd
  refine ⟨_, K, H.inverse, l4, ?_⟩
  have hL1 : ¬ L1.NoArcs := fun q => hL (H.legal1.inv'.noArcs q (H.legal1.undo l9.1 l1).2.2.2)
  have := H.crush.lift_arc hP l8 hL1 l5 l6
  unfold CrushEnc.applyLam
  dsimp only
  rw [Triangulation.eq_decide, l12]
  simp only [decide_true, Bool.not_true, Bool.false_eq_true, if_false, List.foldlM_cons, List.foldlM_nil, CrushPart.applyLam, (H.legal2.undo l10.1 l3).2.2.2, py_bind_ok, this]
  rfl

end

/-- C88: along an essential curve that is already short, the crush can always be constructed: none of its assertions fails. -/
theorem C88_built (P : Lam Int → Py LamClass) (c : Lam Int) (a : Int) (hc : c.NoArcs) (hP : ∀ L, ∃ k, P L = .ok k) (hk : c.cls = .curve) (ha : c.parallelEdge P = .ok a) : ∃ m, c.crushShort P = .ok m :=
  Lam.crushShort_total hP hc hk ha

/-! ## the hypotheses are met -/

theorem sphereShort_essential : ¬ sphereShort.Peripheral := by
  obtain ⟨p, p1, p2⟩ := Lam.isPeripheral_spec anyClass (Lam.noArcs_iff.1 sphereShort_noArcs).1
  rw [show sphereShort.isPeripheral anyClass = .ok false from by decide +kernel] at p1
  injection p1 with p1
  intro h
  simp [p2.2 h] at p1

theorem sphereShort_crush : ∃ f, sphereShort.crush anyClass neverSlow 100 = .ok f := exists_ok (by decide +kernel)

/-- a sphere with four punctures is cut into two spheres with three punctures -/
example : ∃ f, sphereShort.crush anyClass neverSlow 100 = .ok f ∧ f.target.Valid ∧ f.target.zeta = 6 ∧ f.target.numVertices = .ok 6 := by
  obtain ⟨f, h⟩ := sphereShort_crush
  obtain ⟨-, h2, h3, n, h4, h5⟩ := C88_surface anyClass neverSlow 100 sphereShort sphereShort_noArcs sphereShort_essential f h
  rw [show sphereShort.tri.numVertices = .ok 4 from by decide +kernel] at h4
  injection h4 with h4
  subst h4
  exact ⟨f, h, h2, h3, h5⟩

/-- the curves around the six vertices of the crushed surface lift, those around the second and the third one to the curve itself -/
example : (do
    let f ← sphereShort.crush anyClass neverSlow 100
    let g ← f.inverse
    let vs ← f.target.vertices
    vs.mapM (fun v => do let L ← g.applyLam anyClass (f.target.curveFromCutSequence v); return L.geometric)) =
      .ok [[0, 0, 0, 0, 1, 1], [0, 0, 1, 1, 1, 0], [0, 0, 1, 1, 1, 0], [0, 1, 0, 0, 0, 0], [2, 1, 1, 1, 1, 0], [0, 0, 1, 1, 0, 1]] := by decide +kernel

/-- an arc that is disjoint from the curve can be crushed but not be lifted back -/
example : ∃ f g K, sphereShort.crush anyClass neverSlow 100 = .ok f ∧ f.inverse = .ok g ∧ f.applyLam anyClass (sphereLoop.edgeArcOf 5) = .ok K ∧ g.applyLam anyClass K = .error .assertionError := by
  obtain ⟨f, h⟩ := sphereShort_crush
  have d : (sphereLoop.edgeArcOf 5 : Lam Int).DisjointFrom sphereShort := (Lam.arc_disjoint_iff (Lam.noArcs_iff.1 sphereShort_noArcs).1 (by decide)).2 (by decide)
  have na : ¬ (sphereLoop.edgeArcOf 5 : Lam Int).NoArcs := fun q => absurd (q.nonneg (x := 5) (by decide)) (by decide)
  obtain ⟨g, K, h1, h2, h3⟩ := C90_arcs_do_not_lift anyClass neverSlow 100 sphereShort sphereShort_noArcs (fun _ => ⟨_, rfl⟩) sphereShort_essential f h _ na d
  exact ⟨f, g, K, h, h1, h2, h3⟩

/-- three copies of the curve are lost, a curve around a vertex is kept -/
example : (do
    let f ← sphereShort.crush anyClass neverSlow 100
    let g ← f.inverse
    let K ← f.applyLam anyClass (⟨sphereLoop, [0, 1, 3, 3, 3, 0], .multicurve⟩ : Lam Int)
    let M ← g.applyLam anyClass K
    return M.geometric) = .ok [0, 1, 0, 0, 0, 0] := by decide +kernel

example : ∃ m, sphereShort.crushShort anyClass = .ok m := C88_built anyClass sphereShort 0 sphereShort_noArcs (fun _ => ⟨_, rfl⟩) rfl sphereShort_parallel

/-- a torus with one puncture becomes a sphere with three punctures -/
example : ∃ f, torusShort.crush anyClass neverSlow 100 = .ok f ∧ f.target.numVertices = .ok 3 := by
  obtain ⟨f, h⟩ : ∃ f, torusShort.crush anyClass neverSlow 100 = .ok f := exists_ok (by decide +kernel)
  have ess : ¬ torusShort.Peripheral := by
    obtain ⟨p, p1, p2⟩ := Lam.isPeripheral_spec anyClass (Lam.noArcs_iff.1 torusShort_noArcs).1
    rw [show torusShort.isPeripheral anyClass = .ok false from by decide +kernel] at p1
    injection p1 with p1
    intro h
    simp [p2.2 h] at p1
  obtain ⟨-, h2, h3, n, h4, h5⟩ := C88_surface anyClass neverSlow 100 torusShort torusShort_noArcs ess f h
  rw [show torusShort.tri.numVertices = .ok 1 from by decide +kernel] at h4
  injection h4 with h4
  subst h4
  exact ⟨f, h, h5⟩

end Curver
