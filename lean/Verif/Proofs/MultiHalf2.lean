import Verif.Props.MultiTwist

/-!
# Half twists about multiarcs: closed laminations and vertices
-/

namespace Curver
open Triangulation

namespace Lam
variable {P : Lam Int → Py LamClass} {dflt : Int → Int → Bool} {fuel : Nat} {L X Y s B arc : Lam Int} {D : List (Lam Int)} {T : Triangulation} {i f : Int} {cs : List (Lam Int × Int)}

/-- what the half twist does to the laminations that it exchanges or fixes -/
theorem halftwist_acts (hT : T.Valid) (ha : arc.IsEdgeArc T i) (hd : arc.arcDistinctEndpoints = .ok true) {power : Int} {t : HalfTwist} (ht : HalfTwist.create (boundaryTwist P dflt fuel) arc power = .ok t) :
    ∃ a ns T1 e1 c hh k, (a = i ∨ a = inv i) ∧ Built T a ns T1 e1 c hh k ∧ ∀ X X' : Lam Int, X.WellFormed → X'.WellFormed → k.applyLam X = .ok X' → k.applyLam X' = .ok X →
      (∀ q u, boundaryTwist P dflt fuel arc q = .ok u → u.Legal ∧ u.applyLam X = .ok X ∧ u.applyLam X' = .ok X') →
        t.encodingPower.applyLam X = .ok (if Int.fmod power 2 = 0 then X else X') := by
  have hp0 : power ≠ 0 := by
    rintro rfl
    obtain ⟨e, he⟩ := C56_power_zero (boundaryTwist P dflt fuel) arc
    rw [he] at ht; cases ht
  obtain ⟨a, ns, T1, e1, c, hh, k, k1, k2, k3⟩ := HalfTwist.made hT ha hd
  refine ⟨a, ns, T1, e1, c, hh, k, k1, k3, ?_⟩
  intro X X' hX hX' h1 h2 hu
  rw [HalfTwist.create_eq _ hT ha hp0, k2, py_bind_ok] at ht
  by_cases q1 : |power| ≤ 1
  · have hp1 : power = 1 ∨ power = -1 := by rw [abs_le] at q1; omega
    have := HalfTwist.fixes (boundaryTwist P dflt fuel) hT ha hd hp1 (t := t) (by rw [HalfTwist.create_eq _ hT ha hp0, k2, py_bind_ok]; exact ht) k2 hX h1 h2
    have e : Int.fmod power 2 ≠ 0 := by rcases hp1 with rfl | rfl <;> decide
    rw [if_neg e]
    exact this
  · rw [if_neg q1] at ht
    by_cases q2 : Int.fmod power 2 = 0
    · rw [if_pos q2, py_bind_eq_ok] at ht
      obtain ⟨p, p1, p2⟩ := ht
      injection p2 with p2
      subst p2
      rw [if_pos q2]
      exact (hu _ _ p1).2.1
    · rw [if_neg q2] at ht
      simp only [py_bind_eq_ok] at ht
      obtain ⟨u, u1, p, p1, p2⟩ := ht
      injection p2 with p2
      subst p2
      rw [if_neg q2]
      obtain ⟨l, v1, v2⟩ := hu _ _ u1
      obtain ⟨-, hl, -⟩ := Enc.mul_ok l k3.conj.legal p1
      show p.applyLam X = _
      rw [hl.lam Int X hX, h1, py_bind_ok, v2]

theorem IsEdgeArc.eq (ha : arc.IsEdgeArc T i) (hT : T.Valid) : arc = T.edgeArcOf i := by
  have hsm : arc = ⟨(T.edgeArcOf i : Lam Int).tri, (T.edgeArcOf i : Lam Int).geometric, arc.cls⟩ := by
    refine ext_w ha.tri rfl (ha.wellFormed hT).2 (arc_wf hT i).2 (fun x hx => ?_)
    rw [ha.tri] at hx
    change _ = (T.edgeArcOf i : Lam Int).w x
    rw [arc_w hx]
    by_cases q : x = i ∨ x = inv i
    · rw [if_pos q]
      rcases q with rfl | rfl
      · exact ha.at_edge
      · rw [w_inv]; exact ha.at_edge
    · rw [if_neg q]
      push Not at q
      exact ha.other x hx q.1 q.2
  rw [hsm, ha.cls]
  rfl

theorem IsEdgeArc.describes (ha : arc.IsEdgeArc T i) (hT : T.Valid) : arc.Describes arc.cls := by
  rw [ha.cls]
  refine ⟨by rw [ha.eq hT]; exact arc_connected ha.label, fun q => ?_⟩
  have := q.nonneg (x := i) (by rw [ha.tri]; exact ha.label)
  rw [ha.at_edge] at this
  omega

/-- the twists about the boundary fix the closed laminations that are disjoint from the arc -/
theorem boundaryTwist_closed (ha : arc.IsEdgeArc T i) (hT : T.Valid) {q : Int} {u : Enc} (hu : boundaryTwist P dflt fuel arc q = .ok u) :
    u.Legal ∧ (∀ X : Lam Int, X.NoArcs → X.DisjointFrom arc → u.applyLam X = .ok X) ∧ ∀ v, T.Star v → (T.curveFromCutSequence v : Lam Int).NoArcs → u.applyLam (T.curveFromCutSequence v : Lam Int) = .ok (T.curveFromCutSequence v) := by
  unfold boundaryTwist at hu
  rw [py_bind_eq_ok] at hu
  obtain ⟨B, b1, b2⟩ := hu
  have hc := ha.consistent hT
  obtain ⟨c1, c2, c3, c4⟩ := C80_lamination P dflt fuel arc hc (ha.describes hT) B b1
  obtain ⟨d1, d2, d3, d4, d5⟩ := C60_mapping_class P dflt fuel B c2 q u b2
  refine ⟨d1, fun X hX hd => C83_fixes_disjoint P dflt fuel B c2 q u b2 X hX (c4 X hX hd), fun v hv hn => ?_⟩
  have ht : B.tri = T := c1.trans ha.tri
  refine C83_fixes_disjoint P dflt fuel B c2 q u b2 _ hn ?_
  have := (disjoint_link_iff (noArcs_iff.1 c2).1 (v := v) (by rw [ht]; exact hv)).2 (fun x hx => by
    have lx := hv.basic.2.1 x hx
    rw [← ht] at lx
    obtain ⟨y, z, hg⟩ := c2.1.1.comp.exists_glues lx
    exact ⟨c2.nonneg lx, (c2.lf_spec hg).2.2⟩)
  rw [ht] at this
  exact this.symm

theorem link_ok (hT : T.Valid) {x : Int} {v : List Int} (hx : T.IsLabel x) (hv : T.vertexOf x = .ok v) : (T.curveFromCutSequence v : Lam Int).NoArcs ∧ T.Star v := by
  refine ⟨Lam.link_noArcs hT ⟨x, hx, hv⟩, ?_⟩
  obtain ⟨v', vs, v1, v2, v3, v4, -⟩ := hT.comp.vertexOf_ok hx
  rw [hv] at v1; cases v1
  exact star_of_mem hT v2 v3

theorem halftwist_closed (hT : T.Valid) (ha : arc.IsEdgeArc T i) (hd : arc.arcDistinctEndpoints = .ok true) {power : Int} {t : HalfTwist} (ht : HalfTwist.create (boundaryTwist P dflt fuel) arc power = .ok t)
    (hX : X.NoArcs) (hXd : X.DisjointFrom arc) : t.encodingPower.applyLam X = .ok X := by
  obtain ⟨a, ns, T1, e1, c, hh, k, k1, k3, key⟩ := halftwist_acts hT ha hd ht
  have hk : k.applyLam X = .ok X := by
    have h0 := hXd.zero hX (x := i) (by rw [ha.tri]; exact ha.label) (by rw [ha.at_edge]; decide)
    refine k3.still hX (hXd.tri.trans ha.tri) ?_
    rcases k1 with rfl | rfl
    · exact h0
    · rw [w_inv]; exact h0
  have := key X X hX.1 hX.1 hk hk (fun q u hu => by
    obtain ⟨l, h1, -⟩ := boundaryTwist_closed ha hT hu
    exact ⟨l, h1 X hX hXd, h1 X hX hXd⟩)
  rwa [ite_self] at this

theorem halftwist_link (hT : T.Valid) (ha : arc.IsEdgeArc T i) (hd : arc.arcDistinctEndpoints = .ok true) {power : Int} {t : HalfTwist} (ht : HalfTwist.create (boundaryTwist P dflt fuel) arc power = .ok t)
    {b : Int} (hb : b = i ∨ b = inv i) {v u : List Int} (hv : T.vertexOf b = .ok v) (hu : T.vertexOf (inv b) = .ok u) :
    t.encodingPower.applyLam (T.curveFromCutSequence v : Lam Int) = .ok (if Int.fmod power 2 = 0 then T.curveFromCutSequence v else T.curveFromCutSequence u) := by
  obtain ⟨a, ns, T1, e1, c, hh, k, k1, k3, key⟩ := halftwist_acts hT ha hd ht
  have lb : T.IsLabel b := by rcases hb with rfl | rfl; exacts [ha.label, isLabel_inv.2 ha.label]
  have n1 := link_ok hT lb hv
  have n2 := link_ok hT (isLabel_inv.2 lb) hu
  have hba : b = a ∨ b = inv a := by rcases hb with rfl | rfl <;> rcases k1 with rfl | rfl <;> simp [Curver.inv_inv]
  have hba' : inv b = a ∨ inv b = inv a := by rcases hb with rfl | rfl <;> rcases k1 with rfl | rfl <;> simp [Curver.inv_inv]
  refine key _ _ n1.1.1 n2.1.1 (k3.tail hba hv hu) (k3.tail hba' hu (by rw [Curver.inv_inv]; exact hv)) (fun q w hw => ?_)
  obtain ⟨l, -, h1⟩ := boundaryTwist_closed ha hT hw
  exact ⟨l, h1 v n1.2 n1.1, h1 u n2.2 n2.1⟩

/-- the components of a short multiarc with distinct ends -/
theorem short_parts (hs : s.Consistent) (hle : ∀ x, s.tri.IsLabel x → s.w x ≤ 0) (hd : s.DistinctEnds) (hI : s.IsComponents cs) :
    (∀ p ∈ cs, p.1.TwoEnds ∧ ∃ i, p.1.IsEdgeArc s.tri i) ∧ cs.Pairwise (fun p q => EndApart p.1 q.1) := by
  obtain ⟨h1, h2⟩ := hd.all hs hI.union (flat_connected hI)
  refine ⟨fun p hp => ⟨h1 p.1 (mem_flat hp (hI.mult p hp)), ?_⟩, ?_⟩
  · have hpart : s.HasPart p.1 := ⟨hI.connected p hp, hI.union.pull hs (mem_flat hp (hI.mult p hp))⟩
    obtain ⟨i, i1, i2, i3⟩ := nonpos_part hs hle hpart
    have hi : s.tri.IsLabel i := isLabel_index i1
    refine ⟨i, ?_⟩
    have ht := (hI.sub hs hp).2
    have hcl : p.1.cls = .arc := by
      rcases hI.cls p hp with ⟨-, q⟩ | ⟨q, -⟩
      · have := q.nonneg (x := i) (by rw [ht]; exact hi)
        have e : p.1.w i = (s.tri.edgeArcOf i : Lam Int).w i := Same.w (X := p.1) (Y := s.tri.edgeArcOf i) ⟨ht, i3⟩ i
        rw [e, arc_w hi, if_pos (.inl rfl)] at this
        omega
      · exact q
    have e : p.1 = s.tri.edgeArcOf i := by
      rcases hpq : p.1 with ⟨t, g, c⟩
      rw [hpq] at ht i3 hcl
      dsimp only at ht i3 hcl
      rw [ht, i3, hcl]; rfl
    rw [e]
    exact IsEdgeArc.of_edge hi
  · rw [List.pairwise_flatMap] at h2
    refine h2.2.imp_of_mem (fun {p q} hp hq h => h p.1 ?_ q.1 ?_)
    · rw [List.mem_replicate]; exact ⟨by have := hI.mult p hp; omega, rfl⟩
    · rw [List.mem_replicate]; exact ⟨by have := hI.mult q hq; omega, rfl⟩

end Lam

theorem mapM_mem {α β : Type} {f : α → Py β} {l : List α} {m : List β} (h : l.mapM f = .ok m) {y : β} (hy : y ∈ m) : ∃ x ∈ l, f x = .ok y := by
  rw [mapM_ok_iff] at h
  induction h with
  | nil => cases hy
  | cons h1 _ ih =>
    rcases List.mem_cons.1 hy with rfl | hy
    · exact ⟨_, by simp, h1⟩
    · obtain ⟨x, a, b⟩ := ih hy
      exact ⟨x, by simp [a], b⟩

theorem mapM_split {α β : Type} {f : α → Py β} {R : α → α → Prop} {l : List α} {m : List β} {p : α} (hm : l.mapM f = .ok m) (hp : p ∈ l) (pw : l.Pairwise R) :
    ∃ m1 g m2, m = m1 ++ g :: m2 ∧ f p = .ok g ∧ ∀ h ∈ m1 ++ m2, ∃ q ∈ l, f q = .ok h ∧ (R p q ∨ R q p) := by
  obtain ⟨l1, l2, rfl⟩ := List.append_of_mem hp
  rw [List.mapM_append] at hm
  simp only [List.mapM_cons, py_bind_eq_ok] at hm
  obtain ⟨m1, h1, m', ⟨g, h2, m2, h3, h4⟩, h5⟩ := hm
  cases h4; cases h5
  rw [List.pairwise_append] at pw
  obtain ⟨-, q1, q2⟩ := pw
  rw [List.pairwise_cons] at q1
  refine ⟨m1, g, m2, rfl, h2, fun h hh => ?_⟩
  rcases List.mem_append.1 hh with hh | hh
  · obtain ⟨q, r1, r2⟩ := mapM_mem h1 hh
    exact ⟨q, by simp [r1], r2, .inr (q2 q r1 p (by simp))⟩
  · obtain ⟨q, r1, r2⟩ := mapM_mem h3 hh
    exact ⟨q, by simp [r1], r2, .inl (q1.1 q r1)⟩

namespace Enc

/-- a product acts by its factors, the first one first -/
theorem product_lam {T : Triangulation} {start k : Enc} {hs : List Enc} (hT : T.Valid) (h0 : T.idEncoding = .ok start) (h1 : ∀ h ∈ hs, h.Legal ∧ h.source = T ∧ h.target = T ∧ h.kind = .mappingClass) (hp : Lam.encProduct start hs = .ok k)
    (X : Lam Int) (hX : X.WellFormed) (ht : X.tri = T) : k.applyLam X = hs.foldlM (fun X h => h.applyLam X) X := by
  cases hs with
  | nil =>
    cases hp
    obtain ⟨j, j1, j2, j3, j4, j5, j6, -⟩ := C14_identity T hT
    cases h0.symm.trans j1
    exact j6 Int X hX ht
  | cons g l =>
    unfold Lam.encProduct at hp
    rw [List.foldlM_cons]
    have key : ∀ (l : List Enc) (b : Enc), b.Legal ∧ b.source = T ∧ b.target = T ∧ b.kind = .mappingClass → (∀ h ∈ l, h.Legal ∧ h.source = T ∧ h.target = T ∧ h.kind = .mappingClass) → ∀ k, l.foldlM (fun result g => g.mul result) b = .ok k →
        k.applyLam X = (do let Y ← b.applyLam X; l.foldlM (fun X h => h.applyLam X) Y) := by
      intro l
      induction l with
      | nil => intro b hb _ k hk; cases hk; cases hq : b.applyLam X <;> rfl
      | cons h l ih =>
        intro b hb hl k hk
        rw [List.foldlM_cons, py_bind_eq_ok] at hk
        obtain ⟨b', m1, m2⟩ := hk
        have hh := hl h (by simp)
        obtain ⟨e1, e2, e3, e4, e5⟩ := mul_ok hh.1 hb.1 m1
        rw [ih b' ⟨e1, e2.source.trans hb.2.1, e2.target.trans hh.2.2.1, e5 (by rw [hh.2.2.2]; simp) (by rw [hb.2.2.2]; simp) (hh.2.2.1.trans hb.2.1.symm)⟩ (fun h hm => hl h (by simp [hm])) k m2,
          e2.lam Int X hX, bind_assoc]
        simp only [List.foldlM_cons]
    exact key l g (h1 g (by simp)) (fun h hh => h1 h (by simp [hh])) k hp

theorem foldl_fixed {X : Lam Int} : ∀ {hs : List Enc}, (∀ h ∈ hs, h.applyLam X = .ok X) → hs.foldlM (fun X h => h.applyLam X) X = .ok X
  | [], _ => rfl
  | h :: l, hl => by
    rw [List.foldlM_cons, hl h (by simp), py_bind_ok]
    exact foldl_fixed (fun h hh => hl h (by simp [hh]))

end Enc

namespace Lam
variable {P : Lam Int → Py LamClass} {dflt : Int → Int → Bool} {fuel : Nat} {L X Y s B arc : Lam Int} {T : Triangulation} {i f : Int} {cs : List (Lam Int × Int)}

theorem DistinctEnds.onlyArcs (h : L.DistinctEnds) (hL : L.Consistent) : L.OnlyHasArcs := by
  obtain ⟨D, d1, d2, -⟩ := h
  intro X hX hn
  obtain ⟨Y, y1, y2⟩ := (d1.hasPart_iff hL (fun Y hY => (d2 Y hY).1)).1 hX
  obtain ⟨vs, v, u, a1, a2, a3, a4, a5⟩ := (d2 Y y1).2
  have nY := y2.symm.noArcs hn
  exact nY.reaches (star_of_mem nY.1.1 a1 a2) ((a5 v a2).2 (.inl rfl))

/-- one factor of the half twist about a multiarc -/
def halfFactor (P : Lam Int → Py LamClass) (dflt : Int → Int → Bool) (fuel : Nat) (power : Int) (p : Lam Int × Int) : Py Enc := do
  let t ← HalfTwist.create (boundaryTwist P dflt fuel) p.1 power
  return t.encodingPower

/-- how the half twist about a multiarc is made -/
structure HalfMade (P : Lam Int → Py LamClass) (dflt : Int → Int → Bool) (fuel : Nat) (L : Lam Int) (power : Int) (h : Enc) (s : Lam Int) (g : Enc) (K : Lam Int) (cs : List (Lam Int × Int)) (hs : List Enc) (start k : Enc) : Prop where
  shortens : Shortens L s g
  con : s.Consistent
  acts : g.applyLam L = .ok K
  same : Same K s
  conK : K.Consistent
  comps : s.IsComponents cs
  arcs : ∀ p ∈ cs, p.1.TwoEnds ∧ ∃ i, p.1.IsEdgeArc s.tri i
  apart : cs.Pairwise (fun p q => EndApart p.1 q.1)
  factors : cs.mapM (halfFactor P dflt fuel power) = .ok hs
  id : s.tri.idEncoding = .ok start
  prod : encProduct start hs = .ok k
  conj : k.conjugateBy g = .ok h

theorem encodeHalftwist_made {power : Int} {h : Enc} (hL : L.Consistent) (hc : L.ClassRight) (hp : power ≠ 0) (hh : L.encodeHalftwist P dflt fuel power = .ok h) :
    L.DistinctEnds ∧ ∃ s g K cs hs start k, HalfMade P dflt fuel L power h s g K cs hs start k := by
  unfold encodeHalftwist at hh
  rw [py_bind_eq_ok] at hh
  obtain ⟨b, h1, hh⟩ := hh
  have hb := C82_distinct P dflt fuel L hL hc b h1
  cases b with
  | false => rw [if_pos rfl] at hh; cases hh
  | true =>
    have hd := hb.1 rfl
    refine ⟨hd, ?_⟩
    rw [if_neg (by simp), if_neg hp] at hh
    simp only [py_bind_eq_ok] at hh
    obtain ⟨⟨s, g⟩, h2, cs, h3, hs, h4, start, h5, k, h6, h7⟩ := hh
    dsimp only at h3 h4 h5 h6 h7
    obtain ⟨H, -⟩ := shortenAll_spec hL.1 h2
    obtain ⟨l, -, -, hS, K, k1, k2, k3, k4⟩ := shorten_same hL h2
    have hI : s.IsComponents cs := componentsAll_spec hS (C68_shorten P dflt dflt fuel L hL.1 s g h2).1.classRight h3
    have hle := (hd.onlyArcs hL).short hL h2
    have hdK := hd.enc hL l k1
    have hds : s.DistinctEnds := by
      obtain ⟨D, d1, d2, d3⟩ := hdK
      exact ⟨D, d1.same k3, d2, d3⟩
    obtain ⟨q1, q2⟩ := short_parts hS hle hds hI
    exact ⟨s, g, K, cs, hs, start, k, H, hS, k1, k3, k2, hI, q1, q2, h4, h5, h6, h7⟩

section
variable {power : Int} {h g start k : Enc} {K : Lam Int} {hs : List Enc} (M : HalfMade P dflt fuel L power h s g K cs hs start k)
include M

theorem HalfMade.factor {e : Enc} (he : e ∈ hs) : ∃ p ∈ cs, ∃ i t, p.1.TwoEnds ∧ p.1.IsEdgeArc s.tri i ∧ HalfTwist.create (boundaryTwist P dflt fuel) p.1 power = .ok t ∧ e = t.encodingPower := by
  obtain ⟨p, p1, p2⟩ := mapM_mem M.factors he
  unfold halfFactor at p2
  rw [py_bind_eq_ok] at p2
  obtain ⟨t, t1, t2⟩ := p2
  obtain ⟨a1, i, a2⟩ := M.arcs p p1
  exact ⟨p, p1, i, t, a1, a2, t1, by cases t2; rfl⟩

theorem HalfMade.product : k.Holds s.tri (fun _ : Lam Int => False) := by
  have hT := M.con.1.1
  have hA : ∀ X : Lam Int, False → X.WellFormed ∧ X.tri = s.tri := fun _ q => q.elim
  refine Enc.holds_product hA (Enc.holds_id hT hA M.id) (fun e he => ?_) M.prod
  obtain ⟨p, p1, i, t, a1, a2, t1, rfl⟩ := M.factor he
  have := halftwist_holds hT a2 a1 t1
  exact ⟨this.legal, this.source, this.target, this.kind, fun _ q => q.elim⟩

/-- if each factor fixes the laminations in `A`, so does the product, and the half twist fixes those that the conjugator carries into `A` -/
theorem HalfMade.holds (A : Lam Int → Prop) (hA : ∀ X, A X → X.WellFormed ∧ X.tri = s.tri)
    (hf : ∀ p ∈ cs, ∀ i t, p.1.TwoEnds → p.1.IsEdgeArc s.tri i → HalfTwist.create (boundaryTwist P dflt fuel) p.1 power = .ok t → ∀ X, A X → t.encodingPower.applyLam X = .ok X) :
    h.Legal ∧ h.kind = .mappingClass ∧ h.source = L.tri ∧ h.target = L.tri ∧ ∀ X Y : Lam Int, X.WellFormed → g.applyLam X = .ok Y → A Y → h.applyLam X = .ok X := by
  have hT := M.con.1.1
  have hh : ∀ e ∈ hs, e.Holds s.tri A := by
    intro e he
    obtain ⟨p, p1, i, t, a1, a2, t1, rfl⟩ := M.factor he
    have := halftwist_holds hT a2 a1 t1
    exact ⟨this.legal, this.source, this.target, this.kind, hf p p1 i t a1 a2 t1⟩
  have h1 := Enc.holds_product hA (Enc.holds_id hT hA M.id) hh M.prod
  have := h1.conj M.shortens.legal M.shortens.kind M.shortens.target M.conj
  rwa [M.shortens.source] at this

theorem HalfMade.apart' {p q : Lam Int × Int} (hp : p ∈ cs) (hq : q ∈ cs) (hpq : p ≠ q) : EndApart p.1 q.1 := by
  have h1 : cs.Pairwise (fun p q => p ≠ q → EndApart p.1 q.1) := List.Pairwise.imp (S := fun (p q : Lam Int × Int) => p ≠ q → EndApart p.1 q.1) (fun {a b : Lam Int × Int} (h : EndApart a.1 b.1) (_ : a ≠ b) => h) M.apart
  have h2 : cs.Pairwise (flip (fun p q => p ≠ q → EndApart p.1 q.1)) := M.apart.imp_of_mem (fun {a b} ha hb h _ => h.symm ((M.comps.sub M.con ha).2.trans (M.comps.sub M.con hb).2.symm))
  exact List.Pairwise.forall_of_forall_of_flip (fun x _ hn => absurd rfl hn) h1 h2 hp hq hpq

theorem HalfMade.fixes_part (hL : L.Consistent) (hX : L.HasPart X) : h.applyLam X = .ok X := by
  have hT := M.con.1.1
  have key := M.holds (fun X => ∃ q ∈ cs, Same q.1 X) (by
    rintro X ⟨q, hq, e⟩
    have := M.comps.sub M.con hq
    exact ⟨e.wf this.1.1, e.1.symm.trans this.2⟩) (by
    rintro p hp i t a1 a2 t1 X ⟨q, hq, e⟩
    have H := halftwist_holds hT a2 a1 t1
    have hq0 : t.encodingPower.applyLam q.1 = .ok q.1 := by
      by_cases hpq : p = q
      · subst hpq
        exact H.fixes _ (.inl rfl)
      · have hap : EndApart p.1 q.1 := M.apart' hp hq hpq
        obtain ⟨-, f, hf⟩ := M.arcs q hq
        have hfe := hf.eq hT
        refine H.fixes _ (.inr ⟨f, hf.label, by rw [← hfe]; exact hap, hfe⟩)
    have := Enc.applyLam_cls (N := X) hq0 e.1.symm e.2.symm
    rw [this, e.1, e.2])
  obtain ⟨Y, y1, y2⟩ := hX.enc hL M.shortens.legal M.acts
  have hpart : s.HasPart Y := by
    obtain ⟨c, N, hN⟩ := y2
    exact ⟨c, N, hN.same hN.wf.1 hN.wf.2.1 M.same .refl .refl⟩
  obtain ⟨Z, z1, z2⟩ := (M.comps.union.hasPart_iff M.con (flat_connected M.comps)).1 hpart
  obtain ⟨q, hq, e⟩ := List.mem_flatMap.1 z1
  rw [List.eq_of_mem_replicate e] at z2
  obtain ⟨-, N, hN⟩ := hX
  exact key.2.2.2.2 X Y hN.wf.1 y1 ⟨q, hq, z2⟩

theorem HalfMade.fixes_closed (hX : X.NoArcs) (hd : X.DisjointFrom L) : h.applyLam X = .ok X := by
  have hT := M.con.1.1
  have key := M.holds (fun X => X.NoArcs ∧ X.DisjointFrom s) (fun X hX => ⟨hX.1.1, hX.2.tri⟩) (by
    rintro p hp i t a1 a2 t1 X ⟨x1, x2⟩
    obtain ⟨N, hN⟩ := M.comps.union.pull M.con (mem_flat hp (M.comps.mult p hp))
    exact halftwist_closed hT a2 (a1.distinct hT a2) t1 x1 (x2.left hN))
  obtain ⟨Y, y1, y2⟩ := hd.enc M.shortens.legal (Enc.applyLam_source M.acts).symm M.acts
  exact key.2.2.2.2 X Y hX.1 y1 ⟨M.shortens.legal.noArcs hX y1, y2.same .refl M.same⟩

/-- the product exchanges the ends of each component if the power is odd -/
theorem HalfMade.link {p : Lam Int × Int} (hp : p ∈ cs) {vs : List (List Int)} (hvs : s.tri.vertices = .ok vs) {v u : List Int} (hv : v ∈ vs) (hu : u ∈ vs) (hne : v ≠ u) (rv : p.1.Reaches v) (ru : p.1.Reaches u) :
    k.applyLam (s.tri.curveFromCutSequence v : Lam Int) = .ok (if Int.fmod power 2 = 0 then s.tri.curveFromCutSequence v else s.tri.curveFromCutSequence u) := by
  have hT := M.con.1.1
  have hold : ∀ e ∈ hs, e.Legal ∧ e.source = s.tri ∧ e.target = s.tri ∧ e.kind = .mappingClass := by
    intro e he
    obtain ⟨p, p1, i, t, a1, a2, t1, rfl⟩ := M.factor he
    have := halftwist_holds hT a2 a1 t1
    exact ⟨this.legal, this.source, this.target, this.kind⟩
  have lk : ∀ z ∈ vs, (s.tri.curveFromCutSequence z : Lam Int).NoArcs ∧ s.tri.Star z := by
    intro z hz
    obtain ⟨q1, q2, q3, q4⟩ := hT.comp.vertices_mem hvs
    obtain ⟨x, hx⟩ := List.exists_mem_of_ne_nil _ (q2 z hz).1.ne
    have lx := (q2 z hz).2.2 x hx
    refine link_ok hT lx ?_
    obtain ⟨z'', vs'', r1, r2, r3, r4, _⟩ := hT.comp.vertexOf_ok lx
    rw [hvs] at r2; cases r2
    rw [r1, q3 z'' r3 z hz x r4 hx]
  rw [Enc.product_lam hT M.id hold M.prod _ (lk v hv).1.1 rfl]
  obtain ⟨m1, e, m2, rfl, e1, e2⟩ := mapM_split M.factors hp M.apart
  have other : ∀ z ∈ vs, p.1.Reaches z → ∀ e' ∈ m1 ++ m2, e'.applyLam (s.tri.curveFromCutSequence z : Lam Int) = .ok (s.tri.curveFromCutSequence z) := by
    intro z hz rz e' he'
    obtain ⟨q, q1, q2, q3⟩ := e2 e' he'
    unfold halfFactor at q2
    rw [py_bind_eq_ok] at q2
    obtain ⟨t, t1, t2⟩ := q2
    cases t2
    obtain ⟨a1, i, a2⟩ := M.arcs q q1
    refine halftwist_closed hT a2 (a1.distinct hT a2) t1 (lk z hz).1 ?_
    have tp := (M.comps.sub M.con hp).2
    have tq := (M.comps.sub M.con q1).2
    have hap : EndApart p.1 q.1 := by
      rcases q3 with q3 | q3
      · exact q3
      · exact q3.symm (tq.trans tp.symm)
    have := hap vs (by rw [tp]; exact hvs) z hz
    have nr : ¬ q.1.Reaches z := fun r => this ⟨rz, r⟩
    unfold Reaches at nr
    rw [not_not, tq] at nr
    exact nr
  rw [List.foldlM_append, Enc.foldl_fixed (fun e' he' => other v hv rv e' (by simp [he'])), py_bind_ok, List.foldlM_cons]
  unfold halfFactor at e1
  rw [py_bind_eq_ok] at e1
  obtain ⟨t, t1, t2⟩ := e1
  cases t2
  obtain ⟨a1, i, a2⟩ := M.arcs p hp
  have hd := a1.distinct hT a2
  obtain ⟨v', vs', v1, v2, v3, v4, -⟩ := hT.comp.vertexOf_ok a2.label
  rw [hvs] at v2; cases v2
  obtain ⟨u', us', u1, u2, u3, u4, -⟩ := hT.comp.vertexOf_ok (isLabel_inv.2 a2.label)
  rw [hvs] at u2; cases u2
  have rv' := a2.reaches hT hvs v3 (.inl v4)
  have ru' := a2.reaches hT hvs u3 (.inr u4)
  have hne' : v' ≠ u' := by
    obtain ⟨b, w1, w2, b1, b2, b3, b4⟩ := C56_distinct_endpoints s.tri hT i p.1 a2
    rw [hd] at b1; cases b1
    rw [v1] at b2; cases b2
    rw [u1] at b3; cases b3
    exact b4.1 rfl
  have hcase : (v = v' ∧ u = u') ∨ (v = u' ∧ u = v') := by
    obtain ⟨ws, x, y, w1, w2, w3, w4, w5⟩ := a1
    rw [(M.comps.sub M.con hp).2, hvs] at w1; cases w1
    have c1 := (w5 v hv).1 rv
    have c2 := (w5 u hu).1 ru
    have c3 := (w5 v' v3).1 rv'
    have c4 := (w5 u' u3).1 ru'
    rcases c1 with rfl | rfl <;> rcases c2 with rfl | rfl <;> rcases c3 with rfl | rfl <;> rcases c4 with rfl | rfl <;> simp_all
  have hl : t.encodingPower.applyLam (s.tri.curveFromCutSequence v : Lam Int) = .ok (if Int.fmod power 2 = 0 then s.tri.curveFromCutSequence v else s.tri.curveFromCutSequence u) := by
    rcases hcase with ⟨rfl, rfl⟩ | ⟨rfl, rfl⟩
    · exact halftwist_link hT a2 hd t1 (.inl rfl) v1 u1
    · exact halftwist_link hT a2 hd t1 (.inr rfl) u1 (by rw [Curver.inv_inv]; exact v1)
  rw [hl, py_bind_ok]
  split_ifs
  · exact Enc.foldl_fixed (fun e' he' => other v hv rv e' (by simp [he']))
  · exact Enc.foldl_fixed (fun e' he' => other u hu ru e' (by simp [he']))

end

end Lam
end Curver
