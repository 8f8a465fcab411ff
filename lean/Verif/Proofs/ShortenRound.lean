import Verif.Proofs.ShortenSub

/-!
# The components that `shorten` takes away in one round, one after another
-/

namespace Curver
open Triangulation

theorem Triangulation.Room.congr {T : Triangulation} {U V : Int → Int} {f β η k : Int} {X : List Int} (h : Room T U f β η X k) (hV : ∀ x, T.IsLabel x → max (V x) 0 = max (U x) 0) :
    Room T V f β η X k := by
  have hc := h.loop.valid.comp
  have lg := hc.label_of_glues h.loop.glues
  refine ⟨h.loop, ?_, ?_, ?_⟩
  · have := hV f lg.1
    have := h.off
    omega
  · rw [hV _ lg.2.1, hV _ lg.2.2]; exact h.bal
  · intro x y z hg
    have l := hc.label_of_glues hg
    rw [hV x l.1, hV y l.2.1, hV z l.2.2]
    exact h.room x y z hg

namespace Lam
variable {f β η k : Int} {X : List Int} {N N' M : Lam Int} {i : Item} {l : List Item}

/-- the positive parts of the weights do not see the arcs -/
theorem Item.Takes.arc_max {μ : Int} (h : (Item.arc f μ).Takes N N') {x : Int} (hx : N.tri.IsLabel x) : max (N'.w x) 0 = max (N.w x) 0 := by
  obtain ⟨h1, h2, h3, h4, h5, h6, h7⟩ := h
  by_cases q1 : x = f
  · subst q1; omega
  by_cases q2 : x = inv f
  · subst q2; rw [w_inv, w_inv]; omega
  rw [h7 x hx q1 q2]

theorem Item.Takes.keeps (h : i.Takes N N') {x : Int} (hx : N.tri.IsLabel x) (h0 : N.w x ≤ 0) : N'.w x = N.w x ∨ (N'.w x = 0 ∧ ∃ μ, (i = .arc x μ ∨ i = .arc (inv x) μ)) := by
  cases i with
  | arc f μ =>
    obtain ⟨h1, h2, h3, h4, h5, h6, h7⟩ := h
    by_cases q1 : x = f
    · subst q1; exact .inr ⟨h6, μ, .inl rfl⟩
    by_cases q2 : x = inv f
    · subst q2; exact .inr ⟨by rw [w_inv]; exact h6, μ, .inr (by rw [inv_inv])⟩
    exact .inl (h7 x hx q1 q2)
  | curve f k =>
    obtain ⟨h1, h2, h3, h4, β, η, X, h5, h6⟩ := h
    left
    rw [h6 x hx, (h5.notin h3 hx h0).1, mul_zero, sub_zero]

theorem Item.Takes.nonpos (h : i.Takes N N') {x : Int} (hx : N.tri.IsLabel x) (h0 : N.w x ≤ 0) : N'.w x ≤ 0 := by
  rcases h.keeps hx h0 with q | q <;> omega

theorem Item.Takes.back (h : i.Takes N N') (hk : 0 < k) (h0 : N.w f ≤ 0) (hr : Room N'.tri N'.w f β η X k) : Room N.tri N.w f β η X k := by
  rw [h.wf.2] at hr
  cases i with
  | arc g μ => exact hr.congr (fun x hx => (h.arc_max hx).symm)
  | curve g j =>
    obtain ⟨h1, h2, h3, h4, β', η', X', h5, h6⟩ := h
    exact h5.before h3 hr hk h0 h6

theorem Item.Takes.exhausted (h : i.Takes N N') (hx : N.tri.IsLabel f) (h0 : N.w f ≤ 0) (he : N.Exhausted f) : N'.Exhausted f := by
  intro β η X k hr
  by_contra hk
  exact hk (he _ _ _ _ (h.back (not_le.1 hk) h0 hr))

theorem Chain.nonpos (h : Chain N l M) {x : Int} (hx : N.tri.IsLabel x) (h0 : N.w x ≤ 0) : M.w x ≤ 0 := by
  induction l generalizing N with
  | nil => unfold w at h0 ⊢; rw [h.2]; exact h0
  | cons i l ih =>
    obtain ⟨N', h1, h2⟩ := h
    exact ih h2 (by rw [h1.wf.2]; exact hx) (h1.nonpos hx h0)

/-! ## the components -/

/-- an arc parallel to an edge or a curve -/
def Simple (T : Triangulation) (K : Lam Int) : Prop := (∃ e, T.IsLabel e ∧ K = T.edgeArcOf e) ∨ ∃ X, K = T.curveFromCutSequence X

theorem arc_ne_curve {T : Triangulation} {e : Int} (he : T.IsLabel e) (X : List Int) : (T.edgeArcOf e : Lam Int).geometric ≠ (T.curveFromCutSequence X).geometric := by
  intro q
  have h1 := (IsEdgeArc.of_edge he).at_edge
  have h2 := link_w (R := Int) X he
  unfold w at h1 h2
  rw [q, h2] at h1
  omega

theorem Simple.eq {T : Triangulation} {K M : Lam Int} (hK : Simple T K) (hM : Simple T M) (h : K.eqv M = true) : K = M := by
  obtain ⟨h1, h2⟩ := eqv_spec.1 h
  have key : K.cls = M.cls → K = M := by
    intro h3
    obtain ⟨a, b, c⟩ := K
    obtain ⟨a', b', c'⟩ := M
    subst h1 h2 h3; rfl
  rcases hK with ⟨e, he, rfl⟩ | ⟨X, rfl⟩ <;> rcases hM with ⟨e', he', rfl⟩ | ⟨X', rfl⟩
  · exact key rfl
  · exact absurd h2 (arc_ne_curve he X')
  · exact absurd h2.symm (arc_ne_curve he' X)
  · exact key rfl

theorem eqv_comm {K M : Lam Int} : K.eqv M = M.eqv K := by
  rw [Bool.eq_iff_iff, eqv_spec, eqv_spec]
  constructor <;> rintro ⟨h1, h2⟩ <;> exact ⟨h1.symm, h2.symm⟩

theorem setComponent_pairwise {α : Type} {K : Lam Int} {v : α} : ∀ {d : List (Lam Int × α)}, d.Pairwise (fun p q => p.1.eqv q.1 = false) →
    (setComponent d K v).Pairwise (fun p q => p.1.eqv q.1 = false)
  | [], _ => by simp [setComponent]
  | (J, u) :: d, h => by
    rw [List.pairwise_cons] at h
    rw [setComponent]
    split
    · rw [List.pairwise_cons]; exact h
    · next hj =>
      rw [List.pairwise_cons]
      refine ⟨?_, setComponent_pairwise h.2⟩
      intro p hp
      rcases mem_setComponent hp with q | ⟨-, ⟨u', q, q'⟩ | q⟩
      · exact h.1 p q
      · exact h.1 (p.1, u') q
      · rw [q]; simpa using hj

/-- what `parallel_components` returns -/
theorem parallel_entries {L : Lam Int} (hw : L.WellFormed) {comps : List (Lam Int × (Int × Int))} (h : L.parallelComponents = .ok comps) :
    (∀ p ∈ comps, L.tri.IsLabel p.2.2 ∧ ((p.1 = L.tri.edgeArcOf p.2.2 ∧ sign p.2.2 = 1 ∧ 0 < p.2.1 ∧ L.w p.2.2 = -p.2.1) ∨ L.parallelCurve p.2.2 = .ok (some (p.1, p.2.1)))) ∧
      comps.Pairwise (fun p q => p.1.eqv q.1 = false) := by
  let G : Lam Int × (Int × Int) → Prop := fun p => L.tri.IsLabel p.2.2 ∧ ((p.1 = L.tri.edgeArcOf p.2.2 ∧ sign p.2.2 = 1 ∧ 0 < p.2.1 ∧ L.w p.2.2 = -p.2.1) ∨ L.parallelCurve p.2.2 = .ok (some (p.1, p.2.1)))
  have simple : ∀ p, G p → Simple L.tri p.1 := by
    rintro ⟨K, k, e⟩ ⟨h1, ⟨h2, -⟩ | h2⟩
    · exact .inl ⟨e, h1, h2⟩
    · obtain ⟨-, X, v, -, -, hK, -⟩ := parallelCurve_some hw.1.comp h1 h2
      exact .inr ⟨X, hK⟩
  have ins : ∀ (d : List (Lam Int × (Int × Int))) (K : Lam Int) (v : Int × Int), (∀ p ∈ d, G p) → G (K, v) → ∀ p ∈ setComponent d K v, G p := by
    intro d K v hd hK p hp
    rcases mem_setComponent hp with q | ⟨q1, q2⟩
    · exact hd p q
    · have : p.1 = K := by
        rcases q2 with ⟨u, q3, q4⟩ | q3
        · exact (simple _ (hd _ q3)).eq (simple _ hK) q4
        · exact q3
      have : p = (K, v) := Prod.ext this q1
      rw [this]; exact hK
  unfold Lam.parallelComponents at h
  refine foldlM_inv (fun (d : List (Lam Int × (Int × Int))) => (∀ p ∈ d, G p) ∧ d.Pairwise (fun p q => p.1.eqv q.1 = false)) ⟨by simp, by simp⟩ ?_ h
  intro d x d' hx hd hf
  have hxl := mem_labels.1 hx
  unfold parallelStep at hf
  rw [py_bind_eq_ok] at hf
  obtain ⟨arc, ha, hf⟩ := hf
  rw [py_bind_eq_ok] at hf
  obtain ⟨curve, hc, hf⟩ := hf
  injection hf with hf
  have stepA : ∀ a k, arc = some (a, k) → (∀ p ∈ setComponent d a (k, x), G p) ∧ (setComponent d a (k, x)).Pairwise (fun p q => p.1.eqv q.1 = false) := by
    rintro a k rfl
    unfold parallelArc at ha
    split at ha
    · next hs =>
      rw [wt_eq hw.2 hxl, py_bind_ok] at ha
      split at ha
      · next hp =>
        cases ha
        exact ⟨ins _ _ _ hd.1 ⟨hxl, .inl ⟨rfl, hs, hp, by simp⟩⟩, setComponent_pairwise hd.2⟩
      · cases ha
    · cases ha
  have stepC : ∀ d1 : List (Lam Int × (Int × Int)), (∀ p ∈ d1, G p) ∧ d1.Pairwise (fun p q => p.1.eqv q.1 = false) → ∀ K k, curve = some (K, k) →
      (∀ p ∈ setComponent d1 K (k, x), G p) ∧ (setComponent d1 K (k, x)).Pairwise (fun p q => p.1.eqv q.1 = false) := by
    rintro d1 hd1 K k rfl
    exact ⟨ins _ _ _ hd1.1 ⟨hxl, .inr hc⟩, setComponent_pairwise hd1.2⟩
  cases arc with
  | none =>
    cases curve with
    | none => subst hf; exact hd
    | some q => subst hf; exact stepC d hd q.1 q.2 rfl
  | some r =>
    cases curve with
    | none => subst hf; exact stepA r.1 r.2 rfl
    | some q => subst hf; exact stepC _ (stepA r.1 r.2 rfl) q.1 q.2 rfl

/-- what is recorded about an item -/
def Item.record (st : PyDict Int Int × PyDict Int Int) : Item → PyDict Int Int × PyDict Int Int
  | .arc f μ => (st.1.set f μ, st.2)
  | .curve f k => (st.1, st.2.set f k)

/-- the component can be taken away from what is left -/
def Ready (L cur : Lam Int) (p : Lam Int × (Int × Int)) : Prop :=
  0 < L.w p.2.2 ∨
  (L.w p.2.2 ≤ 0 ∧ p.1 = L.tri.edgeArcOf p.2.2 ∧ sign p.2.2 = 1 ∧ 0 < p.2.1 ∧ cur.w p.2.2 = -p.2.1) ∨
  (L.w p.2.2 ≤ 0 ∧ 0 < p.2.1 ∧ ∃ β η X v, Around L.tri p.2.2 X v ∧ p.1 = L.tri.curveFromCutSequence X ∧ Room L.tri cur.w p.2.2 β η X p.2.1 ∧
    ∀ β' η' X' k', Room L.tri cur.w p.2.2 β' η' X' k' → k' ≤ p.2.1)

theorem ready_start {L : Lam Int} (hw : L.WellFormed) {p : Lam Int × (Int × Int)} (hl : L.tri.IsLabel p.2.2)
    (h : (p.1 = L.tri.edgeArcOf p.2.2 ∧ sign p.2.2 = 1 ∧ 0 < p.2.1 ∧ L.w p.2.2 = -p.2.1) ∨ L.parallelCurve p.2.2 = .ok (some (p.1, p.2.1))) : Ready L L p := by
  by_cases h0 : 0 < L.w p.2.2
  · exact .inl h0
  rw [not_lt] at h0
  rcases h with ⟨h1, h2, h3, h4⟩ | h
  · exact .inr (.inl ⟨h0, h1, h2, h3, h4⟩)
  · obtain ⟨h1, β, η, X, v, h2, h3, h4, h5⟩ := parallelCurve_room hw hl h0 h
    exact .inr (.inr ⟨h0, h1, β, η, X, v, h2, h3, h4, h5⟩)

/-- the step of the loop in `subtractFrom` -/
def subStep (L : Lam Int) (st : List Int × (PyDict Int Int × PyDict Int Int)) (p : Lam Int × (Int × Int)) : Py (List Int × (PyDict Int Int × PyDict Int Int)) := do
  let x ← L.wt p.2.2
  if x ≤ 0 then
    let geometric := List.zipWith (fun x y => x - y * p.2.1) st.1 p.1.geometric
    if p.1.cls = .arc then return (geometric, (st.2.1.set p.2.2 p.2.1, st.2.2))
    else return (geometric, (st.2.1, st.2.2.set p.2.2 p.2.1))
  else return st

theorem sub_w {T : Triangulation} {g : List Int} {K : Lam Int} (hg : g.length = T.zeta) (hK : K.geometric.length = T.zeta) (k : Int) (c : LamClass) {x : Int} (hx : T.IsLabel x) :
    (Lam.mk T (List.zipWith (fun x y => x - y * k) g K.geometric) c).w x = (Lam.mk T g c).w x - k * K.w x := by
  have := idx_lt hx
  have h1 : (norm x).toNat < g.length := by omega
  have h2 : (norm x).toNat < K.geometric.length := by omega
  unfold w
  dsimp only
  rw [List.getElem?_zipWith, List.getElem?_eq_getElem h1, List.getElem?_eq_getElem h2]
  simp [mul_comm]

variable {L : Lam Int} {g : List Int} {p q : Lam Int × (Int × Int)} {c : LamClass}

theorem sub_wf (hT : L.tri.Valid) (hg : g.length = L.tri.zeta) {K : Lam Int} (hK : K.geometric.length = L.tri.zeta) (k : Int) :
    (Lam.mk L.tri (List.zipWith (fun x y => x - y * k) g K.geometric) c).WellFormed := ⟨hT, by simp [hg, hK]⟩

theorem curve_length (T : Triangulation) (X : List Int) : (T.curveFromCutSequence X : Lam Int).geometric.length = T.zeta := by
  simp [curveFromCutSequence, cutSequenceIntersections]

theorem curve_cn {T : Triangulation} (X : List Int) {x : Int} (hx : T.IsLabel x) : (T.curveFromCutSequence X : Lam Int).w x = cn X x := by
  rw [link_w X hx]; unfold cn; push_cast; rfl

theorem Ready.takes_arc (hT : L.tri.Valid) (hg : g.length = L.tri.zeta) (hl : L.tri.IsLabel p.2.2)
    (h : p.1 = L.tri.edgeArcOf p.2.2 ∧ sign p.2.2 = 1 ∧ 0 < p.2.1 ∧ (Lam.mk L.tri g c).w p.2.2 = -p.2.1) :
    (Item.arc p.2.2 p.2.1).Takes ⟨L.tri, g, c⟩ ⟨L.tri, List.zipWith (fun x y => x - y * p.2.1) g p.1.geometric, c⟩ := by
  obtain ⟨h1, h2, h3, h4⟩ := h
  have hE := IsEdgeArc.of_edge hl
  rw [← h1] at hE
  refine ⟨sub_wf hT hg hE.length _, rfl, hl, h3, h4, ?_, ?_⟩
  · rw [sub_w hg hE.length _ _ hl, h4, hE.at_edge]; ring
  · intro x hx q1 q2
    rw [sub_w hg hE.length _ _ hx, hE.other x hx q1 q2]; ring

theorem Ready.takes_curve (hT : L.tri.Valid) (hg : g.length = L.tri.zeta) {β η : Int} {X : List Int} (h0 : 0 < p.2.1) (h1 : p.1 = L.tri.curveFromCutSequence X)
    (h2 : Room L.tri (Lam.mk L.tri g c).w p.2.2 β η X p.2.1) (h3 : ∀ β' η' X' k', Room L.tri (Lam.mk L.tri g c).w p.2.2 β' η' X' k' → k' ≤ p.2.1) :
    (Item.curve p.2.2 p.2.1).Takes ⟨L.tri, g, c⟩ ⟨L.tri, List.zipWith (fun x y => x - y * p.2.1) g p.1.geometric, c⟩ := by
  have hlen : p.1.geometric.length = L.tri.zeta := by rw [h1]; exact curve_length _ _
  have hw : ∀ x, L.tri.IsLabel x → (Lam.mk L.tri (List.zipWith (fun x y => x - y * p.2.1) g p.1.geometric) c).w x = (Lam.mk L.tri g c).w x - p.2.1 * cn X x := by
    intro x hx
    rw [sub_w hg hlen _ _ hx, h1, curve_cn X hx]
  refine ⟨sub_wf hT hg hlen _, rfl, h0, ?_, β, η, X, h2, hw⟩
  intro β' η' X' k' hr
  by_contra hk
  rw [not_le] at hk
  replace hr : Room L.tri (Lam.mk L.tri (List.zipWith (fun x y => x - y * p.2.1) g p.1.geometric) c).w p.2.2 β' η' X' k' := hr
  have hc := hT.comp
  obtain ⟨rfl, rfl⟩ := hc.glues_unique hr.loop.glues h2.loop.glues
  have hX' : X' = X := hr.loop.sweep.unique h2.loop.sweep
  subst hX'
  have := h3 _ _ _ _ (h2.more h0 hr hk hw)
  omega

/-- the other components can still be taken away -/
theorem Ready.after (hT : L.tri.Valid) {cur cur' : Lam Int} (hcur : cur.tri = L.tri) (hlq : L.tri.IsLabel q.2.2)
    (hp : (p.1 = L.tri.edgeArcOf p.2.2 ∧ sign p.2.2 = 1 ∧ (Item.arc p.2.2 p.2.1).Takes cur cur') ∨
      (0 < p.2.1 ∧ ∃ β η X, p.1 = L.tri.curveFromCutSequence X ∧ Room L.tri cur.w p.2.2 β η X p.2.1 ∧ (Item.curve p.2.2 p.2.1).Takes cur cur'))
    (hne : p.1.eqv q.1 = false) (hq : Ready L cur q) : Ready L cur' q := by
  have hc := hT.comp
  rcases hq with hq | ⟨q0, q1, q2, q3, q4⟩ | ⟨q0, q1, β, η, X, v, q2, q3, q4, q5⟩
  · exact .inl hq
  · refine .inr (.inl ⟨q0, q1, q2, q3, ?_⟩)
    have key : ∀ i : Item, i.Takes cur cur' → (∀ μ, i ≠ .arc q.2.2 μ ∧ i ≠ .arc (inv q.2.2) μ) → cur'.w q.2.2 = -q.2.1 := by
      intro i hi hne
      rcases hi.keeps (by rw [hcur]; exact hlq) (by omega) with h | ⟨-, μ, h | h⟩
      · rw [h]; exact q4
      · exact absurd h (hne μ).1
      · exact absurd h (hne μ).2
    rcases hp with ⟨p1, p2, p3⟩ | ⟨p0, β, η, X, p1, p2, p3⟩
    · refine key _ p3 (fun μ => ⟨?_, ?_⟩)
      · intro h
        injection h with h
        rw [p1, q1, h] at hne
        rw [eqv_spec.2 ⟨rfl, rfl⟩] at hne
        cases hne
      · intro h
        injection h with h
        have : sign (inv q.2.2) = 1 := by rw [← h]; exact p2
        rw [sign_eq_one_iff] at this q2
        unfold inv at this; omega
    · exact key _ p3 (fun μ => ⟨by simp, by simp⟩)
  · refine .inr (.inr ⟨q0, q1, β, η, X, v, q2, q3, ?_, ?_⟩)
    · rcases hp with ⟨p1, p2, p3⟩ | ⟨p0, β', η', X', p1, p2, p3⟩
      · exact q4.congr (fun x hx => p3.arc_max (by rw [hcur]; exact hx))
      · have hcn : ∃ x, L.tri.IsLabel x ∧ cn X' x ≠ cn X x := by
          by_contra hno
          push Not at hno
          have : p.1.eqv q.1 = true := by
            rw [eqv_spec, p1, q3]
            refine ⟨rfl, ?_⟩
            have := Lam.ext_w (L := L.tri.curveFromCutSequence X') (L' := L.tri.curveFromCutSequence X) rfl rfl (curve_length _ _) (curve_length _ _) (fun x hx => by
              replace hx : L.tri.IsLabel x := hx
              rw [curve_cn _ hx, curve_cn _ hx]; exact hno x hx)
            rw [this]
          rw [this] at hne; cases hne
        have hee : p.2.2 ≠ q.2.2 := by
          intro h
          rw [h] at p2
          have := p2.loop.sweep.unique q4.loop.sweep
          subst this
          obtain ⟨x, -, hx⟩ := hcn
          exact hx rfl
        obtain ⟨h1, h2, h3, h4, β₂, η₂, X₂, h5, h6⟩ := p3
        rw [hcur] at h5 h6
        have := h5.loop.sweep.unique p2.loop.sweep
        subst this
        exact h5.after q4 cur.w_inv h3 q1 hee hcn h6
    · intro β' η' X' k' hr
      by_contra hk
      rw [not_le] at hk
      have back : ∀ i : Item, i.Takes cur cur' → k' ≤ q.2.1 := by
        intro i hi
        refine q5 β' η' X' k' ?_
        have := hi.back (f := q.2.2) (β := β') (η := η') (X := X') (k := k') (by omega) q4.off (by rw [hi.wf.2, hcur]; exact hr)
        rwa [hcur] at this
      rcases hp with ⟨p1, p2, p3⟩ | ⟨p0, β', η', X', p1, p2, p3⟩
      · have := back _ p3; omega
      · have := back _ p3; omega

/-- one round -/
theorem fold_chain (hw : L.WellFormed) : ∀ (comps : List (Lam Int × (Int × Int))) (g g' : List Int) (st st' : PyDict Int Int × PyDict Int Int), g.length = L.tri.zeta →
    (∀ p ∈ comps, L.tri.IsLabel p.2.2 ∧ Ready L ⟨L.tri, g, c⟩ p) → comps.Pairwise (fun p q => p.1.eqv q.1 = false) → comps.foldlM (subStep L) (g, st) = .ok (g', st') →
    ∃ l, Chain ⟨L.tri, g, c⟩ l ⟨L.tri, g', c⟩ ∧ st' = l.foldl Item.record st ∧ (∀ i ∈ l, L.tri.IsLabel i.edge ∧ L.w i.edge ≤ 0 ∧ ∀ f μ, i = .arc f μ → sign f = 1) ∧
      ∀ p ∈ comps, L.w p.2.2 ≤ 0 → l ≠ []
  | [], g, g', st, st', _, _, _, h => by
    cases h
    exact ⟨[], ⟨rfl, rfl⟩, rfl, by simp, by simp⟩
  | p :: comps, g, g', st, st', hg, hr, hd, h => by
    rw [List.foldlM_cons, py_bind_eq_ok] at h
    obtain ⟨s, h1, h2⟩ := h
    rw [List.pairwise_cons] at hd
    obtain ⟨hl, hp⟩ := hr p (by simp)
    unfold subStep at h1
    rw [wt_eq hw.2 hl, py_bind_ok] at h1
    rcases hp with hp | ⟨p0, p1, p2, p3, p4⟩ | ⟨p0, p1, β, η, X, v, p2, p3, p4, p5⟩
    · rw [if_neg (by omega)] at h1
      cases h1
      obtain ⟨l, k1, k2, k3, k4⟩ := fold_chain hw comps g g' st st' hg (fun q hq => hr q (by simp [hq])) hd.2 h2
      refine ⟨l, k1, k2, k3, ?_⟩
      intro q hq hn
      rcases List.mem_cons.1 hq with rfl | hq
      · omega
      · exact k4 q hq hn
    · rw [if_pos p0] at h1
      have hcls : p.1.cls = .arc := by rw [p1]; rfl
      simp only [hcls] at h1
      cases h1
      have ht := Ready.takes_arc (c := c) hw.1 hg hl ⟨p1, p2, p3, p4⟩
      obtain ⟨l, k1, k2, k3, -⟩ := fold_chain hw comps _ g' _ st' ht.wf.1.2 (fun q hq => ⟨(hr q (by simp [hq])).1,
        Ready.after (cur := ⟨L.tri, g, c⟩) (cur' := ⟨L.tri, List.zipWith (fun x y => x - y * p.2.1) g p.1.geometric, c⟩) hw.1 rfl (hr q (by simp [hq])).1 (.inl ⟨p1, p2, ht⟩) (hd.1 q hq) (hr q (by simp [hq])).2⟩) hd.2 h2
      refine ⟨.arc p.2.2 p.2.1 :: l, ⟨_, ht, k1⟩, k2, ?_, by simp⟩
      intro i hi
      rcases List.mem_cons.1 hi with rfl | hi
      · exact ⟨hl, p0, fun f μ q => by injection q with q; rw [← q]; exact p2⟩
      · exact k3 i hi
    · rw [if_pos p0] at h1
      have hcls : p.1.cls ≠ .arc := by rw [p3]; exact (by decide : LamClass.curve ≠ LamClass.arc)
      simp only [if_neg hcls] at h1
      cases h1
      have ht := Ready.takes_curve (c := c) hw.1 hg p1 p3 p4 p5
      obtain ⟨l, k1, k2, k3, -⟩ := fold_chain hw comps _ g' _ st' ht.wf.1.2 (fun q hq => ⟨(hr q (by simp [hq])).1,
        Ready.after (cur := ⟨L.tri, g, c⟩) (cur' := ⟨L.tri, List.zipWith (fun x y => x - y * p.2.1) g p.1.geometric, c⟩) hw.1 rfl (hr q (by simp [hq])).1 (.inr ⟨p1, β, η, X, p3, p4, ht⟩) (hd.1 q hq) (hr q (by simp [hq])).2⟩) hd.2 h2
      refine ⟨.curve p.2.2 p.2.1 :: l, ⟨_, ht, k1⟩, k2, ?_, by simp⟩
      intro i hi
      rcases List.mem_cons.1 hi with rfl | hi
      · exact ⟨hl, p0, fun f μ q => by cases q⟩
      · exact k3 i hi

/-- lamination.py:689-698: the components parallel to edges are taken away -/
theorem subtractFrom_chain (hw : L.WellFormed) {arcs curves arcs' curves' : PyDict Int Int} {g' : List Int} (h : L.subtractFrom arcs curves = .ok (g', (arcs', curves'))) :
    ∃ l, Chain L l ⟨L.tri, g', L.cls⟩ ∧ (arcs', curves') = l.foldl Item.record (arcs, curves) ∧
      (∀ i ∈ l, L.tri.IsLabel i.edge ∧ L.w i.edge ≤ 0 ∧ ∀ f μ, i = .arc f μ → sign f = 1) ∧ ∀ comps, L.parallelComponents = .ok comps → ∀ p ∈ comps, L.w p.2.2 ≤ 0 → l ≠ [] := by
  unfold subtractFrom at h
  rw [py_bind_eq_ok] at h
  obtain ⟨comps, h1, h2⟩ := h
  obtain ⟨k1, k2⟩ := parallel_entries hw h1
  obtain ⟨l, l1, l2, l3, l4⟩ := fold_chain (c := L.cls) hw comps L.geometric g' _ _ hw.2 (fun p hp => ⟨(k1 p hp).1, ready_start hw (k1 p hp).1 (k1 p hp).2⟩) k2 h2
  refine ⟨l, l1, l2, l3, ?_⟩
  intro comps' hc
  rw [h1] at hc
  cases hc
  exact l4

end Lam
end Curver
