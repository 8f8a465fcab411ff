import Verif.Proofs.ShortenRound
import Verif.Model.Shorten
import Verif.Props.LamArith

/-!
# The image of the lamination is the sum of the components that were taken away
-/

namespace Curver
open Triangulation

namespace Triangulation
variable {T : Triangulation} {f β η : Int} {X : List Int}

theorem Sweep.exists_around (h : Sweep T f X) (hT : T.Complete) : ∃ v, Around T f X v := by
  have hs := chain_all (P := fun x => T.IsLabel x ∧ T.SV f x) _ _ h.chain ⟨h.label, hT.sv_refl h.label⟩
    (fun z _ hz => ⟨hT.isLabel_spin hz.1, hT.sv_trans h.label hz.2 (hT.sv_spin hz.1)⟩) (inv f) (by simp)
  obtain ⟨v, h1, h2⟩ := hs.2
  obtain ⟨X', h3, h4⟩ := hT.sweep h.label h1 h2
  have := h4.unique h
  subst this
  exact ⟨v, h1, hT.vertexOf_unique h.label h1 h2, h3⟩

end Triangulation

namespace Lam
variable {f β η k : Int} {X : List Int} {N N' M : Lam Int} {i : Item} {l : List Item} {T : Triangulation}

/-- the arc or curve, with its multiplicity -/
def Item.term (T : Triangulation) : Item → Lam Int × Int
  | .arc f μ => (T.edgeArcOf f, μ)
  | .curve f k => (match T.edgeCurve f with
    | .ok c => c
    | .error _ => T.emptyLamination, k)

theorem Item.term_curve (h : Loop T f β η X) (k : Int) : (T.edgeCurve f : Py (Lam Int)) = .ok (T.curveFromCutSequence X) ∧ (Item.curve f k).term T = (T.curveFromCutSequence X, k) := by
  obtain ⟨v, hA⟩ := h.sweep.exists_around h.valid.comp
  have := hA.edgeCurve (R := Int)
  refine ⟨this, ?_⟩
  change ((match (T.edgeCurve f : Py (Lam Int)) with
    | .ok c => c
    | .error _ => T.emptyLamination), k) = _
  rw [this]

theorem Item.Takes.sum (h : i.Takes N N') {x : Int} (hx : N.tri.IsLabel x) : N.w x = N'.w x + (i.term N.tri).1.w x * (i.term N.tri).2 := by
  cases i with
  | arc f μ =>
    obtain ⟨h1, h2, h3, h4, h5, h6, h7⟩ := h
    have hE := IsEdgeArc.of_edge h3
    change _ = _ + (N.tri.edgeArcOf f).w x * μ
    by_cases q1 : x = f
    · subst q1; rw [h5, h6, hE.at_edge]; ring
    by_cases q2 : x = inv f
    · subst q2; rw [w_inv, w_inv, w_inv, h5, h6, hE.at_edge]; ring
    rw [h7 x hx q1 q2, hE.other x hx q1 q2]; ring
  | curve f k =>
    obtain ⟨h1, h2, h3, h4, β, η, X, h5, h6⟩ := h
    rw [(Item.term_curve h5.loop k).2, h6 x hx]
    dsimp only
    rw [curve_cn X hx]; ring

theorem Item.Takes.simple (h : i.Takes N N') : Simple N.tri (i.term N.tri).1 := by
  cases i with
  | arc f μ => exact .inl ⟨f, h.2.2.1, rfl⟩
  | curve f k =>
    obtain ⟨h1, h2, h3, h4, β, η, X, h5, h6⟩ := h
    rw [(Item.term_curve h5.loop k).2]
    exact .inr ⟨X, rfl⟩

theorem Chain.no_arc (h : Chain N l M) {f : Int} (hf : N.tri.IsLabel f) (h0 : N.w f = 0) (μ : Int) : Item.arc f μ ∉ l ∧ Item.arc (inv f) μ ∉ l := by
  induction l generalizing N with
  | nil => simp
  | cons j l ih =>
    obtain ⟨N', h1, h2⟩ := h
    have h3 := ih h2 (by rw [h1.wf.2]; exact hf) (by
      rcases h1.keeps hf h0.le with q | q
      · rw [q, h0]
      · exact q.1)
    simp only [List.mem_cons, not_or]
    refine ⟨⟨?_, h3.1⟩, ?_, h3.2⟩
    · rintro rfl
      have := h1.2.2.2.1
      have := h1.2.2.2.2.1
      omega
    · rintro rfl
      have := h1.2.2.2.1
      have := h1.2.2.2.2.1
      rw [w_inv] at this
      omega

theorem Chain.no_curve (h : Chain N l M) (hl : Loop N.tri f β η X) (he : N.Exhausted f) (h0 : N.w f ≤ 0) {g : Int} (hg : Item.curve g k ∈ l) :
    ∃ β' η' X', Loop N.tri g β' η' X' ∧ ∃ x, N.tri.IsLabel x ∧ cn X x ≠ cn X' x := by
  induction l generalizing N with
  | nil => cases hg
  | cons j l ih =>
    obtain ⟨N', h1, h2⟩ := h
    have hlab := hl.sweep.label
    rcases List.mem_cons.1 hg with rfl | hg
    · obtain ⟨k1, k2, k3, k4, β', η', X', k5, k6⟩ := h1
      refine ⟨β', η', X', k5.loop, ?_⟩
      by_contra hno
      push Not at hno
      by_cases hfg : f = g
      · subst hfg
        have := he _ _ _ _ k5
        omega
      · have := he _ _ _ _ (k5.seen hl N.w_inv hfg hno h0)
        omega
    · have ht := h1.wf.2
      have := ih h2 (by rw [ht]; exact hl) (h1.exhausted hlab h0 he) (h1.nonpos hlab h0) hg
      rwa [ht] at this

/-- the items that can be told apart -/
def Item.Apart (T : Triangulation) (i j : Item) : Prop := (i.term T).1.eqv (j.term T).1 = false ∧
  (∀ f μ f' μ', i = .arc f μ → j = .arc f' μ' → f ≠ f') ∧ (∀ f k f' k', i = .curve f k → j = .curve f' k' → f ≠ f')

theorem not_eqv {K M : Lam Int} (h : K.geometric ≠ M.geometric) : K.eqv M = false := by
  rw [Bool.eq_false_iff]
  intro q
  exact h (eqv_spec.1 q).2

theorem curve_ne {X Y : List Int} (h : ∃ x, T.IsLabel x ∧ cn X x ≠ cn Y x) : (T.curveFromCutSequence X : Lam Int).eqv (T.curveFromCutSequence Y) = false := by
  obtain ⟨x, hx, h⟩ := h
  refine not_eqv (fun q => h ?_)
  rw [← curve_cn X hx, ← curve_cn Y hx]
  unfold w; rw [q]

theorem Chain.takes_of_mem (h : Chain N l M) (hi : i ∈ l) : ∃ K K', K.tri = N.tri ∧ i.Takes K K' := by
  induction l generalizing N with
  | nil => cases hi
  | cons j l ih =>
    obtain ⟨N', h1, h2⟩ := h
    rcases List.mem_cons.1 hi with rfl | hi
    · exact ⟨N, N', rfl, h1⟩
    · obtain ⟨K, K', k1, k2⟩ := ih h2 hi
      exact ⟨K, K', k1.trans h1.wf.2, k2⟩

theorem Chain.apart (h : Chain N l M) : l.Pairwise (Item.Apart N.tri) := by
  induction l generalizing N with
  | nil => exact .nil
  | cons i l ih =>
    obtain ⟨N', h1, h2⟩ := h
    have ht := h1.wf.2
    have h3 := ih h2
    rw [ht] at h3
    refine List.pairwise_cons.2 ⟨?_, h3⟩
    intro j hj
    obtain ⟨K, K', k1, k2⟩ := h2.takes_of_mem hj
    rw [ht] at k1
    cases i with
    | arc f μ =>
      obtain ⟨a1, a2, a3, a4, a5, a6, a7⟩ := h1
      cases j with
      | arc g ν =>
        have lg : N.tri.IsLabel g := by rw [← k1]; exact k2.2.2.1
        have hne : g ≠ f ∧ g ≠ inv f := by
          obtain ⟨n1, n2⟩ := h2.no_arc (f := f) (by rw [ht]; exact a3) a6 ν
          exact ⟨fun q => n1 (q ▸ hj), fun q => n2 (q ▸ hj)⟩
        refine ⟨?_, ?_, by simp⟩
        · refine not_eqv (fun q => ?_)
          have e1 := (IsEdgeArc.of_edge lg).at_edge
          have e2 := (IsEdgeArc.of_edge a3).other g lg hne.1 hne.2
          replace q : (N.tri.edgeArcOf f : Lam Int).geometric = (N.tri.edgeArcOf g).geometric := q
          unfold w at e1 e2
          rw [q, e1] at e2
          omega
        · intro _ _ _ _ q1 q2
          injection q1 with q1; injection q2 with q2
          rw [← q1, ← q2]; exact hne.1.symm
      | curve g ν =>
        refine ⟨?_, by simp, by simp⟩
        obtain ⟨_, _, _, _, β, η, X, h5, _⟩ := k2
        rw [k1] at h5
        rw [(Item.term_curve h5.loop ν).2]
        exact not_eqv (arc_ne_curve a3 X)
    | curve f k =>
      obtain ⟨a1, a2, a3, a4, β, η, X, a5, a6⟩ := h1
      have hoff : N'.w f ≤ 0 := by
        rw [a6 f a5.loop.sweep.label, a5.loop.cn_a, mul_zero, sub_zero]; exact a5.off
      cases j with
      | arc g ν =>
        refine ⟨?_, by simp, by simp⟩
        have lg : N.tri.IsLabel g := by rw [← k1]; exact k2.2.2.1
        rw [(Item.term_curve a5.loop k).2]
        exact not_eqv (fun q => arc_ne_curve lg X q.symm)
      | curve g ν =>
        obtain ⟨β', η', X', b1, b2⟩ := h2.no_curve (by rw [ht]; exact a5.loop) a4 hoff hj
        rw [ht] at b1 b2
        refine ⟨?_, by simp, ?_⟩
        · rw [(Item.term_curve a5.loop k).2, (Item.term_curve b1 ν).2]
          exact curve_ne b2
        · intro _ _ _ _ q1 q2 q
          injection q1 with q1; injection q2 with q2
          subst q1 q2 q
          have := b1.sweep.unique a5.loop.sweep
          subst this
          obtain ⟨x, -, b2⟩ := b2
          exact b2 rfl

theorem Chain.sum (h : Chain N l M) {x : Int} (hx : N.tri.IsLabel x) : N.w x = M.w x + ((l.map (Item.term N.tri)).map (fun p => p.1.w x * p.2)).sum := by
  induction l generalizing N with
  | nil => simp only [List.map_nil, List.sum_nil, add_zero]; unfold w; rw [h.2]
  | cons i l ih =>
    obtain ⟨N', h1, h2⟩ := h
    have ht := h1.wf.2
    have := ih h2 (by rw [ht]; exact hx)
    rw [ht] at this
    rw [h1.sum hx, this, List.map_cons, List.map_cons, List.sum_cons]
    ring

/-! ## the record -/

def arcsOf (l : List Item) : PyDict Int Int := l.filterMap (fun i => match i with | .arc f μ => some (f, μ) | .curve _ _ => none)
def curvesOf (l : List Item) : PyDict Int Int := l.filterMap (fun i => match i with | .arc _ _ => none | .curve f k => some (f, k))

theorem foldl_record : ∀ (l : List Item) (st : PyDict Int Int × PyDict Int Int), l.Pairwise (Item.Apart T) →
    (∀ f μ, Item.arc f μ ∈ l → f ∉ st.1.keys) → (∀ f k, Item.curve f k ∈ l → f ∉ st.2.keys) → l.foldl Item.record st = (st.1 ++ arcsOf l, st.2 ++ curvesOf l)
  | [], st, _, _, _ => by simp [arcsOf, curvesOf]
  | .arc f μ :: l, st, hp, h1, h2 => by
    rw [List.pairwise_cons] at hp
    have hs : st.1.set f μ = st.1 ++ [(f, μ)] := PyDict.set_of_not_mem _ _ _ (h1 f μ (by simp))
    rw [List.foldl_cons]
    change l.foldl Item.record (st.1.set f μ, st.2) = _
    rw [hs, foldl_record l _ hp.2]
    · simp [arcsOf, curvesOf]
    · intro g ν hg
      have := h1 g ν (by simp [hg])
      have := (hp.1 _ hg).2.1 f μ g ν rfl rfl
      simp only [PyDict.keys, List.map_append, List.mem_append] at *
      rintro (q | q)
      · tauto
      · simp at q; exact this q.symm
    · intro g ν hg
      exact h2 g ν (by simp [hg])
  | .curve f μ :: l, st, hp, h1, h2 => by
    rw [List.pairwise_cons] at hp
    have hs : st.2.set f μ = st.2 ++ [(f, μ)] := PyDict.set_of_not_mem _ _ _ (h2 f μ (by simp))
    rw [List.foldl_cons]
    change l.foldl Item.record (st.1, st.2.set f μ) = _
    rw [hs, foldl_record l _ hp.2]
    · simp [arcsOf, curvesOf]
    · intro g ν hg
      exact h1 g ν (by simp [hg])
    · intro g ν hg
      have := h2 g ν (by simp [hg])
      have := (hp.1 _ hg).2.2 f μ g ν rfl rfl
      simp only [PyDict.keys, List.map_append, List.mem_append] at *
      rintro (q | q)
      · tauto
      · simp at q; exact this q.symm

theorem Chain.record (h : Chain N l M) : l.foldl Item.record ([], []) = (arcsOf l, curvesOf l) := by
  rw [foldl_record l ([], []) h.apart (by simp [PyDict.keys]) (by simp [PyDict.keys])]
  simp

theorem term_perm (T : Triangulation) (l : List Item) :
    (l.map (Item.term T)).Perm ((arcsOf l).map (fun p => Item.term T (.arc p.1 p.2)) ++ (curvesOf l).map (fun p => Item.term T (.curve p.1 p.2))) := by
  induction l with
  | nil => simp [arcsOf, curvesOf]
  | cons i l ih =>
    cases i with
    | arc f μ =>
      simp only [arcsOf, curvesOf, List.filterMap_cons, List.map_cons, List.cons_append]
      exact ih.cons _
    | curve f μ =>
      simp only [arcsOf, curvesOf, List.filterMap_cons, List.map_cons]
      exact (ih.cons _).trans List.perm_middle.symm

theorem setComponent_fresh {α : Type} {K : Lam Int} {v : α} : ∀ {d : List (Lam Int × α)}, (∀ p ∈ d, p.1.eqv K = false) → setComponent d K v = d ++ [(K, v)]
  | [], _ => rfl
  | (J, u) :: d, h => by
    rw [setComponent, if_neg (by rw [h (J, u) (by simp)]; simp), setComponent_fresh (fun p hp => h p (by simp [hp]))]
    rfl

theorem foldl_setComponent {α : Type} : ∀ (ts d : List (Lam Int × α)), (d ++ ts).Pairwise (fun p q => p.1.eqv q.1 = false) →
    ts.foldl (fun d p => setComponent d p.1 p.2) d = d ++ ts
  | [], d, _ => by simp
  | p :: ts, d, h => by
    rw [List.foldl_cons, setComponent_fresh]
    · rw [foldl_setComponent ts _ (by simpa using h)]; simp
    · intro q hq
      exact (List.pairwise_append.1 h).2.2 q hq p (by simp)

theorem mem_curvesOf {p : Int × Int} (h : p ∈ curvesOf l) : Item.curve p.1 p.2 ∈ l := by
  unfold curvesOf at h
  rw [List.mem_filterMap] at h
  obtain ⟨i, h1, h2⟩ := h
  cases i with
  | arc f μ => cases h2
  | curve f μ => cases h2; exact h1

/-- lamination.py:780-787: the dictionary that is summed -/
theorem rebuild_expand (P : Lam Int → Py LamClass) (h : Chain N l M) {per : Lam Int}
    (hpa : ∀ i ∈ l, per.eqv (i.term N.tri).1 = false) :
    ∃ ts, (l.map (Item.term N.tri)).Perm ts ∧ (∀ p ∈ ts, p.1.geometric.length = N.tri.zeta) ∧ rebuild P N.tri per (arcsOf l) (curvesOf l) = N.tri.disjointSumDict P ((per, 1) :: ts) := by
  unfold rebuild
  have hm : ((curvesOf l).mapM (fun p => do
      let c ← N.tri.edgeCurve p.1
      return (c, p.2)) : Py (List (Lam Int × Int))) = .ok ((curvesOf l).map (fun p => Item.term N.tri (.curve p.1 p.2))) := by
    refine mapM_ok ?_
    intro p hp
    obtain ⟨K, K', k1, k2⟩ := h.takes_of_mem (mem_curvesOf hp)
    obtain ⟨_, _, _, _, β, η, X, h5, _⟩ := k2
    rw [k1] at h5
    obtain ⟨e1, e2⟩ := Item.term_curve h5.loop p.2
    rw [e1, e2]; rfl
  rw [hm, py_bind_ok]
  dsimp only
  have harc : (arcsOf l).map (fun p => (N.tri.edgeArcOf p.1, p.2)) = (arcsOf l).map (fun p => Item.term N.tri (.arc p.1 p.2)) := rfl
  rw [harc]
  have hperm := term_perm N.tri l
  generalize (arcsOf l).map (fun p => Item.term N.tri (.arc p.1 p.2)) ++ (curvesOf l).map (fun p => Item.term N.tri (.curve p.1 p.2)) = ts at hperm ⊢
  have hpair : ((per, (1 : Int)) :: ts).Pairwise (fun p q => p.1.eqv q.1 = false) := by
    rw [List.pairwise_cons]
    constructor
    · intro p hp
      obtain ⟨i, hi, rfl⟩ := List.mem_map.1 (hperm.mem_iff.2 hp)
      exact hpa i hi
    · refine (hperm.pairwise_iff (fun {p q} hpq => by rw [eqv_comm]; exact hpq)).1 ?_
      rw [List.pairwise_map]
      exact h.apart.imp (fun hij => hij.1)
  rw [foldl_setComponent _ [] (by simpa using hpair), List.nil_append]
  refine ⟨ts, hperm, ?_, rfl⟩
  intro p hp
  obtain ⟨i, hi, rfl⟩ := List.mem_map.1 (hperm.mem_iff.2 hp)
  obtain ⟨K, K', k1, k2⟩ := h.takes_of_mem hi
  have := k2.simple
  rw [k1] at this
  rcases this with ⟨e, he, q⟩ | ⟨X, q⟩
  · rw [q]; exact (IsEdgeArc.of_edge he).length
  · rw [q]; exact curve_length _ _

theorem rebuild_eq (P : Lam Int → Py LamClass) (h : Chain N l M) {per short : Lam Int}
    (hpa : ∀ i ∈ l, per.eqv (i.term N.tri).1 = false) (hs : rebuild P N.tri per (arcsOf l) (curvesOf l) = .ok short) :
    ∃ ts, (l.map (Item.term N.tri)).Perm ts ∧ (∀ p ∈ ts, p.1.geometric.length = N.tri.zeta) ∧ N.tri.disjointSumDict P ((per, 1) :: ts) = .ok short := by
  obtain ⟨ts, h1, h2, h3⟩ := rebuild_expand P h hpa
  exact ⟨ts, h1, h2, by rw [← h3]; exact hs⟩

/-- lamination.py:780-787 -/
theorem rebuild_w (P : Lam Int → Py LamClass) (hN : N.WellFormed) (h : Chain N l M) (h0 : ∀ x, N.tri.IsLabel x → M.w x = 0) {per short : Lam Int} (hpl : per.geometric.length = N.tri.zeta)
    (hpa : ∀ i ∈ l, per.eqv (i.term N.tri).1 = false) (hs : rebuild P N.tri per (arcsOf l) (curvesOf l) = .ok short) :
    short.tri = N.tri ∧ short.WellFormed ∧ per.tri = N.tri ∧ ∀ x, N.tri.IsLabel x → short.w x = per.w x + N.w x := by
  obtain ⟨ts, hperm, hts, hs⟩ := rebuild_eq P h hpa hs
  have hlen : ∀ p ∈ (per, (1 : Int)) :: ts, p.1.geometric.length = N.tri.zeta := by
    intro p hp
    rcases List.mem_cons.1 hp with rfl | hp
    · exact hpl
    · exact hts p hp
  obtain ⟨c1, c2, c3, c4⟩ := C40_disjoint_sum P N.tri _ short hlen hs
  refine ⟨c2, ⟨by rw [c2]; exact hN.1, by rw [c2, c3]⟩, (c1 (per, 1) (by simp)).1, ?_⟩
  intro x hx
  rw [c4 x hx, h.sum hx, h0 x hx, List.map_cons, List.sum_cons, (hperm.map _).sum_eq]
  simp

/-- a peripheral lamination is not one of the components -/
theorem Item.Takes.not_peripheral (h : i.Takes N N') {per : Lam Int} {m : Int → Int} (hm : ∀ x, N.tri.IsLabel x → 0 ≤ m x) (hc : ∀ x y, N.tri.IsLabel x → N.tri.SV x y → m x = m y)
    (hp : ∀ x, N.tri.IsLabel x → per.w x = m x + m (inv x)) : per.eqv (i.term N.tri).1 = false := by
  cases i with
  | arc f μ =>
    refine not_eqv (fun q => ?_)
    have lf := h.2.2.1
    have e1 := (IsEdgeArc.of_edge lf).at_edge
    have e2 := hp f lf
    have e3 := hm f lf
    have e4 := hm (inv f) (isLabel_inv.2 lf)
    replace q : per.geometric = (N.tri.edgeArcOf f).geometric := q
    unfold w at e1 e2
    rw [q, e1] at e2
    omega
  | curve f k =>
    obtain ⟨h1, h2, h3, h4, β, η, X, h5, h6⟩ := h
    have hl := h5.loop
    have hv := hl.valid.comp
    rw [(Item.term_curve hl k).2]
    refine not_eqv (fun q => ?_)
    have hw : ∀ x, N.tri.IsLabel x → m x + m (inv x) = cn X x := by
      intro x hx
      rw [← hp x hx, ← curve_cn X hx]
      unfold w; rw [q]
    have lg := hv.label_of_glues hl.glues
    have gap : ∀ {x y z : Int}, N.tri.Glues x y z → m x = Triangulation.mu f β η X x := by
      intro x y z hg
      have l := hv.label_of_glues hg
      have g1 := hl.gap hg
      rw [← hw x l.1, ← hw y l.2.1, ← hw z l.2.2] at g1
      have s1 : m x = m (inv z) := hc _ _ l.1 (hv.sv_glues (b := y) (by rw [inv_inv]; exact hg))
      have s2 : m y = m (inv x) := hc _ _ l.2.1 (hv.sv_glues (b := z) (by rw [inv_inv]; exact hg.rot))
      have s3 : m z = m (inv y) := hc _ _ l.2.2 (hv.sv_glues (b := x) (by rw [inv_inv]; exact hg.rot.rot))
      omega
    have e1 := gap hl.glues
    rw [Loop.mu_f] at e1
    obtain ⟨y, z, hg⟩ := hv.exists_glues (isLabel_inv.2 lg.2.2)
    have e2 := gap hg
    have e3 := hl.mu_pos hl.inv_e_mem hl.eta_ne.2
    have s : m f = m (inv η) := hc _ _ lg.1 (hv.sv_glues (b := β) (by rw [inv_inv]; exact hl.glues))
    omega

end Lam
end Curver
