import Verif.Model.Shorten
import Verif.Proofs.TwistSpares
import Verif.Proofs.ShortenSub

/-!
# `encode_twist`, given what is known about `shorten`
-/

namespace Curver
open Triangulation

namespace Enc
variable {f : Int} {g h k : Enc} {L L1 : Lam Int}

theorem mul_ok (hg : g.Legal) (hh : h.Legal) (hm : g.mul h = .ok k) : k.Legal ∧ k.IsComposite g h ∧ g.source = h.target ∧ (g.kind ≠ .encoding → h.kind ≠ .encoding → k.kind ≠ .encoding) ∧
    (g.kind ≠ .encoding → h.kind ≠ .encoding → g.target = h.source → k.kind = .mappingClass) := by
  by_cases he : g.source = h.target
  · obtain ⟨k', h1, h2, h3⟩ := C14_composition g h hg hh he
    cases hm.symm.trans h1
    have := C14_class g h k hg hh hm
    refine ⟨h2, h3, he, ?_, fun a b c => this.2.2 ⟨a, b, c⟩⟩
    intro a b c
    rcases this.1.1 c with c | c
    · exact a c
    · exact b c
  · exfalso
    unfold mul at hm
    rw [Triangulation.eq_decide] at hm
    simp [he] at hm

theorem inverse_ok (hh : h.Legal) (hm : h.inverse = .ok k) : k.Legal ∧ k.kind = h.kind ∧ k.source = h.target ∧ k.target = h.source := by
  obtain ⟨g, h1, h2, h3, h4, h5, -⟩ := C15_inverse (R := Int) h hh
  cases hm.symm.trans h1
  exact ⟨h2, h3, h4, h5⟩

theorem applyLam_source {R : Type} [CommRing R] [LinearOrder R] [Halvable R] {L L1 : Lam R} (ha : h.applyLam L = .ok L1) : h.source = L.tri := by
  rw [applyLam_eq] at ha
  split at ha
  · assumption
  · cases ha

theorem performLam_spares {ms : List LMove} {S T : Triangulation} (hp : Path S ms T) (hs : ∀ m ∈ ms, m.Spares f) (hf : L.tri.IsLabel f) (hL : L.WellFormed) (ht : L.tri = S)
    (ha : performLam ms L = .ok L1) : L1.w f = L.w f ∧ L1.tri.IsLabel f := by
  induction hp generalizing L with
  | nil T hT => cases ha; exact ⟨rfl, hf⟩
  | cons m ms T hm hp ih =>
    simp only [Curver.performLam, py_bind_eq_ok] at ha
    obtain ⟨L', h1, h2⟩ := ha
    obtain ⟨k1, k2⟩ := Lam.spares_w (hs m (by simp)) hf hL ht h1
    obtain ⟨w1, w2, -, -⟩ := hm.applyLam hL ht h1
    obtain ⟨j1, j2⟩ := ih (fun n hn => hs n (by simp [hn])) k2 w2 w1 h2
    exact ⟨j1.trans k1, j2⟩

/-- the weight of an edge that is kept does not change -/
theorem spares_w (hh : h.Legal) (hs : h.Spares f) (hf : L.tri.IsLabel f) (hL : L.WellFormed) (ha : h.applyLam L = .ok L1) : L1.w f = L.w f ∧ L1.tri.IsLabel f := by
  have hst := applyLam_source ha
  rw [applyLam_eq, if_pos hst] at ha
  exact performLam_spares hh.path (fun m hm => hs m (List.mem_reverse.1 hm)) hf hL hst.symm ha

/-- an encoding that goes from `T` to itself and keeps the edges in `Q` -/
structure Keeps (T : Triangulation) (Q : Int → Prop) (h : Enc) : Prop where
  legal : h.Legal
  source : h.source = T
  target : h.target = T
  kind : h.kind = .mappingClass
  spares : ∀ f, Q f → h.Spares f

variable {T : Triangulation} {Q : Int → Prop}

theorem Keeps.mul (hg : g.Keeps T Q) (hh : h.Keeps T Q) (hm : g.mul h = .ok k) : k.Keeps T Q := by
  obtain ⟨h1, h2, h3, h4, h5⟩ := mul_ok hg.legal hh.legal hm
  exact ⟨h1, h2.source.trans hh.source, h2.target.trans hg.target, h5 (by rw [hg.kind]; simp) (by rw [hh.kind]; simp) (hg.target.trans hh.source.symm),
    fun f hf => (hg.spares f hf).mul (hh.spares f hf) hm⟩

theorem keeps_id (hT : T.Valid) (hQ : ∀ f, Q f → T.IsLabel f) (h1 : T.idEncoding = .ok h) : h.Keeps T Q := by
  obtain ⟨p, p1, p2, p3, p4, p5, -⟩ := hT.idEncoding_spec
  cases h1.symm.trans p1
  exact ⟨p2, p4, p5, p3, fun f hf => id_spares hT (hQ f hf) h1⟩

theorem keeps_product {start : Enc} {hs : List Enc} (h0 : start.Keeps T Q) (h1 : ∀ h ∈ hs, h.Keeps T Q) (hp : Lam.encProduct start hs = .ok k) : k.Keeps T Q := by
  cases hs with
  | nil => cases hp; exact h0
  | cons h l =>
    refine foldlM_inv (fun h => h.Keeps T Q) (h1 h (by simp)) ?_ hp
    intro b x c hx hb hm
    exact (h1 x (by simp [hx])).mul hb hm

theorem Keeps.conjugateBy (hg : g.Keeps T Q) {c : Enc} (hc : c.Legal) (hk : c.kind ≠ .encoding) (hs : ∀ f, Q f → c.Spares f) (hm : g.conjugateBy c = .ok k) :
    k.Keeps c.source Q ∧ c.target = T := by
  have hm' := hm
  unfold Enc.conjugateBy at hm
  simp only [py_bind_eq_ok] at hm
  obtain ⟨i, h1, x, h2, hm⟩ := hm
  obtain ⟨i1, i2, i3, i4⟩ := inverse_ok hc h1
  obtain ⟨a1, a2, a3, a4, a5⟩ := mul_ok i1 hg.legal h2
  obtain ⟨b1, b2, b3, b4, b5⟩ := mul_ok a1 hc hm
  have e1 : x.kind ≠ .encoding := a4 (by rw [i2]; exact hk) (by rw [hg.kind]; simp)
  refine ⟨⟨b1, b2.source, by rw [b2.target, a2.target, i4], b5 e1 hk (by rw [a2.target, i4]), ?_⟩, ?_⟩
  · intro f hf
    exact (hg.spares f hf).conjugateBy (hs f hf) hm'
  · rw [← b3, a2.source, hg.source]

end Enc

namespace Lam
variable {L : Lam Int} {f : Int}

theorem NoArcs.cls_irrel (h : L.NoArcs) {K : Lam Int} (h1 : K.tri = L.tri) (h2 : K.geometric = L.geometric) : K.NoArcs := by
  obtain ⟨T, g, c⟩ := L
  obtain ⟨T', g', c'⟩ := K
  subst h1 h2
  exact h

theorem w_congr {K : Lam Int} (h : K.geometric = L.geometric) (x : Int) : K.w x = L.w x := by unfold Lam.w; rw [h]

theorem NoArcs.le_w (hL : L.NoArcs) {x y z : Int} (hg : L.tri.Glues x y z) : L.lf x ≤ L.w x ∧ L.lf x ≤ L.w z := by
  obtain ⟨-, h2, -⟩ := hL.lf_spec hg
  have hT := (noArcs_iff.1 hL).2
  have := (hT z x y hg.rot.rot).2
  have := (hT x y z hg).2
  constructor <;> linarith

/-- a curve that occurs meets only edges that the lamination meets -/
theorem parallelCurve_meets (hL : L.NoArcs) {x : Int} {K : Lam Int} {k : Int} (hx : L.tri.IsLabel x) (h : L.parallelCurve x = .ok (some (K, k))) :
    ∃ β η X, Loop L.tri x β η X ∧ K = L.tri.curveFromCutSequence X ∧ ∀ y ∈ X, 0 < L.w y := by
  have hc := hL.1.1.comp
  obtain ⟨hk, X, v, hA, hX, hK, m, m1, m2, m3, m4⟩ := parallelCurve_some hc hx h
  obtain ⟨β, η, hl⟩ := hA.loop hL.1.1 hx hX
  refine ⟨β, η, X, hl, hK, ?_⟩
  have hlast : X.getLast? = some β := by rw [hl.sweep.eq_concat hc hl.glues hl.ne_nil]; simp
  have h5 := m4 β hlast
  have hm0 : 0 ≤ m := by
    have := (hL.left hx).1
    rw [m3] at this
    have h6 := (hL.left hx).2
    rw [← Except.ok.inj this] at h6
    exact h6
  have mid : ∀ y ∈ X.dropLast, 0 < L.w y := by
    intro y hy
    have hyl := hl.label_mem (x := y) (by simp [List.dropLast_subset _ hy])
    unfold Lam.twistingWeight middle at m2
    rw [List.drop_succ_cons, List.drop_zero, py_bind_eq_ok] at m2
    obtain ⟨ws, w1, w2⟩ := m2
    obtain ⟨n, hn, hn'⟩ := mapM_mem_left w1 hy
    have hne : ws.map (fun w => w - m) ≠ [] := by
      intro hc
      rw [List.map_eq_nil_iff] at hc
      rw [hc] at hn; cases hn
    obtain ⟨m', q1, q2, q3, -⟩ := maximin_zero (R := Int) hne
    rw [w2] at q1
    injection q1 with q1
    subst q1
    have h7 := q3 (n - m) (List.mem_map.2 ⟨n, hn, rfl⟩)
    obtain ⟨b, c, hg⟩ := hc.exists_glues hyl
    have h8 := (hL.le_w hg).1
    rw [lf_eq hn'] at h8
    omega
  intro y hy
  by_cases hyb : y = β
  · subst hyb
    have he : inv η ∈ X.dropLast := by
      rw [hl.mem_dropLast]
      exact ⟨hl.inv_e_mem, fun k => hl.fan.base.bi k.symm⟩
    have := mid _ he
    rw [w_inv] at this
    have e1 := (hL.lf_spec hl.glues).2.1
    have e2 := (hL.lf_spec hl.glues.rot).2.1
    rw [lf_eq m3] at e1
    rw [lf_eq h5] at e2
    omega
  · exact mid y (hl.mem_dropLast.2 ⟨hy, hyb⟩)

theorem cn_zero {X : List Int} (h1 : ∀ y ∈ X, 0 < L.w y) (hf : L.w f = 0) : cn X f = 0 := by
  unfold cn
  rw [List.count_eq_zero_of_not_mem, List.count_eq_zero_of_not_mem]
  · rfl
  · intro k
    have := h1 _ k
    rw [w_inv] at this
    omega
  · intro k
    have := h1 _ k
    omega

theorem cut_w {T : Triangulation} (X : List Int) {x : Int} (hx : T.IsLabel x) : (T.curveFromCutSequence X : Lam Int).w x = cn X x := by
  rw [link_w X hx]; unfold cn; push_cast; rfl

theorem cut_noArcs {T : Triangulation} (hT : T.Valid) {X : List Int} (h : ∀ x y z, T.Glues x y z → 0 ≤ cn X x + cn X z - cn X y ∧ Even (cn X x + cn X z - cn X y)) :
    (T.curveFromCutSequence X : Lam Int).NoArcs := by
  have hw : (T.curveFromCutSequence X : Lam Int).WellFormed := ⟨hT, cut_length X⟩
  have hc := hT.comp
  rw [noArcs_iff]
  have ht : (T.curveFromCutSequence X : Lam Int).Taut := by
    intro a b c hg
    have hl := hc.label_of_glues hg
    rw [cut_w X hl.1, cut_w X hl.2.1, cut_w X hl.2.2]
    have := (h _ _ _ hg.rot.rot).1
    exact ⟨cn_nonneg X a, by omega⟩
  refine ⟨⟨hw, ?_⟩, ht⟩
  intro y hy
  obtain ⟨z, x, hg⟩ := hc.exists_glues hy
  have hl := hc.label_of_glues hg
  obtain ⟨n, hn⟩ := (h _ _ _ hg.rot.rot).2
  refine ⟨n, ?_⟩
  have g1 := ht _ _ _ hg
  have g2 := ht _ _ _ hg.rot
  have g3 := ht _ _ _ hg.rot.rot
  have hg' : (T.curveFromCutSequence X : Lam Int).tri.Glues y z x := hg
  rw [dualWeight_eq hw hg', half_ok_iff, (dual2_eq g1.1 g2.1 g3.1).1 g1.2 g2.2 g3.2, cut_w X hl.1, cut_w X hl.2.1, cut_w X hl.2.2]
  omega

theorem _root_.Curver.Triangulation.Loop.noArcs {T : Triangulation} {a b e : Int} {X : List Int} (h : Loop T a b e X) : (T.curveFromCutSequence X : Lam Int).NoArcs :=
  cut_noArcs h.valid (fun _ _ _ hg => h.corner_nonneg hg)

theorem link_noArcs {T : Triangulation} (hT : T.Valid) {v : List Int} (hv : ∃ e, T.IsLabel e ∧ T.vertexOf e = .ok v) : (T.curveFromCutSequence v : Lam Int).NoArcs := by
  obtain ⟨h1, h2⟩ := consistent_link (R := Int) hT hv
  rw [NoArcs]
  refine ⟨h1.1, ?_⟩
  intro e he
  obtain ⟨n, hn⟩ := h2 e he
  refine ⟨?_, n, by omega, hn⟩
  rw [cut_w (T := T) v he]; exact cn_nonneg v e

/-- the components of a lamination without arcs -/
structure CompOf (L : Lam Int) (K : Lam Int) : Prop where
  tri : K.tri = L.tri
  noArcs : K.NoArcs
  off : ∀ f, L.tri.IsLabel f → L.w f = 0 → K.w f = 0

theorem peripheral_comp (hL : L.NoArcs) {comps : List (Lam Int × (Int × List Int))} (h : L.peripheralComponents = .ok comps) : ∀ p ∈ comps, CompOf L p.1 := by
  obtain ⟨hC, hT⟩ := noArcs_iff.1 hL
  have hc := hL.1.1.comp
  obtain ⟨vs, h1, μ, h2, h3, h4⟩ := peripheralComponents_ok hC
  cases h.symm.trans h4
  intro p hp
  rw [List.mem_map] at hp
  obtain ⟨v, hv, rfl⟩ := hp
  rw [List.mem_filter, decide_eq_true_eq] at hv
  obtain ⟨k1, k2, k3, k4⟩ := hc.vertices_mem h1
  have hx := (k2 v hv.1)
  obtain ⟨a, ha⟩ := List.exists_mem_of_ne_nil _ hx.1.ne
  have hv' : ∃ e, L.tri.IsLabel e ∧ L.tri.vertexOf e = .ok v :=
    ⟨a, hx.2.2 a ha, hc.vertexOf_of_mem h1 hv.1 ha⟩
  refine ⟨rfl, link_noArcs hL.1.1 hv', ?_⟩
  intro f hf hf0
  rw [cut_w v hf]
  refine cn_zero (L := L) ?_ hf0
  intro y hy
  have hyl := hx.2.2 y hy
  have h5 := h3 v hv.1 y hy
  obtain ⟨b, c, hg⟩ := hc.exists_glues hyl
  have h6 := (isMult_mu hC).le y _ hyl (hL.lf_spec hg).1
  have h7 := (hL.le_w hg).1
  have := (hL.lf_spec hg).2.2
  omega

theorem parallel_comp (hL : L.NoArcs) {comps : List (Lam Int × (Int × Int))} (h : L.parallelComponents = .ok comps) : ∀ p ∈ comps, CompOf L p.1 := by
  intro p hp
  obtain ⟨h1, -, K, h2, h3⟩ := parallel_mem hL h p hp
  obtain ⟨β, η, X, hl, rfl, hX⟩ := parallelCurve_meets hL h1 h3
  obtain ⟨e1, e2⟩ := eqv_spec.1 h2
  refine ⟨e1, hl.noArcs.cls_irrel e1 e2, ?_⟩
  intro f hf h0
  rw [w_congr e2, cut_w X hf]
  exact cn_zero hX h0

/-- what `shorten` returns -/
structure Shortens (M s : Lam Int) (h : Enc) : Prop where
  legal : h.Legal
  kind : h.kind ≠ .encoding
  source : h.source = M.tri
  target : h.target = s.tri
  wf : s.WellFormed
  spares : ∀ f, M.tri.IsLabel f → M.w f ≤ 0 → h.Spares f
  acts : ∃ K, h.applyLam M = .ok K ∧ K.tri = s.tri ∧ K.geometric = s.geometric

/-- whenever it returns -/
def Good (S : Lam Int → Py (Lam Int × Enc)) : Prop := ∀ M s h, M.WellFormed → S M = .ok (s, h) → Shortens M s h

namespace Shortens
variable {M s : Lam Int} {h : Enc}

theorem w (H : Shortens M s h) (hM : M.WellFormed) {f : Int} (hf : M.tri.IsLabel f) (h0 : M.w f ≤ 0) : s.w f = M.w f ∧ s.tri.IsLabel f := by
  obtain ⟨K, k1, k2, k3⟩ := H.acts
  obtain ⟨j1, j2⟩ := Enc.spares_w H.legal (H.spares f hf h0) hf hM k1
  rw [← w_congr k3, ← k2]
  exact ⟨j1, j2⟩

theorem noArcs (H : Shortens M s h) (hM : M.NoArcs) : s.NoArcs := by
  obtain ⟨K, k1, k2, k3⟩ := H.acts
  exact (H.legal.noArcs hM k1).cls_irrel k2.symm k3.symm

end Shortens

variable {S : Lam Int → Py (Lam Int × Enc)} {P : Lam Int → Py LamClass}

/-- lamination.py:618-632: `components` of a lamination that is neither a curve nor an arc -/
def componentsMain (S : Lam Int → Py (Lam Int × Enc)) (L : Lam Int) : Py (List (Lam Int × Int)) := do
  let (short, conjugator) ← S L
  let conjugatorInv ← conjugator.inverse
  let per ← short.peripheralComponents
  let components ← per.foldlM (fun d p => do
    let c ← conjugatorInv.applyLam p.1
    return setComponent d c p.2.1) []
  let par ← short.parallelComponents
  par.foldlM (fun d p => do
    let c ← conjugatorInv.applyLam p.1
    return setComponent d c p.2.1) components

theorem components_comp (hS : Good S) (hL : L.NoArcs) {comps : List (Lam Int × Int)} (h : L.componentsWith S = .ok comps) : ∀ p ∈ comps, CompOf L p.1 := by
  have self : ∀ p : Lam Int × Int, p ∈ [(L, (1 : Int))] → CompOf L p.1 := by
    intro p hp
    rw [List.mem_singleton] at hp
    subst hp
    exact ⟨rfl, hL, fun f _ h0 => h0⟩
  have main : L.componentsMain S = .ok comps → ∀ p ∈ comps, CompOf L p.1 := by
    intro h
    simp only [componentsMain, py_bind_eq_ok] at h
    obtain ⟨⟨s, g⟩, h1, gi, h2, per, h3, d, h4, par, h5, h6⟩ := h
    have H := hS L s g hL.1 h1
    have hs := H.noArcs hL
    obtain ⟨i1, i2, i3, i4⟩ := Enc.inverse_ok H.legal h2
    have back : ∀ K K', CompOf s K → gi.applyLam K = .ok K' → CompOf L K' := by
      intro K K' hK ha
      have hst := Enc.applyLam_source ha
      refine ⟨?_, i1.noArcs hK.noArcs ha, ?_⟩
      · have := (i1.undo hK.noArcs.1 ha).2.1
        rw [this, i4, H.source]
      · intro f hf h0
        obtain ⟨w1, w2⟩ := H.w hL.1 hf h0.le
        have := Enc.spares_w i1 ((H.spares f hf h0.le).inverse h2) (by rw [hK.tri]; exact w2) hK.noArcs.1 ha
        rw [this.1]
        exact hK.off f w2 (w1.trans h0)
    have step : ∀ (α : Type) (l : List (Lam Int × (Int × α))) (d d' : List (Lam Int × Int)), (∀ p ∈ l, CompOf s p.1) → (∀ p ∈ d, CompOf L p.1) →
        l.foldlM (fun (d : List (Lam Int × Int)) p => do
          let c ← gi.applyLam p.1
          return setComponent d c p.2.1) d = .ok d' → ∀ p ∈ d', CompOf L p.1 := by
      intro α l d d' hl hd hf
      refine foldlM_inv (fun d => ∀ p ∈ d, CompOf L p.1) hd ?_ hf
      intro b x c hx hb hm p hp
      rw [py_bind_eq_ok] at hm
      obtain ⟨K, k1, k2⟩ := hm
      cases k2
      rcases mem_setComponent hp with q | ⟨_, ⟨u, q, _⟩ | q⟩
      · exact hb p q
      · exact hb (p.1, u) q
      · rw [q]; exact back _ _ (hl x hx) k1
    have q1 := step _ per [] d (peripheral_comp hs h3) (by simp) h4
    exact step _ par d comps (parallel_comp hs h5) q1 h6
  unfold Lam.componentsWith at h
  split at h
  · cases h; exact self
  · cases h; exact self
  · exact main h

theorem componentTwists_keeps {T : Triangulation} {power : Int} : ∀ {comps : List (Lam Int × Int)} {hs : List Enc}, (∀ p ∈ comps, p.1.tri = T ∧ p.1.NoArcs) →
    componentTwists P power comps = .ok hs → ∀ h ∈ hs, h.Keeps T (fun f => T.IsLabel f ∧ ∀ p ∈ comps, p.1.w f = 0)
  | [], hs, _, h => by cases h; simp
  | (c, n) :: l, hs, hc, h => by
    simp only [componentTwists, py_bind_eq_ok] at h
    obtain ⟨p, h1, h⟩ := h
    have ih := @componentTwists_keeps T power l
    split at h
    · intro g hg
      have := ih (fun p hp => hc p (by simp [hp])) h g hg
      exact ⟨this.legal, this.source, this.target, this.kind, fun f hf => this.spares f ⟨hf.1, fun p hp => hf.2 p (by simp [hp])⟩⟩
    · simp only [py_bind_eq_ok] at h
      obtain ⟨t, h2, k, h3, ks, h4, h5⟩ := h
      cases h5
      obtain ⟨q1, q2⟩ := hc (c, n) (by simp)
      obtain ⟨r1, r2, a, b, e, X, v, K, hm⟩ := Twist.create_spec q2 h2
      obtain ⟨j1, j2, j3, j4, j5⟩ := hm.mapping h3
      rw [r1] at j2 j3 j5
      dsimp only at q1
      intro g hg
      rcases List.mem_cons.1 hg with rfl | hg
      · exact ⟨j1, j2.trans q1, j3.trans q1, j4, fun f hf => j5 f (by rw [q1]; exact hf.1) (hf.2 (c, n) (by simp))⟩
      · have := ih (fun p hp => hc p (by simp [hp])) h4 g hg
        exact ⟨this.legal, this.source, this.target, this.kind, fun f hf => this.spares f ⟨hf.1, fun p hp => hf.2 p (by simp [hp])⟩⟩

/-- `encode_twist` makes a mapping class that keeps the edges that the curve does not meet -/
theorem encodeTwist_keeps (hS : Good S) {c : Lam Int} (hc : c.NoArcs) {power : Int} {h : Enc} (ha : c.encodeTwistWith S P power = .ok h) :
    h.Keeps c.tri (fun f => c.tri.IsLabel f ∧ c.w f = 0) := by
  unfold Lam.encodeTwistWith at ha
  rw [py_bind_eq_ok] at ha
  obtain ⟨p, h1, ha⟩ := ha
  split at ha
  · exact Enc.keeps_id hc.1.1 (fun f hf => hf.1) ha
  · simp only [py_bind_eq_ok] at ha
    obtain ⟨⟨s, g⟩, h2, comps, h3, hs, h4, i, h5, k, h6, h7⟩ := ha
    dsimp only at h3 h5 h7
    have H := hS c s g hc.1 h2
    have hsn := H.noArcs hc
    have hcomp := components_comp hS hsn h3
    have h8 := componentTwists_keeps (T := s.tri) (fun p hp => ⟨(hcomp p hp).tri, (hcomp p hp).noArcs⟩) h4
    have h9 : ∀ h ∈ hs, h.Keeps s.tri (fun f => s.tri.IsLabel f ∧ s.w f = 0) := by
      intro h hh
      have := h8 h hh
      exact ⟨this.legal, this.source, this.target, this.kind, fun f hf => this.spares f ⟨hf.1, fun p hp => (hcomp p hp).off f hf.1 hf.2⟩⟩
    have h10 := Enc.keeps_product (Enc.keeps_id hsn.1.1 (fun f hf => hf.1) h5) h9 h6
    have h11 : k.Keeps s.tri (fun f => c.tri.IsLabel f ∧ c.w f = 0) :=
      ⟨h10.legal, h10.source, h10.target, h10.kind, fun f hf => by
        obtain ⟨w1, w2⟩ := H.w hc.1 hf.1 hf.2.le
        exact h10.spares f ⟨w2, w1.trans hf.2⟩⟩
    have := (h11.conjugateBy H.legal H.kind (fun f hf => H.spares f hf.1 hf.2.le) h7).1
    rwa [H.source] at this

end Lam
end Curver
