import Verif.Proofs.TermClass
import Verif.Proofs.LamComponents

/-!
# The methods built on `shorten` return
-/

namespace Curver
open Triangulation

namespace Lam
variable {P : Lam Int → Py LamClass} {S : Lam Int → Py (Lam Int × Enc)} {L s c : Lam Int} {g : Enc} {D : List (Lam Int)}

/-- what `shorten` is known to return -/
structure Ended (L s : Lam Int) (g : Enc) : Prop where
  shortens : Shortens L s g
  consistent : s.Consistent
  describes : s.Describes s.cls
  stripped : s.Stripped

theorem ended {dflt slow : Int → Int → Bool} {n : Nat} (hL : L.Consistent) (h : shortenAll P dflt n slow L = .ok (s, g)) : Ended L s g := by
  have a := (shortenAll_rebuilt hL.1 h).right hL
  exact ⟨(shortenAll_spec hL.1 h).1, a.1, a.2, shortenAll_stripped hL.1 h⟩

theorem Ended.componentsMain (h : Ended L s g) : ∃ cs, ∀ S, S L = .ok (s, g) → L.componentsMain S = .ok cs := by
  obtain ⟨-, D, u1, u2⟩ := h.stripped.unions
  obtain ⟨vs, hv, μ, h1, h2, per1⟩ := peripheralComponents_ok h.consistent
  obtain ⟨par, par1⟩ := h.consistent.parallelComponents_total
  have q1 := (per_spec h.consistent u1 u2 per1).1
  have q2 := (par_spec h.consistent u1 u2 par1).1
  have hi := Enc.inverse_eq h.shortens.legal
  have li := h.shortens.legal.inv'
  have tot : ∀ Y, Basic s.tri Y → ∃ c, g.inv'.applyLam Y = .ok c := by
    intro Y hY
    have := hY.prime h.consistent.1.1
    obtain ⟨K, hK⟩ := li.applyLam_total ⟨Y, this.1.1, this.2.trans h.shortens.target.symm⟩
    exact ⟨_, hK⟩
  have fold : ∀ (α : Type) (l : List (Lam Int × (Int × α))) (d : List (Lam Int × Int)), (∀ p ∈ l, Basic s.tri p.1) → ∃ d', l.foldlM (fun (d : List (Lam Int × Int)) p => do
      let c ← g.inv'.applyLam p.1
      return setComponent d c p.2.1) d = .ok d' := by
    intro α l d hl
    refine foldlM_total ?_ d
    intro b p hp
    obtain ⟨c, hc⟩ := tot p.1 (hl p hp)
    exact ⟨_, by rw [hc, py_bind_ok]; rfl⟩
  obtain ⟨d1, e1⟩ := fold _ _ [] (fun p hp => (q1 p hp).1)
  obtain ⟨d2, e2⟩ := fold _ _ d1 (fun p hp => (q2 p hp).1)
  refine ⟨d2, fun S hS => ?_⟩
  unfold Lam.componentsMain
  rw [hS, py_bind_ok]
  dsimp only
  rw [hi, py_bind_ok, per1, py_bind_ok]
  exact (congrArg (· >>= _) e1).trans (by rw [py_bind_ok, par1, py_bind_ok]; exact e2)

theorem Ended.components (h : Ended L s g) : ∃ cs, ∀ S, S L = .ok (s, g) → L.componentsWith S = .ok cs := by
  obtain ⟨cs, hcs⟩ := h.componentsMain
  by_cases q : L.cls = .curve ∨ L.cls = .arc
  · refine ⟨[(L, 1)], fun S _ => ?_⟩
    unfold componentsWith
    rcases q with q | q <;> rw [q] <;> rfl
  · refine ⟨cs, fun S hS => ?_⟩
    push Not at q
    unfold componentsWith
    split
    · exact absurd ‹_› q.1
    · exact absurd ‹_› q.2
    · exact hcs S hS

/-! ## Twists -/

theorem isPeripheral_total (hL : L.Consistent) : ∃ b, L.isPeripheral P = .ok b := by
  obtain ⟨p, p1, -⟩ := peripheral_ok P hL
  exact ⟨_, by unfold isPeripheral; rw [p1]; rfl⟩

theorem star_isPeripheral {T : Triangulation} {v : List Int} (hv : T.Star v) : (T.curveFromCutSequence v : Lam Int).isPeripheral P = .ok true := by
  have hM : (T.curveFromCutSequence v : Lam Int).WellFormed := ⟨hv.valid, cut_length v⟩
  obtain ⟨hC, -, hm⟩ := Lam.isMult_links (M := (T.curveFromCutSequence v : Lam Int)) (m := fun e => (v.count e : Int)) hM (fun e _ => Nat.cast_nonneg _)
    (fun e f he hs => by rw [hv.valid.comp.link_consts hv.ex e f he hs]) (fun e he => by rw [link_w (T := T) v he, Nat.cast_add])
  obtain ⟨p, p1, p2, p3, p4, -⟩ := peripheral_ok P hC
  unfold isPeripheral
  rw [p1, py_bind_ok]
  have : p.eqv (T.curveFromCutSequence v) = true := by
    refine eqv_spec.2 (same_of_w ⟨by rw [p2]; exact hv.valid, by rw [p2, p3]⟩ hC.1 p2 ?_)
    intro x hx
    rw [p2] at hx
    rw [p4 x hx, (isMult_mu hC).unique hm hv.valid.comp hx, (isMult_mu hC).unique hm hv.valid.comp (isLabel_inv.2 hx), link_w (T := T) v hx, Nat.cast_add]
  rw [this]
  rfl

theorem loop_parallelEdge {T : Triangulation} {f β η : Int} {X : List Int} (h : Loop T f β η X) (hp : (T.curveFromCutSequence X : Lam Int).isPeripheral P = .ok false) :
    ∃ a, (T.curveFromCutSequence X : Lam Int).parallelEdge P = .ok a := by
  set c : Lam Int := T.curveFromCutSequence X with hc
  have ht : c.tri = T := rfl
  have hpl : Plain c.tri c := .inr ⟨f, β, η, X, h, rfl⟩
  have hB := hpl.basic.prime h.valid
  have hC : c.Consistent := hB.1.1
  obtain ⟨par, q1⟩ := hC.parallelComponents_total
  have hu : c.Unions [c] := (isComponents_self hC hB.1.2.1 hB.1.2.2).union
  have hD : ∀ Y ∈ [c], Plain c.tri Y := by
    intro Y hY; rw [List.mem_singleton.1 hY]; exact hpl
  obtain ⟨T', hall⟩ := par_tally hC hu hD q1
  have hp' := T'.perm hall
  have c1 := hp'.length_eq
  have c2 := length_flat_le T'.pos
  rw [List.length_map, List.length_map, List.length_singleton] at c1
  rw [← c1, List.length_map] at c2
  have c3 : par.length ≠ 0 := by
    intro q
    rw [List.length_eq_zero_iff.1 q] at c1
    simp [flat] at c1
  have c4 : par.length = 1 := by omega
  obtain ⟨⟨K, k, a⟩, rfl⟩ := List.length_eq_one_iff.1 c4
  have m1 := hall c.geometric (by simp)
  have m2 := T'.count (K, k) (by simp)
  have m3 : c.geometric = K.geometric := by simpa [keys] using m1
  have m4 : K.tri = c.tri := T'.tri (K, k) (by simp)
  have m5 : k = 1 := by simpa [← m3] using m2.symm
  refine ⟨a, ?_⟩
  have hshort : c.isShortCurve P = .ok true := by
    unfold isShortCurve
    rw [hp, py_bind_ok]
    simp only [Bool.false_eq_true, if_false]
    rw [q1]
    rfl
  unfold parallelEdge
  rw [hp, py_bind_ok, hshort, q1]
  have : K.eqv c = true := eqv_spec.2 ⟨m4, m3.symm⟩
  simp only [py_bind_ok, this, m5]
  rfl

/-- the twist about a component -/
theorem twist_total {T : Triangulation} {Y : Lam Int} (hY : Basic T Y) (hT : T.Valid) (hn : Y.NoArcs) (hp : Y.isPeripheral P = .ok false) {power : Int} (h0 : power ≠ 0) :
    ∃ t h, Twist.create P Y power = .ok t ∧ t.flipMapping = .ok h := by
  have hpr := hY.prime hT
  have hcls : Y.cls = .curve := (hpr.1.2.2.resolve_right (fun q => q.2 hn)).1
  have : ∃ a, Y.parallelEdge P = .ok a := by
    rcases hY with ⟨v, hv, rfl⟩ | ⟨f, hf, rfl⟩ | ⟨f, β, η, X, h, rfl⟩
    · rw [star_isPeripheral hv] at hp; cases hp
    · cases hcls
    · exact loop_parallelEdge h hp
  obtain ⟨a, ha⟩ := this
  obtain ⟨t, ht⟩ := Twist.create_ok (p := power) hn hcls ha h0
  obtain ⟨r1, r2, a', b, e, X, v, K, hm⟩ := Twist.create_spec hn ht
  obtain ⟨ms, S, F, G, m, hD, hk⟩ := hm.built
  obtain ⟨p, p1, -⟩ := Enc.pow_eq hk.legal hk.kind t.power
  exact ⟨t, p, ht, p1⟩

theorem componentTwists_total {T : Triangulation} (hT : T.Valid) {power : Int} (h0 : power ≠ 0) : ∀ {comps : List (Lam Int × Int)}, (∀ p ∈ comps, Basic T p.1 ∧ p.1.NoArcs ∧ 0 < p.2) →
    ∃ hs, componentTwists P power comps = .ok hs
  | [], _ => ⟨[], rfl⟩
  | (c, n) :: l, h => by
    obtain ⟨hs, ih⟩ := componentTwists_total hT h0 (comps := l) (fun p hp => h p (by simp [hp]))
    obtain ⟨h1, h2, h3⟩ := h (c, n) (by simp)
    obtain ⟨b, hb⟩ := isPeripheral_total (P := P) (h1.prime hT).1.1
    unfold componentTwists
    rw [hb, py_bind_ok]
    cases b with
    | true => exact ⟨hs, by rw [if_pos rfl]; exact ih⟩
    | false =>
      obtain ⟨t, k, t1, t2⟩ := twist_total h1 hT h2 hb (power := power * n) (mul_ne_zero h0 (by dsimp only at h3; omega))
      refine ⟨k :: hs, ?_⟩
      simp only [Bool.false_eq_true, if_false]
      rw [t1, py_bind_ok, t2, py_bind_ok, ih, py_bind_ok]
      rfl

theorem encProduct_total {T : Triangulation} {Q : Int → Prop} {start : Enc} {hs : List Enc} (h1 : ∀ h ∈ hs, h.Keeps T Q) : ∃ k, encProduct start hs = .ok k := by
  cases hs with
  | nil => exact ⟨start, rfl⟩
  | cons h l =>
    unfold encProduct
    have key : ∀ (l : List Enc) (h : Enc), h.Keeps T Q → (∀ h ∈ l, h.Keeps T Q) → ∃ k, l.foldlM (fun result g => g.mul result) h = .ok k := by
      intro l
      induction l with
      | nil => intro h _ _; exact ⟨h, rfl⟩
      | cons g l ih =>
        intro h hh hl
        have hg := hl g (by simp)
        obtain ⟨k, k1⟩ : ∃ k, g.mul h = .ok k := ⟨_, Enc.mul_eq hg.legal hh.legal (hg.source.trans hh.target.symm)⟩
        obtain ⟨k', k2⟩ := ih k (hg.mul hh k1) (fun x hx => hl x (by simp [hx]))
        exact ⟨k', by rw [List.foldlM_cons, k1, py_bind_ok, k2]⟩
    exact key l h (h1 h (by simp)) (fun x hx => h1 x (by simp [hx]))

theorem Ended.noArcs (h : Ended L s g) (hL : L.NoArcs) : s.NoArcs := h.shortens.noArcs hL

theorem componentsWith_spec {cs : List (Lam Int × Int)} (hL : L.Consistent) (hc : L.ClassRight) (hS : ∀ s g, S L = .ok (s, g) → Shortens L s g ∧ s.Stripped)
    (h : L.componentsWith S = .ok cs) : L.IsComponents cs := by
  have main : L.componentsMain S = .ok cs → L.IsComponents cs := by
    intro h
    obtain ⟨h1, h2, h3⟩ := componentsMain_spec hL hS h
    exact isComponents_of h1 h2 h3
  unfold componentsWith at h
  split at h
  · next e => cases h; exact isComponents_self hL (hc.1 e).1 (.inl ⟨e, (hc.1 e).2⟩)
  · next e => cases h; exact isComponents_self hL (hc.2 e).1 (.inr ⟨e, (hc.2 e).2⟩)
  · exact main h

theorem Describes.classRight (h : L.Describes L.cls) : L.ClassRight := by
  constructor <;> intro q <;> rw [q] at h <;> exact h

/-- `encode_twist`: it calls `shorten` for the multicurve, and `components` of the result calls it once more -/
theorem Ended.encodeTwist {s' : Lam Int} {g' : Enc} (h : Ended c s g) (h' : Ended s s' g') (hc : c.NoArcs) (power : Int) :
    ∃ k, ∀ S, S c = .ok (s, g) → S s = .ok (s', g') → c.encodeTwistWith S P power = .ok k := by
  obtain ⟨b, hb⟩ := isPeripheral_total (P := P) (noArcs_iff.1 hc).1
  obtain ⟨i, i1, -⟩ := hc.1.1.idEncoding_spec
  by_cases q : b = true ∨ power = 0
  · refine ⟨i, fun S _ _ => ?_⟩
    unfold encodeTwistWith
    rw [hb, py_bind_ok, if_pos q]
    exact i1
  obtain ⟨cs, hcs⟩ := h'.components
  classical
  let S₀ : Lam Int → Py (Lam Int × Enc) := fun M => if M = s then .ok (s', g') else .error .valueError
  have hS₀ : S₀ s = .ok (s', g') := if_pos rfl
  have hG : Good S₀ := by
    intro M u k hM hu
    by_cases e : M = s
    · subst e
      cases hS₀.symm.trans hu
      exact h'.shortens
    · rw [show S₀ M = .error .valueError from if_neg e] at hu
      cases hu
  have hcs₀ := hcs S₀ hS₀
  have hsn := h.noArcs hc
  have hcomp := components_comp hG hsn hcs₀
  have hI := componentsWith_spec h.consistent h.describes.classRight (fun u k hu => by
    cases hS₀.symm.trans hu
    exact ⟨h'.shortens, h'.stripped⟩) hcs₀
  obtain ⟨-, D, u1, u2⟩ := h.stripped.unions
  have hB : ∀ p ∈ cs, Basic s.tri p.1 ∧ p.1.NoArcs ∧ 0 < p.2 := by
    intro p hp
    have hn := (hcomp p hp).noArcs
    refine ⟨?_, hn, hI.mult p hp⟩
    obtain ⟨N, hN⟩ := hI.union.pull h.consistent (mem_flat hp (hI.mult p hp))
    obtain ⟨Ys1, Y, Ys2, e, hs, -⟩ := u1.find h.consistent (fun Y hY => (u2 Y hY).connected) hN (hI.connected p hp)
    have hY : Y ∈ D := by rw [e]; simp
    have hYn : Y.NoArcs := hn.cls_irrel hs.1.symm hs.2.symm
    have c1 : p.1.cls = .curve := ((hI.cls p hp).resolve_right (fun q => q.2 hn)).1
    have c2 : Y.cls = .curve := (((u2 Y hY).prime h.consistent.1.1).1.2.2.resolve_right (fun q => q.2 hYn)).1
    have : p.1 = Y := by
      obtain ⟨s1, s2⟩ := hs
      cases hh : p.1
      cases Y
      rw [hh] at s1 s2 c1
      dsimp only at s1 s2 c1 c2
      rw [s1, s2, c1, c2]
    rw [this]
    exact u2 Y hY
  push Not at q
  obtain ⟨hs, t1⟩ := componentTwists_total (P := P) h.consistent.1.1 q.2 hB
  have h8 := componentTwists_keeps (T := s.tri) (fun p hp => ⟨(hcomp p hp).tri, (hcomp p hp).noArcs⟩) t1
  obtain ⟨j, j1, -⟩ := h.consistent.1.1.idEncoding_spec
  obtain ⟨k, k1⟩ := encProduct_total (start := j) h8
  have hk := Enc.keeps_product (Enc.keeps_id h.consistent.1.1 (fun f hf => hf.1) j1) h8 k1
  obtain ⟨z, -, -, z1, -⟩ := hk.legal.conjugateBy h.shortens.legal hk.kind h.shortens.kind (h.shortens.target.trans hk.source.symm)
  refine ⟨z, fun S s1 s2 => ?_⟩
  unfold encodeTwistWith
  rw [hb, py_bind_ok, if_neg (by push Not; exact q), s1, py_bind_ok]
  dsimp only
  rw [hcs S s2, py_bind_ok, t1, py_bind_ok, j1, py_bind_ok, k1, py_bind_ok, z1]

/-! ## Intersection numbers -/

section
variable {R : Type} [CommRing R] [LinearOrder R] [IsStrictOrderedRing R] [Halvable R]

theorem mapM_total {α β : Type} {f : α → Py β} : ∀ {l : List α}, (∀ x ∈ l, ∃ y, f x = .ok y) → ∃ r, l.mapM f = .ok r ∧ r.length = l.length
  | [], _ => ⟨[], rfl, rfl⟩
  | x :: l, h => by
    obtain ⟨y, hy⟩ := h x (by simp)
    obtain ⟨r, hr, e⟩ := mapM_total (l := l) (fun z hz => h z (by simp [hz]))
    exact ⟨y :: r, by rw [List.mapM_cons, hy, py_bind_ok, hr]; rfl, by simp [e]⟩

theorem vertexCrossings_total {L : Lam R} (hL : L.Consistent) {v : List Int} (hv : ∀ x ∈ v, L.tri.IsLabel x) : ∃ y, L.vertexCrossings v = .ok y := by
  obtain ⟨r, hr, -⟩ := mapM_total (f := fun e => do
    let x ← L.wt e
    let y ← L.leftWeight e
    return max (-x) 0 + max (-y) 0) (l := v) (fun x hx => by
      obtain ⟨y, hy⟩ := leftWeight_ok hL (hv x hx)
      exact ⟨_, by rw [wt_eq hL.1.2 (hv x hx), py_bind_ok, hy, py_bind_ok]; rfl⟩)
  exact ⟨_, by unfold vertexCrossings; rw [hr, py_bind_ok]; rfl⟩

theorem leftWeight2_total {L : Lam R} (hL : L.Consistent) {x : Int} (hx : L.tri.IsLabel x) : ∃ y, L.leftWeight2 x = .ok y := by
  have hc := hL.1.1.comp
  obtain ⟨y, z, hg⟩ := hc.exists_glues hx
  have l := hc.label_of_glues hg
  unfold leftWeight2 dualWeight2
  rw [hc.corner_eq hg, py_bind_ok]
  dsimp only
  rw [hc.corner_eq hg.rot, py_bind_ok]
  dsimp only
  rw [wt_eq hL.1.2 l.2.1, py_bind_ok, wt_eq hL.1.2 l.2.2, py_bind_ok, wt_eq hL.1.2 l.1, py_bind_ok]
  exact ⟨_, rfl⟩

theorem parallelCrossings_total {L : Lam R} (hL : L.Consistent) {x : Int} (hx : L.tri.IsLabel x) {isArc : Bool} (hA : isArc = false → ∃ X v, Around L.tri x X v) :
    ∃ y, L.parallelCrossings isArc x = .ok y := by
  have hw : L.wt0 x = .ok (max (L.w x) 0) := by unfold wt0; rw [wt_eq hL.1.2 hx]; rfl
  unfold parallelCrossings
  cases isArc with
  | true => exact ⟨_, by rw [if_pos rfl]; exact hw⟩
  | false =>
    obtain ⟨X, v, hX⟩ := hA rfl
    have hs := hX.sweep hL.1.1.comp hx
    have hl : ∀ y ∈ x :: X, L.tri.IsLabel y := by
      intro y hy
      rcases List.mem_cons.1 hy with rfl | hy
      · exact hs.label
      · exact hs.labels hL.1.1.comp y hy
    obtain ⟨r, r1, r2⟩ := mapM_total (f := L.leftWeight2) (l := x :: X) (fun y hy => leftWeight2_total hL (hl y hy))
    obtain ⟨m, m1, -⟩ := maximin_zero (l := r) (by intro q; rw [q] at r2; simp at r2)
    obtain ⟨l1, l2, -⟩ := mapM_total (f := L.leftWeight) (l := x :: X) (fun y hy => leftWeight_ok hL (hl y hy))
    obtain ⟨k1, k2, -⟩ := mapM_total (f := L.wt) (l := (x :: X).drop 1) (fun y hy => ⟨_, wt_eq hL.1.2 (hl y (List.mem_of_mem_drop hy))⟩)
    simp only [Bool.false_eq_true, if_false]
    rw [hX.around rfl, py_bind_ok, r1, py_bind_ok, m1, py_bind_ok]
    unfold outWeight
    rw [l2, py_bind_ok, k2, py_bind_ok, hw]
    exact ⟨_, rfl⟩

theorem Ended.intersection {L : Lam R} (h : Ended c s g) (hL : L.Consistent) (ht : L.tri = c.tri) : ∃ x, ∀ S, S c = .ok (s, g) → c.intersectionWith S L = .ok x := by
  obtain ⟨⟨L', l1, l2⟩, l3⟩ := h.shortens.legal.applyLam_total ⟨L, hL, by rw [ht, h.shortens.source]⟩
  dsimp only at l3
  have l2' : L'.tri = s.tri := l2.trans h.shortens.target
  have hz : s.tri.zeta = L.tri.zeta := by rw [← h.shortens.target, h.shortens.legal.path.zeta, h.shortens.source, ht]
  have hlab : ∀ {x}, s.tri.IsLabel x ↔ L.tri.IsLabel x := by
    intro x; unfold Triangulation.IsLabel; rw [hz]
  obtain ⟨vs, hv, μ, h1, h2, per1⟩ := peripheralComponents_ok h.consistent
  obtain ⟨v1, v2, v3, v4⟩ := h.consistent.1.1.comp.vertices_mem hv
  obtain ⟨par, par1⟩ := h.consistent.parallelComponents_total
  have he := (parallel_entries h.consistent.1 par1).1
  obtain ⟨xs, x1, -⟩ := mapM_total (f := fun q : Lam Int × (Int × List Int) => do
    let x ← L.vertexCrossings q.2.2
    return (q.2.1 : R) * x) (l := (vs.filter (fun v => decide (0 < μ v))).map (fun v => (s.tri.curveFromCutSequence v, (μ v, v)))) (by
      intro q hq
      obtain ⟨v, hv', rfl⟩ := List.mem_map.1 hq
      obtain ⟨y, hy⟩ := vertexCrossings_total hL (v := v) (fun x hx => hlab.1 ((v2 v (List.mem_of_mem_filter hv')).2.2 x hx))
      exact ⟨_, by dsimp only; rw [hy, py_bind_ok]; rfl⟩)
  obtain ⟨ys, y1, -⟩ := mapM_total (f := fun q : Lam Int × (Int × Int) => do
    let y ← L'.parallelCrossings (decide (q.1.cls = .arc)) q.2.2
    return (q.2.1 : R) * y) (l := par) (by
      intro q hq
      obtain ⟨e1, e2⟩ := he q hq
      obtain ⟨y, hy⟩ := parallelCrossings_total (L := L') l1 (x := q.2.2) (by rw [l2']; exact e1) (isArc := decide (q.1.cls = .arc)) (by
        intro hd
        rcases e2 with ⟨e2, -⟩ | e2
        · rw [e2] at hd
          cases hd
        · obtain ⟨-, X, v, hX, -⟩ := parallelCurve_some h.consistent.1.1.comp e1 e2
          rw [l2']
          exact ⟨X, v, hX⟩)
      exact ⟨_, by rw [hy, py_bind_ok]; rfl⟩)
  refine ⟨xs.sum + ys.sum, fun S hS => ?_⟩
  unfold intersectionWith
  rw [show (L.tri == c.tri) = true by rw [ht]; simp]
  rw [show pyAssert true = .ok () from rfl, py_bind_ok, hS, py_bind_ok]
  dsimp only
  rw [l3, py_bind_ok, per1, py_bind_ok]
  exact (congrArg (· >>= _) x1).trans (by rw [py_bind_ok, par1, py_bind_ok]; exact (congrArg (· >>= _) y1).trans (by rw [py_bind_ok]; rfl))

end

end Lam
end Curver
