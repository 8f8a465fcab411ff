import Verif.Spec.FlipGraph
import Verif.Model.ExploreBall
import Verif.Proofs.MultiArc
import Verif.Proofs.AllEncodings
import Verif.Proofs.Crossing
import Verif.Proofs.MultiCrush
import Verif.Props.MultiArc

/-!
# The flip graph
-/

namespace Curver
open Triangulation
namespace Lam
variable {X Y Z W L K : Lam Int} {h g : Enc}

theorem eqv_same : X.eqv Y = true ↔ Same X Y := eqv_spec

theorem Same.apply (s : Same X Y) (hX : X.Consistent) (hh : h.Legal) {X' : Lam Int} (ha : h.applyLam X = .ok X') : ∃ Y', h.applyLam Y = .ok Y' ∧ Same X' Y' := by
  have hY := s.consistent hX
  obtain ⟨⟨Y', y1, y2⟩, y3⟩ := hh.applyLam_total ⟨Y, hY, by rw [← s.1]; exact (Enc.applyLam_source ha).symm⟩
  refine ⟨Y', y3, ?_, (same_enc hh hX.1 hY.1 ha y3).1 s.2⟩
  rw [y2, (hh.undo hX.1 ha).2.1]

/-- a mapping takes neighbours to neighbours -/
theorem FlipOf.enc (h : Y.FlipOf Z) (hg : g.Legal) {Y' Z' : Lam Int} (hY : g.applyLam Y = .ok Y') (hZ : g.applyLam Z = .ok Z') : Y'.FlipOf Z' := by
  obtain ⟨⟨y1, y2⟩, ⟨z1, z2⟩, X, X', C, x1, x2, x3, u1, u2⟩ := h
  obtain ⟨A, D, a1, d1, v1⟩ := u1.enc y1 hg hY
  obtain ⟨B, D', b1, d2, v2⟩ := u2.enc z1 hg hZ
  rw [d1] at d2
  injection d2 with d2
  subst d2
  have cX := (u1.consistent y1).1
  have cX' := (u2.consistent z1).1
  refine ⟨⟨y1.enc hg hY, y2.enc y1 hg hY⟩, ⟨z1.enc hg hZ, z2.enc z1 hg hZ⟩, A, B, D, x1.enc cX hg a1, x2.enc cX' hg b1, ?_, v1, v2⟩
  by_contra q
  rw [Bool.not_eq_false, eqv_same] at q
  have := (same_enc hg cX.1 cX'.1 a1 b1).2 q.2
  have : X.eqv X' = true := eqv_same.2 ⟨(Enc.applyLam_source a1).symm.trans (Enc.applyLam_source b1), this⟩
  rw [x3] at this
  cases this

theorem FlipOf.tri (h : Y.FlipOf Z) : Z.tri = Y.tri := by
  obtain ⟨-, -, X, X', C, -, -, -, u1, u2⟩ := h
  exact u2.wf.2.2.2.symm.trans u1.wf.2.2.2

theorem FlipOf.consistent (h : Y.FlipOf Z) : Z.Consistent := h.2.1.1

theorem WithinFlips.tri {n : Nat} (h : WithinFlips n Y Z) : Z.tri = Y.tri := by
  induction h with
  | here e => exact (eqv_same.1 e).1.symm
  | step e _ ih => exact ih.trans e.tri

theorem WithinFlips.consistent {n : Nat} (h : WithinFlips n Y Z) (hY : Y.Consistent) : Z.Consistent := by
  induction h with
  | here e => exact (eqv_same.1 e).consistent hY
  | step e _ ih => exact ih e.consistent

theorem WithinFlips.triangulation {n : Nat} (h : WithinFlips n Y Z) (hY : Y.IsTriangulation) : Z.IsTriangulation := by
  induction h with
  | here e => exact hY.same (eqv_same.1 e)
  | step e _ ih => exact ih e.2.1.2

theorem WithinFlips.enc {n : Nat} (h : WithinFlips n Y Z) (hc : Y.Consistent) (hg : g.Legal) : ∀ {Y' Z' : Lam Int}, g.applyLam Y = .ok Y' → g.applyLam Z = .ok Z' → WithinFlips n Y' Z' := by
  induction h with
  | here e =>
    intro Y' Z' hY hZ
    obtain ⟨Z2, z1, z2⟩ := (eqv_same.1 e).apply hc hg hY
    rw [z1] at hZ
    injection hZ with hZ
    exact .here (eqv_same.2 (hZ ▸ z2))
  | step e q ih =>
    intro Y' Z' hY hZ
    rename_i n Y Z W
    obtain ⟨⟨A, a1, a2⟩, a3⟩ := hg.applyLam_total ⟨Z, e.consistent, by rw [e.tri]; exact (Enc.applyLam_source hY).symm⟩
    exact .step (e.enc hg hY a3) (ih e.consistent a3 hZ)

theorem WithinFlips.mono {n m : Nat} (h : WithinFlips n Y Z) : n ≤ m → WithinFlips m Y Z := by
  induction h generalizing m with
  | here e => intro _; exact .here e
  | step e _ ih =>
    intro hm
    obtain ⟨m, rfl⟩ : ∃ k, m = k + 1 := ⟨m - 1, by omega⟩
    exact .step e (ih (by omega))

theorem FlipOf.symm (h : Y.FlipOf Z) : Z.FlipOf Y := by
  obtain ⟨h1, h2, X, X', C, x1, x2, x3, u1, u2⟩ := h
  refine ⟨h2, h1, X', X, C, x2, x1, ?_, u2, u1⟩
  by_contra q
  rw [Bool.not_eq_false, eqv_same] at q
  rw [eqv_same.2 q.symm] at x3
  cases x3

/-! ## The neighbours of the edges of a triangulation -/

theorem asLamination_w {T : Triangulation} {x : Int} (hx : T.IsLabel x) : T.asLamination.w x = -1 := by
  have := idx_lt hx
  unfold Lam.w asLamination
  dsimp only
  rw [List.getElem?_replicate, if_pos this]
  rfl

theorem flipWeight_zero (k : Int) : flipWeight 0 0 0 0 k = .ok (-k) := by
  unfold flipWeight
  by_cases q : k ≤ 0
  · by_cases r : k ≥ 0
    · have : k = 0 := le_antisymm q r
      subst this; simp
    · have : ¬ (0 : Int) ≤ k := r
      simp [q, this]
  · have : (0 : Int) ≤ k := by omega
    simp [this]

theorem side_ne {T : Triangulation} (hT : T.Valid) {e a b : Int} (h : T.Flippable e) (hg : T.Glues e a b) : (a ≠ e ∧ a ≠ inv e) ∧ b ≠ e ∧ b ≠ inv e := by
  have n := hT.comp.glues_ne hg
  obtain ⟨t, t1, t2, t3, t4, -⟩ := hg.exists_tri
  refine ⟨⟨n.1.symm, ?_⟩, n.2.2, ?_⟩
  · rintro rfl; exact h.2 ⟨t, t1, t2, t3⟩
  · rintro rfl; exact h.2 ⟨t, t1, t2, t4⟩

theorem flippable_inv {T : Triangulation} {e : Int} (h : T.Flippable e) : T.Flippable (inv e) := by
  refine ⟨isLabel_inv.2 h.1, ?_⟩
  rw [Curver.inv_inv]
  rintro ⟨t, t1, t2, t3⟩
  exact h.2 ⟨t, t1, t3, t2⟩

theorem label_congr {T T' : Triangulation} (h : T'.zeta = T.zeta) {x : Int} : T'.IsLabel x ↔ T.IsLabel x := by
  unfold Triangulation.IsLabel
  rw [h]

/-- flipping an edge whose square is not crossed -/
theorem flipsTo_edge {e : Int} (hZ : Z.WellFormed) (he : Z.tri.Flippable e) (hn : ∀ x, Z.tri.IsLabel x → x ≠ e → x ≠ inv e → Z.w x ≤ 0) (hK : FlipsTo [e] Z K) : K.w e = - Z.w e := by
  obtain ⟨a, b, h1⟩ := hZ.1.comp.exists_glues he.1
  obtain ⟨c, d, h2⟩ := hZ.1.comp.exists_glues (isLabel_inv.2 he.1)
  have := hK.new e (by simp) a b c d h1 h2
  have l1 := hZ.1.comp.label_of_glues h1
  have l2 := hZ.1.comp.label_of_glues h2
  have n1 := side_ne hZ.1 he h1
  have n2 := side_ne hZ.1 (flippable_inv he) h2
  rw [Curver.inv_inv] at n2
  rw [max_eq_right (hn a l1.2.1 n1.1.1 n1.1.2), max_eq_right (hn b l1.2.2 n1.2.1 n1.2.2), max_eq_right (hn c l2.2.1 n2.1.2 n2.1.1), max_eq_right (hn d l2.2.2 n2.2.2 n2.2.1), flipWeight_zero] at this
  injection this with this
  exact this.symm

/-- what the single flip does -/
theorem flip_acts {T : Triangulation} (hT : T.Valid) {e : Int} {m : LMove} (hm : T.encodeFlip e = .ok m) :
    ∃ g : Enc, g.Legal ∧ g.source = T ∧ g.target = m.move.target ∧ m.move.target.Valid ∧ m.move.target.zeta = T.zeta ∧ T.Flippable e ∧ T.IsMultiflip [e] m.move.target ∧
      (∀ L K : Lam Int, L.tri = T → (g.applyLam L = .ok K ↔ m.move.applyLam L = .ok K)) ∧
      ∀ L K : Lam Int, L.WellFormed → L.tri = T → (m.move.applyLam L = .ok K ↔ K.tri = m.move.target ∧ FlipsTo [e] L K) := by
  have hf : AllEnc.Flips T [e] [m] m.move.target := by
    obtain ⟨T', -, t1, rfl⟩ := hT.encodeFlip_ok_iff.1 hm
    exact (AllEnc.flips_cons hT).2 ⟨_, [], hm, rfl, (AllEnc.flips_nil t1.valid).2 ⟨rfl, rfl⟩⟩
  have hl := hf.enc_legal (by simp)
  obtain ⟨T', t0, t1, rfl⟩ := hT.encodeFlip_ok_iff.1 hm
  refine ⟨_, hl, rfl, rfl, t1.valid, t1.zeta, t0, t1, ?_, ?_⟩
  · intro L K ht
    rw [Enc.applyLam_eq, if_pos (by exact ht.symm)]
    show performLam ([LMove.mk _ _].reverse.reverse) L = _ ↔ _
    simp only [List.reverse_reverse, performLam]
    cases Move.applyLam _ L <;> simp
  · intro L K hL ht
    subst ht
    exact ef_applyLam_iff hL t0

/-- the neighbours of the edges of the triangulation are what flips take to the edges of the new triangulation -/
theorem flipOf_edges {T : Triangulation} (hT : T.Valid) (hZ : Z.Consistent) (ht : Z.tri = T) :
    T.asLamination.FlipOf Z ↔ ∃ e m K, 0 ≤ e ∧ T.encodeFlip e = .ok m ∧ m.move.applyLam Z = .ok K ∧ Same K m.move.target.asLamination := by
  have cT := hT.asLamination_consistent
  have tT : T.asLamination.IsTriangulation := isTriangulation_of_edges cT (fun x hx => asLamination_w hx)
  constructor
  · rintro ⟨-, ⟨-, tZ⟩, X, X', C, x1, x2, x3, u1, u2⟩
    have wX := u1.wf
    have wX' := u2.wf
    obtain ⟨i, hi, -, ei⟩ := nonpos_part cT (fun x hx => by rw [asLamination_w (T := T) hx]; decide) ⟨x1, C, u1⟩
    have li : T.IsLabel i := isLabel_index hi
    have i0 : 0 ≤ i := (mem_indices.1 hi).1
    have wXe : ∀ x, T.IsLabel x → X.w x = if x = i ∨ x = inv i then -1 else 0 := by
      intro x hx
      rw [← arc_w (T := T) hx]
      unfold Lam.w; rw [ei]; rfl
    have wC : ∀ x, T.IsLabel x → x ≠ i → x ≠ inv i → C.w x = -1 := by
      intro x hx n1 n2
      have := u1.sum cT.1 hx
      rw [asLamination_w hx, wXe x hx, if_neg (by tauto)] at this
      omega
    have wCi : C.w i = 0 := by
      have := u1.sum cT.1 li
      rw [asLamination_w li, wXe i li, if_pos (.inl rfl)] at this
      omega
    have neg : ∀ x, T.IsLabel x → x ≠ i → x ≠ inv i → X'.w x ≤ 0 := by
      intro x hx n1 n2
      have := (u2.symm.signs (x := x) (by rw [ht]; exact hx)).2 (by rw [wC x hx n1 n2]; decide)
      exact this
    have sumZ : ∀ x, T.IsLabel x → Z.w x = X'.w x + C.w x := fun x hx => u2.sum hZ.1 (by rw [ht]; exact hx)
    have tri' : X'.tri = T := wX'.2.2.1.trans ht
    have pos : 0 < X'.w i := by
      by_contra q
      rw [not_lt] at q
      have all : ∀ x, T.IsLabel x → X'.w x ≤ 0 := by
        intro x hx
        by_cases q1 : x = i
        · rw [q1]; exact q
        by_cases q2 : x = inv i
        · rw [q2, w_inv]; exact q
        exact neg x hx q1 q2
      have hle : ∀ x, Z.tri.IsLabel x → Z.w x ≤ 0 := by
        intro x hx
        rw [ht] at hx
        rw [sumZ x hx]
        have := all x hx
        by_cases q1 : x = i ∨ x = inv i
        · have : C.w x = 0 := by rcases q1 with rfl | rfl; exact wCi; rw [w_inv]; exact wCi
          omega
        · have := wC x hx (by tauto) (by tauto)
          omega
      have h1 := edges_of_isTriangulation hZ hle tZ
      -- so `X'` is the same edge
      have hi' := h1 i (by rw [ht]; exact li)
      rw [sumZ i li, wCi] at hi'
      have := x2.of_neg wX'.1 (f := i) (by rw [tri']; exact li) (by omega)
      have : X.eqv X' = true := eqv_same.2 ⟨by rw [tri', wX.2.2.1]; rfl, by rw [this, ei, tri']; rfl⟩
      rw [x3] at this
      cases this
    have zero : ∀ x, T.IsLabel x → x ≠ i → x ≠ inv i → X'.w x = 0 := by
      intro x hx n1 n2
      by_contra q
      have h1 : X'.w x < 0 := lt_of_le_of_ne (neg x hx n1 n2) q
      have h2 := x2.of_neg wX'.1 (f := x) (by rw [tri']; exact hx) h1
      have : X'.w i = (T.edgeArcOf x : Lam Int).w i := by unfold Lam.w; rw [h2, tri']
      rw [this, arc_w li] at pos
      split_ifs at pos <;> omega
    have cX' := (u2.consistent hZ).1
    have flp : T.Flippable i := by
      refine ⟨li, fun hst => ?_⟩
      have hc := hT.comp
      refine tZ.onlyArcs hZ X' ⟨x2, C, u2⟩ (noArcs_iff.2 ⟨cX', ?_⟩)
      intro a b c hg
      rw [tri'] at hg
      have l := hc.label_of_glues hg
      have n := hc.glues_ne hg
      have pos' : X'.w (inv i) = X'.w i := w_inv _ _
      have same : ∀ u v w, T.Glues u v w → u = i → v = inv i ∨ w = inv i := by
        intro u v w hg e
        subst e
        rcases (hc.sameTriangle_iff li).1 hst with q | q | q
        · exact absurd q (Curver.inv_ne _)
        · exact .inl (((hc.glues_iff li).1 hg).1.trans q.symm)
        · exact .inr (((hc.glues_iff li).1 hg).2.trans q.symm)
      have same' : ∀ u v w, T.Glues u v w → u = inv i → v = i ∨ w = i := by
        intro u v w hg e
        have hst' : T.SameTriangle (inv i) i := by
          obtain ⟨t, t1, t2, t3⟩ := hst
          exact ⟨t, t1, t3, t2⟩
        have li' := isLabel_inv.2 li
        subst e
        rcases (hc.sameTriangle_iff li').1 hst' with q | q | q
        · exact absurd q.symm (Curver.inv_ne _)
        · exact .inl (((hc.glues_iff li').1 hg).1.trans q.symm)
        · exact .inr (((hc.glues_iff li').1 hg).2.trans q.symm)
      have nn : ∀ x, T.IsLabel x → 0 ≤ X'.w x := by
        intro x hx
        by_cases q1 : x = i
        · rw [q1]; omega
        by_cases q2 : x = inv i
        · rw [q2, pos']; omega
        rw [zero x hx q1 q2]
      refine ⟨nn a l.1, ?_⟩
      have hb := nn b l.2.1
      have hc' := nn c l.2.2
      by_cases q1 : a = i
      · rcases same a b c hg q1 with q | q
        · rw [q1, q, pos']; omega
        · rw [q1, q, pos']; omega
      by_cases q2 : a = inv i
      · rcases same' a b c hg q2 with q | q
        · rw [q2, q, pos']; omega
        · rw [q2, q, pos']; omega
      rw [zero a l.1 q1 q2]; omega
    obtain ⟨T', t1, t2⟩ := hT.encodeFlip_eq flp
    obtain ⟨g, g1, g2, g3, g4, g5, g6, g7, g8, g9⟩ := flip_acts hT t2
    obtain ⟨⟨K, cK, tK⟩, hK⟩ := g1.applyLam_total ⟨Z, hZ, by rw [ht, g2]⟩
    have aK := (g8 Z K ht).1 hK
    obtain ⟨f1, f2⟩ := (g9 Z K hZ.1 ht).1 aK
    refine ⟨i, _, K, i0, t2, aK, ?_⟩
    have wK : ∀ x, K.tri.IsLabel x → K.w x ≤ 0 := by
      intro x hx
      rw [f1] at hx
      have hx' : T.IsLabel x := (label_congr g5).1 hx
      have key : K.w i ≤ 0 := by
        rw [flipsTo_edge hZ.1 (by rw [ht]; exact flp) (fun y hy n1 n2 => by
          rw [ht] at hy
          rw [sumZ y hy, zero y hy n1 n2, wC y hy n1 n2]; decide) f2, sumZ i li, wCi]
        omega
      by_cases q1 : x = i
      · rw [q1]; exact key
      by_cases q2 : x = inv i
      · rw [q2, w_inv]; exact key
      rw [f2.kept x (by rw [ht]; exact hx') (fun e he => by simp only [List.mem_singleton] at he; subst he; exact ⟨q1, q2⟩), sumZ x hx', zero x hx' q1 q2, wC x hx' q1 q2]
      decide
    have := edges_of_isTriangulation cK wK (tZ.enc hZ g1 hK)
    refine same_of_w cK.1 g4.asLamination_consistent.1 f1 (fun x hx => ?_)
    rw [this x hx, asLamination_w (by rw [← f1]; exact hx)]
  · rintro ⟨e, m, K, e0, hm, aK, sK⟩
    obtain ⟨g, g1, g2, g3, g4, g5, g6, g7, g8, g9⟩ := flip_acts hT hm
    have hK := (g8 Z K ht).2 aK
    have le' : m.move.target.IsLabel e := (label_congr g5).2 g6.1
    have cK := hZ.enc g1 hK
    have tK : K.IsTriangulation := (isTriangulation_of_edges g4.asLamination_consistent (fun x hx => asLamination_w hx)).same sK.symm
    have uK := g1.undo hZ.1 hK
    refine ⟨⟨cT, tT⟩, ⟨hZ, tK.enc cK g1.inv' uK.2.2.2⟩, ?_⟩
    have tKm : K.tri = m.move.target := sK.1
    obtain ⟨N', hN'⟩ := arc_union (L := K) cK.1 (f := e) (by rw [sK.w, asLamination_w le']; decide)
    rw [tKm] at hN'
    obtain ⟨X', C, a1, a2, u⟩ := hN'.enc cK g1.inv' uK.2.2.2
    have cN := hN'.consistent cK
    have b1 := g1.undo' cN.1.1 a1
    have b2 := g1.undo' cN.2.1 a2
    obtain ⟨N, hN⟩ := arc_union (L := T.asLamination) cT.1 (f := e) (by rw [asLamination_w g6.1]; decide)
    replace hN : T.asLamination.IsUnion (T.edgeArcOf e) N := hN
    have cX' := u.consistent hZ
    have c1 := (g9 _ _ cX'.1.1 (by rw [b1.2.1, g2])).1 ((g8 _ _ (by rw [b1.2.1, g2])).1 b1.2.2.2)
    have c2 := (g9 _ _ cX'.2.1 (by rw [b2.2.1, g2])).1 ((g8 _ _ (by rw [b2.2.1, g2])).1 b2.2.2.2)
    have tX' : X'.tri = T := by rw [b1.2.1, g2]
    have tC : C.tri = T := by rw [b2.2.1, g2]
    have lab : ∀ x, T.IsLabel x → m.move.target.IsLabel x := fun x hx => (label_congr g5).2 hx
    have wN' : ∀ x, T.IsLabel x → N'.w x = if x = e ∨ x = inv e then 0 else -1 := by
      intro x hx
      have := hN'.sum cK.1 (x := x) (by rw [tKm]; exact lab x hx)
      rw [sK.w, asLamination_w (lab x hx), arc_w (lab x hx)] at this
      split_ifs at this ⊢ <;> omega
    have wN : ∀ x, T.IsLabel x → N.w x = if x = e ∨ x = inv e then 0 else -1 := by
      intro x hx
      have := hN.sum cT.1 (x := x) hx
      rw [asLamination_w hx, arc_w hx] at this
      split_ifs at this ⊢ <;> omega
    have keptC : ∀ x, T.IsLabel x → x ≠ e → x ≠ inv e → C.w x = -1 := by
      intro x hx n1 n2
      rw [← c2.2.kept x (by rw [tC]; exact hx) (fun e' he => by simp only [List.mem_singleton] at he; subst he; exact ⟨n1, n2⟩), wN' x hx, if_neg (by tauto)]
    have wCe : C.w e = 0 := by
      have := flipsTo_edge cX'.2.1 (by rw [tC]; exact g6) (fun x hx n1 n2 => by rw [keptC x (by rw [← tC]; exact hx) n1 n2]; decide) c2.2
      rw [wN' e g6.1, if_pos (.inl rfl)] at this
      omega
    have wX'e : X'.w e = 1 := by
      have := flipsTo_edge cX'.1.1 (by rw [tX']; exact g6) (fun x hx n1 n2 => by
        rw [← c1.2.kept x hx (fun e' he => by simp only [List.mem_singleton] at he; subst he; exact ⟨n1, n2⟩), arc_w (lab x (by rw [← tX']; exact hx)), if_neg (by tauto)]) c1.2
      rw [arc_w (lab e g6.1), if_pos (.inl rfl)] at this
      omega
    have sC : Same N C := by
      have wf := hN.wf
      refine same_of_w wf.2.1 cX'.2.1 (by rw [wf.2.2.2, tC]; rfl) (fun x hx => ?_)
      have hx : T.IsLabel x := by rw [wf.2.2.2] at hx; exact hx
      rw [wN x hx]
      split_ifs with q
      · rcases q with rfl | rfl
        · exact wCe.symm
        · rw [w_inv]; exact wCe.symm
      · exact (keptC x hx (by tauto) (by tauto)).symm
    refine ⟨T.edgeArcOf e, X', C, (arc_connected g6.1), (arc_connected le').enc cN.1 g1.inv' a1, ?_, hN.same hN.wf.1 hN.wf.2.1 .refl .refl sC, u⟩
    by_contra q
    rw [Bool.not_eq_false, eqv_same] at q
    have := q.w e
    rw [wX'e, arc_w g6.1, if_pos (.inl rfl)] at this
    omega

theorem FlipOf.same_left {Y' : Lam Int} (h : Y.FlipOf Z) (e : Same Y Y') : Y'.FlipOf Z := by
  obtain ⟨⟨h1, h1'⟩, h2, X, X', C, x1, x2, x3, u1, u2⟩ := h
  exact ⟨⟨e.consistent h1, h1'.same e⟩, h2, X, X', C, x1, x2, x3, u1.same u1.wf.1 u1.wf.2.1 e .refl .refl, u2⟩

theorem WithinFlips.same_left {n : Nat} {Y' : Lam Int} (h : WithinFlips n Y Z) (e : Same Y Y') : WithinFlips n Y' Z := by
  cases h with
  | here q => exact .here (eqv_same.2 (e.symm.trans (eqv_same.1 q)))
  | step q r => exact .step (q.same_left e) r

theorem WithinFlips.same_right {n : Nat} {Z' : Lam Int} (h : WithinFlips n Y Z) (e : Same Z Z') : WithinFlips n Y Z' := by
  induction h with
  | here q => exact .here (eqv_same.2 ((eqv_same.1 q).trans e))
  | step q r ih => exact .step q (ih e)

/-- the ball around the edges of a triangulation -/
theorem within_iff (n : Nat) {T : Triangulation} (hT : T.Valid) {Z : Lam Int} (hZ : Z.Consistent) (ht : Z.tri = T) : WithinFlips n T.asLamination Z ↔
    ∃ es ms U K, es.length ≤ n ∧ (∀ e ∈ es, 0 ≤ e) ∧ AllEnc.Flips T es ms U ∧ performLam ms Z = .ok K ∧ Same K U.asLamination := by
  induction n generalizing T Z with
  | zero =>
    constructor
    · intro h
      cases h with
      | here q => exact ⟨[], [], T, Z, by simp, by simp, (AllEnc.flips_nil hT).2 ⟨rfl, rfl⟩, rfl, (eqv_same.1 q).symm⟩
    · rintro ⟨es, ms, U, K, h1, h2, h3, h4, h5⟩
      obtain rfl : es = [] := List.eq_nil_of_length_eq_zero (by omega)
      obtain ⟨rfl, rfl⟩ := (AllEnc.flips_nil hT).1 h3
      injection h4 with h4
      subst h4
      exact .here (eqv_same.2 h5.symm)
  | succ n ih =>
    constructor
    · intro h
      cases h with
      | here q => exact ⟨[], [], T, Z, by simp, by simp, (AllEnc.flips_nil hT).2 ⟨rfl, rfl⟩, rfl, (eqv_same.1 q).symm⟩
      | step q r =>
        rename_i Z1
        obtain ⟨e, m, K, e0, hm, aK, sK⟩ := (flipOf_edges hT q.consistent q.tri).1 q
        obtain ⟨g, g1, g2, g3, g4, g5, g6, g7, g8, g9⟩ := flip_acts hT hm
        obtain ⟨⟨Z', z1, z2⟩, z3⟩ := g1.applyLam_total ⟨Z, hZ, by rw [ht, g2]⟩
        have := (r.enc q.consistent g1 ((g8 _ _ q.tri).2 aK) z3).same_left sK
        obtain ⟨es, ms, U, M, h1, h2, h3, h4, h5⟩ := (ih g4 z1 (by rw [z2, g3])).1 this
        refine ⟨e :: es, m :: ms, U, M, by simpa using h1, ?_, (AllEnc.flips_cons hT).2 ⟨m, ms, hm, rfl, h3⟩, ?_, h5⟩
        · intro x hx
          rcases List.mem_cons.1 hx with rfl | hx
          · exact e0
          · exact h2 x hx
        · unfold Curver.performLam
          rw [(g8 _ _ ht).1 z3, py_bind_ok]
          exact h4
    · rintro ⟨es, ms, U, K, h1, h2, h3, h4, h5⟩
      cases es with
      | nil =>
        obtain ⟨rfl, rfl⟩ := (AllEnc.flips_nil hT).1 h3
        injection h4 with h4
        subst h4
        exact .here (eqv_same.2 h5.symm)
      | cons e es =>
        obtain ⟨m, ns, hm, rfl, h6⟩ := (AllEnc.flips_cons hT).1 h3
        unfold Curver.performLam at h4
        rw [py_bind_eq_ok] at h4
        obtain ⟨Z1, a1, a2⟩ := h4
        obtain ⟨g, g1, g2, g3, g4, g5, g6, g7, g8, g9⟩ := flip_acts hT hm
        have hZ1 := (g8 _ _ ht).2 a1
        have uZ := g1.undo hZ.1 hZ1
        have cZ1 := hZ.enc g1 hZ1
        have w := (ih g4 cZ1 (by rw [uZ.2.1, g3])).2 ⟨es, ns, U, K, by simpa using h1, fun x hx => h2 x (List.mem_cons_of_mem _ hx), h6, a2, h5⟩
        have cA := g4.asLamination_consistent
        obtain ⟨⟨Y1, y1, y2⟩, y3⟩ := g1.inv'.applyLam_total ⟨m.move.target.asLamination, cA, by show m.move.target = g.target; rw [g3]⟩
        have uY := g1.undo' cA.1 y3
        have tY : Y1.tri = T := by rw [uY.2.1, g2]
        refine .step ((flipOf_edges hT y1 tY).2 ⟨e, m, _, h2 e (by simp), hm, (g8 _ _ tY).1 uY.2.2.2, .refl⟩) (w.enc cA g1.inv' y3 uZ.2.2.2)

/-- the ball in terms of `all_encodings` -/
theorem within_iff_encodings (n : Nat) {T : Triangulation} (hT : T.Valid) {gs : List Enc} (h : allEncodings n T = .ok gs) {Z : Lam Int} (hZ : Z.Consistent) (ht : Z.tri = T) :
    WithinFlips n T.asLamination Z ↔ ∃ E ∈ gs, ∃ K, E.applyLam Z = .ok K ∧ Same K E.target.asLamination := by
  rw [within_iff n hT hZ ht]
  obtain ⟨gs', h1, -, h3⟩ := AllEnc.allEncodings_spec n hT
  rw [h] at h1
  injection h1 with h1
  subst h1
  obtain ⟨i, i1, i2, i3, i4, i5, i6, -⟩ := hT.idEncoding_spec
  have act : ∀ ms U, (AllEnc.enc T ms U).applyLam Z = performLam ms Z := by
    intro ms U
    rw [Enc.applyLam_eq, if_pos (by exact ht.symm)]
    show performLam ms.reverse.reverse Z = _
    rw [List.reverse_reverse]
  constructor
  · rintro ⟨es, ms, U, K, e1, e2, e3, e4, e5⟩
    by_cases q : es = []
    · subst q
      obtain ⟨rfl, rfl⟩ := (AllEnc.flips_nil hT).1 e3
      injection e4 with e4
      subst e4
      exact ⟨_, (h3 _).2 (.inl i1), Z, i6 Int Z hZ.1 ht, by rw [i5]; exact e5⟩
    · exact ⟨_, (h3 _).2 (.inr ⟨es, ms, U, q, e1, e2, e3, rfl⟩), K, by rw [act]; exact e4, e5⟩
  · rintro ⟨E, hE, K, k1, k2⟩
    rcases (h3 E).1 hE with q | ⟨es, ms, U, -, e1, e2, e3, rfl⟩
    · rw [i1] at q
      injection q with q
      subst q
      rw [i6 Int Z hZ.1 ht] at k1
      injection k1 with k1
      subst k1
      rw [i5] at k2
      exact ⟨[], [], T, Z, by simp, by simp, (AllEnc.flips_nil hT).2 ⟨rfl, rfl⟩, rfl, k2⟩
    · rw [act] at k1
      exact ⟨es, ms, U, K, e1, e2, e3, k1, k2⟩

/-! ## `explore_ball` -/

theorem addTo_fold {α : Type _} (F : α → Py (Lam Int)) : ∀ {l : List α} {acc r : List (Lam Int)}, l.foldlM (fun s x => do let B ← F x; return addTo s B) acc = .ok r →
    (∀ Z, (∃ K ∈ r, Same K Z) ↔ (∃ K ∈ acc, Same K Z) ∨ ∃ x ∈ l, ∃ B, F x = .ok B ∧ Same B Z) ∧
    (acc.Pairwise (fun A B => A.eqv B = false) → r.Pairwise (fun A B => A.eqv B = false)) ∧ ∀ x ∈ l, ∃ B, F x = .ok B := by
  intro l
  induction l with
  | nil =>
    intro acc r h
    injection h with h
    subst h
    simp
  | cons x l ih =>
    intro acc r h
    rw [List.foldlM_cons, py_bind_eq_ok] at h
    obtain ⟨acc', h1, h2⟩ := h
    rw [py_bind_eq_ok] at h1
    obtain ⟨B, b1, b2⟩ := h1
    injection b2 with b2
    obtain ⟨k1, k2, k3⟩ := ih h2
    have key : (∀ Z, (∃ K ∈ acc', Same K Z) ↔ (∃ K ∈ acc, Same K Z) ∨ Same B Z) ∧ (acc.Pairwise (fun A B => A.eqv B = false) → acc'.Pairwise (fun A B => A.eqv B = false)) := by
      subst b2
      unfold addTo
      split_ifs with q
      · rw [List.any_eq_true] at q
        obtain ⟨C, c1, c2⟩ := q
        refine ⟨fun Z => ⟨.inl, ?_⟩, id⟩
        rintro (h | h)
        · exact h
        · exact ⟨C, c1, (eqv_same.1 c2).trans h⟩
      · refine ⟨fun Z => ?_, fun hp => List.pairwise_append.2 ⟨hp, List.pairwise_singleton _ _, ?_⟩⟩
        · simp only [List.mem_append, List.mem_singleton]
          constructor
          · rintro ⟨K, h | rfl, e⟩
            · exact .inl ⟨K, h, e⟩
            · exact .inr e
          · rintro (⟨K, h, e⟩ | e)
            · exact ⟨K, .inl h, e⟩
            · exact ⟨B, .inr rfl, e⟩
        · intro A hA C hC
          rw [List.mem_singleton] at hC
          subst hC
          simp only [List.any_eq_true, not_exists, not_and, Bool.not_eq_true] at q
          exact q A hA
    refine ⟨fun Z => ?_, fun hp => k2 (key.2 hp), ?_⟩
    · rw [k1 Z, key.1 Z, or_assoc]
      refine or_congr Iff.rfl ?_
      constructor
      · rintro (h | ⟨y, y1, y2⟩)
        · exact ⟨x, by simp, B, b1, h⟩
        · exact ⟨y, List.mem_cons_of_mem _ y1, y2⟩
      · rintro ⟨y, y1, C, y2, y3⟩
        rcases List.mem_cons.1 y1 with rfl | y1
        · rw [b1] at y2
          injection y2 with y2
          exact .inl (y2 ▸ y3)
        · exact .inr ⟨y, y1, C, y2, y3⟩
    · intro y hy
      rcases List.mem_cons.1 hy with rfl | hy
      · exact ⟨B, b1⟩
      · exact k3 y hy

/-- an edge is a component of the lamination of all edges -/
theorem edge_part {T : Triangulation} (hT : T.Valid) {e : Int} (he : T.IsLabel e) : T.asLamination.HasPart (T.edgeArcOf e) := by
  obtain ⟨N, hN⟩ := arc_union (L := T.asLamination) hT.asLamination_consistent.1 (f := e) (by rw [asLamination_w he]; decide)
  exact ⟨arc_connected he, N, hN⟩

/-- what is left of `explore_ball` after shortening -/
theorem explore_spec {P : Lam Int → Py LamClass} {dflt slow : Int → Int → Bool} {n : Nat} (hL : L.Consistent) {s : Lam Int} (hs : L.shortenAll P dflt n slow = .ok (s, g)) (radius : Nat) {gs : List Enc}
    (he : s.tri.allEncodings radius = .ok gs) {r : List (Lam Int)}
    (hr : gs.foldlM (fun triangulations encoding => do
      let T := encoding.target.asLamination
      let ci ← g.inverse
      let ei ← encoding.inverse
      let A ← ei.applyLam T
      let B ← ci.applyLam A
      return addTo triangulations B) [] = .ok r) :
    ∃ Y, g.inv'.applyLam s.tri.asLamination = .ok Y ∧ Y.Consistent ∧ Y.tri = L.tri ∧ Y.IsTriangulation ∧ (L.OnlyHasArcs → ∀ X, L.HasPart X → Y.HasPart X) ∧ r.Pairwise (fun A B => A.eqv B = false) ∧
      ∀ Z, (∃ K ∈ r, K.eqv Z = true) ↔ WithinFlips radius Y Z := by
  obtain ⟨l, l1, l2, cs, K, k1, cK, k2, k3⟩ := shorten_same hL hs
  have hT := cs.1.1
  have cA := hT.asLamination_consistent
  obtain ⟨⟨Y, y1, y2⟩, y3⟩ := l.inv'.applyLam_total ⟨s.tri.asLamination, cA, by show s.tri = g.target; rw [l2]⟩
  have uY := l.undo' cA.1 y3
  have tT : s.tri.asLamination.IsTriangulation := isTriangulation_of_edges cA (fun x hx => asLamination_w hx)
  have tY : Y.tri = L.tri := by rw [uY.2.1, l1]
  obtain ⟨f1, f2, f3⟩ := addTo_fold (fun encoding : Enc => do
      let ci ← g.inverse
      let ei ← encoding.inverse
      let A ← ei.applyLam encoding.target.asLamination
      let B ← ci.applyLam A
      return B) (l := gs) (acc := []) (r := r) (by
    rw [← hr]
    congr 1
    funext s x
    cases g.inverse <;> try rfl
    cases x.inverse <;> try rfl
    rename_i ci ei
    show _ = ((ei.applyLam x.target.asLamination) >>= fun A => ci.applyLam A >>= fun B => _)
    cases q : ei.applyLam x.target.asLamination <;> simp [q] <;> try rfl)
  have leg := (C77_legal radius s.tri hT gs he).1
  refine ⟨Y, y3, y1, tY, tT.enc cA l.inv' y3, ?_, f2 List.Pairwise.nil, ?_⟩
  · intro hA X hX
    obtain ⟨X1, x1, x2⟩ := hX.enc hL l k1
    have x3 := x2.same k2
    obtain ⟨i, i1, -, i3⟩ := nonpos_part cs (hA.short hL hs) x3
    have := (edge_part hT (isLabel_index i1)).same' (Y := X1) ⟨by rw [(x3.consistent cs).2]; rfl, i3.symm⟩
    obtain ⟨X2, z1, z2⟩ := this.enc cA l.inv' y3
    rw [(l.undo (hX.consistent hL).1.1 x1).2.2.2] at z1
    injection z1 with z1
    rw [z1]; exact z2
  · intro Z
    have val : ∀ E ∈ gs, ∀ B, (do
        let ci ← g.inverse
        let ei ← E.inverse
        let A ← ei.applyLam E.target.asLamination
        let B ← ci.applyLam A
        return B : Py (Lam Int)) = .ok B → ∃ A, B.Consistent ∧ B.tri = L.tri ∧ g.applyLam B = .ok A ∧ A.Consistent ∧ E.applyLam A = .ok E.target.asLamination := by
      intro E hE B h
      rw [Enc.inverse_eq l, Enc.inverse_eq (leg E hE).1] at h
      simp only [py_bind_eq_ok, py_bind_ok] at h
      obtain ⟨A, a1, a2⟩ := h
      have cE := (leg E hE).1.path.valid_target.asLamination_consistent
      have cA' := cE.enc (leg E hE).1.inv' a1
      have uA := (leg E hE).1.undo' cE.1 a1
      have uB := l.undo' cA'.1 a2
      exact ⟨A, cA'.enc l.inv' a2, by rw [uB.2.1, l1], uB.2.2.2, cA', uA.2.2.2⟩
    constructor
    · rintro ⟨K', q1, q2⟩
      rcases (f1 Z).1 ⟨K', q1, eqv_same.1 q2⟩ with ⟨_, h, -⟩ | ⟨E, hE, B, b1, b2⟩
      · cases h
      obtain ⟨A, a1, a2, a3, a4, a5⟩ := val E hE B b1
      have := (within_iff_encodings radius hT he a4 (by rw [(l.undo a1.1 a3).2.1, l2])).2 ⟨E, hE, _, a5, .refl⟩
      exact (this.enc cA l.inv' y3 (l.undo a1.1 a3).2.2.2).same_right b2
    · intro h
      have cZ := h.consistent y1
      have tZ : Z.tri = L.tri := h.tri.trans tY
      obtain ⟨⟨A, a1, a2⟩, a3⟩ := l.applyLam_total ⟨Z, cZ, by rw [tZ, l1]⟩
      have w := h.enc y1 l uY.2.2.2 a3
      obtain ⟨E, hE, M, m1, m2⟩ := (within_iff_encodings radius hT he a1 (by rw [a2, l2])).1 w
      obtain ⟨B, b1⟩ := f3 E hE
      have uZ := l.undo cZ.1 a3
      obtain ⟨A', p1, p2, p3, p4, p5⟩ := val E hE B b1
      have uM := (leg E hE).1.undo a1.1 m1
      have cM := a1.enc (leg E hE).1 m1
      have e1 : Same A' A := ⟨by rw [(l.undo p1.1 p3).2.1, a2], (same_enc (leg E hE).1 p4.1 a1.1 p5 m1).2 m2.2.symm⟩
      have e2 : Same B Z := ⟨by rw [p2, tZ], (same_enc l p1.1 cZ.1 p3 a3).2 e1.2⟩
      obtain ⟨K', q1, q2⟩ := (f1 Z).2 (.inr ⟨E, hE, B, b1, e2⟩)
      exact ⟨K', q1, eqv_same.2 q2⟩

end Lam
end Curver
