import Verif.Proofs.TwistDisjoint
import Verif.Proofs.Vertices

/-!
# Intersection numbers that are zero
-/

namespace Curver
open Triangulation

namespace Lam
variable {P : Lam Int → Py LamClass} {dflt : Int → Int → Bool} {fuel : Nat} {L M N S Y Z C c s : Lam Int} {T : Triangulation} {a b e f β η : Int} {X v : List Int} {k n k' n' : Int}

/-- `M` lies flat along the edge `f`: nothing crosses the curve around it -/
structure Flat (M : Lam Int) (f β η : Int) (X : List Int) (k : Int) : Prop where
  belt : M.Belt f β η X k 0
  pos : ∀ x ∈ X, 0 ≤ M.w x
  top : 0 ≤ M.lf η

theorem IsUnion.signs (h : L.IsUnion N M) {x : Int} (hx : L.tri.IsLabel x) : (0 < N.w x → 0 ≤ M.w x) ∧ (N.w x < 0 → M.w x ≤ 0) := by
  obtain ⟨red, -, h1, h2⟩ := h
  have a1 := h1.2.2 x hx
  have a2 := h2.2.2 x hx
  generalize (Nat.count (fun t => red x t = true) (L.w x).natAbs) = p at a1
  generalize (Nat.count (fun t => red x t = false) (L.w x).natAbs) = q at a2
  rw [a1, a2]
  rcases lt_trichotomy (L.w x) 0 with r | r | r
  · rw [Int.sign_eq_neg_one_of_neg r]; omega
  · rw [r]; simp
  · rw [Int.sign_eq_one_of_pos r]; omega

theorem IsUnion.flat (hS : S.Consistent) (hu : S.IsUnion (S.tri.curveFromCutSequence X) M) (hl : Loop S.tri f β η X) : ∃ k, M.Flat f β η X k := by
  obtain ⟨k, hk⟩ := belt_of_part hS hl hu
  obtain ⟨N, n1, n2⟩ := hk.union (by omega)
  have w := hu.wf
  have w' := n1.wf
  have hs : Same N M := by
    refine same_of_w w'.2.1 w.2.1 (w'.2.2.2.trans w.2.2.2.symm) (fun x hx => ?_)
    rw [w'.2.2.2] at hx
    have h1 := n1.sum hS.1 hx
    have h2 := hu.sum hS.1 hx
    omega
  have hb : M.Belt f β η X k 0 := by have := n2.same hs; simpa using this
  refine ⟨k, hb, fun x hx => ?_, ?_⟩
  · have lx := hl.label_mem (x := x) (by simp [hx])
    refine (hu.signs lx).1 ?_
    rw [curve_cn X lx]
    have := List.count_pos_iff.2 hx
    unfold cn
    omega
  · have t1 := hS.lf_tri hl.glues
    have t2 := hb.con.lf_tri hb.loop.glues
    have l := hl.valid.comp.label_of_glues hl.glues
    have m := hu.max_sub hS.1 l.1
    rw [curve_cn X l.1, hl.cn_a] at m
    obtain ⟨-, -, s3⟩ := hk.sides (by omega)
    rw [hk.first, hk.last] at t1
    rw [hb.first, hb.last, m] at t2
    have := hb.nonneg
    generalize max (S.w f) 0 = A at *
    unfold TriDual at t1 t2
    rcases t1 with t1 | t1 | t1 | t1 <;> rcases t2 with t2 | t2 | t2 | t2 <;> omega

/-- a curve around an edge can be laid beside a lamination that is flat there -/
theorem Flat.lay (h : M.Flat f β η X k) : (M.tri.curveFromCutSequence X : Lam Int).DisjointFrom M := by
  have hM := h.belt.con
  have hl := h.belt.loop
  have hc := hM.1.1.comp
  let C : Lam Int := M.tri.curveFromCutSequence X
  have hC : C.Consistent := loop_consistent hl
  let S : Lam Int := make M.tri (fun x => C.w x + M.w x) .integral
  have wS : ∀ x, M.tri.IsLabel x → S.w x = cn X x + M.w x := fun x hx => by rw [← curve_cn X hx]; exact make_w _ (fun y => by rw [w_inv, w_inv]) hx
  have mS : ∀ x, M.tri.IsLabel x → max (S.w x) 0 = cn X x + max (M.w x) 0 := by
    intro x hx
    rw [wS x hx]
    have n := cn_nonneg X x
    by_cases q : cn X x = 0
    · rw [q]; simp
    · have : 0 ≤ M.w x := by
        by_cases r : x ∈ X
        · exact h.pos x r
        · have r' : inv x ∈ X := by
            by_contra r'
            apply q
            unfold cn
            rw [List.count_eq_zero.2 r, List.count_eq_zero.2 r']
            rfl
          have := h.pos _ r'
          rwa [w_inv] at this
      omega
  have pos : ∀ x, M.tri.IsLabel x → 0 ≤ C.lf x ∧ (0 < C.lf x → 0 ≤ M.lf x) := by
    intro x hx
    by_cases q1 : x = f
    · rw [q1, hl.lf_f hC]; simp
    by_cases q2 : x = β
    · rw [q2, hl.lf_b hC]; simp
    by_cases q3 : x = η
    · rw [q3, hl.lf_e hC]; exact ⟨cn_nonneg _ _, fun _ => h.top⟩
    rw [hl.lf_other hC hx q1 q2 q3]
    refine ⟨by omega, fun q => ?_⟩
    have hx' : x ∈ X := List.count_pos_iff.1 (by omega)
    have := h.belt.room x hx' q2
    have := h.belt.nonneg
    omega
  have wf : S.WellFormed := make_wellFormed hM.1.1 _ _
  have key : ∀ x y z, M.tri.Glues x y z → TriDual (max (S.w x) 0) (max (S.w y) 0) (max (S.w z) 0) (C.lf z + M.lf z) (C.lf x + M.lf x) (C.lf y + M.lf y) := by
    intro x y z hg
    have l := hc.label_of_glues hg
    rw [mS x l.1, mS y l.2.1, mS z l.2.2]
    have t1 := hM.lf_tri hg
    have t2 := hl.lf_eq hC hg
    have t3 := hl.lf_eq hC hg.rot
    have t4 := hl.lf_eq hC hg.rot.rot
    have p1 := pos x l.1
    have p2 := pos y l.2.1
    have p3 := pos z l.2.2
    change 2 * C.lf x = _ at t2
    change 2 * C.lf y = _ at t3
    change 2 * C.lf z = _ at t4
    generalize C.lf x = c1 at *
    generalize C.lf y = c2 at *
    generalize C.lf z = c3 at *
    generalize max (M.w x) 0 = a1 at *
    generalize max (M.w y) 0 = a2 at *
    generalize max (M.w z) 0 = a3 at *
    generalize cn X x = b1 at *
    generalize cn X y = b2 at *
    generalize cn X z = b3 at *
    generalize M.lf x = d1 at *
    generalize M.lf y = d2 at *
    generalize M.lf z = d3 at *
    clear wf mS wS hg l pos
    unfold TriDual at t1 ⊢
    rcases t1 with t1 | t1 | t1 | t1
    · left; omega
    · right; left; omega
    · right; right; left; omega
    · right; right; right; omega
  have hS : S.Consistent := by
    refine ⟨wf, fun x hx => ?_⟩
    obtain ⟨y, z, hg⟩ := hc.exists_glues hx
    exact ⟨_, ((duals_iff wf hg).2 (key x y z hg)).1⟩
  have lS : ∀ x, M.tri.IsLabel x → S.lf x = C.lf x + M.lf x := by
    intro x hx
    obtain ⟨y, z, hg⟩ := hc.exists_glues hx
    have := ((duals_iff wf hg).2 (key x y z hg)).2.1
    rw [← leftWeight_eq wf hg] at this
    exact lf_eq this
  have hb : S.Belt f β η X k 1 := by
    refine ⟨hS, hl, ?_, ?_, h.belt.nonneg, fun x hx q => ?_⟩
    · rw [lS f (hl.label_mem (by simp)), hl.lf_f hC, h.belt.first, zero_add]
    · rw [lS β (hl.label_mem (by simp [hl.b_mem])), hl.lf_b hC, h.belt.last, zero_add]
    · have lx := hl.label_mem (x := x) (by simp [hx])
      rw [lS x lx]
      have r := h.belt.room x hx q
      have : 1 ≤ C.lf x := by
        have cx := List.count_pos_iff.2 hx
        by_cases q1 : x = f
        · subst q1
          have := hl.count_a
          omega
        by_cases q3 : x = η
        · rw [q3, hl.lf_e hC, hl.cn_e]; omega
        · rw [hl.lf_other hC lx q1 q q3]; omega
      omega
  obtain ⟨N, n1, -⟩ := hb.union (by omega)
  have wn := n1.wf
  refine ⟨S, hS, n1.same wn.1 wn.2.1 .refl .refl (same_of_w wn.2.1 hM.1 wn.2.2.2 (fun x hx => ?_))⟩
  rw [wn.2.2.2] at hx
  have h1 := n1.sum hS.1 hx
  have h2 := wS x hx
  change S.w x = C.w x + N.w x at h1
  rw [show C.w x = cn X x from curve_cn X hx] at h1
  omega

/-- a curve around an edge is disjoint from a lamination when that is flat there -/
theorem lay_iff (hl : Loop M.tri f β η X) : (M.tri.curveFromCutSequence X : Lam Int).DisjointFrom M ↔ ∃ k, M.Flat f β η X k :=
  ⟨fun ⟨S, s1, s2⟩ => by
    have e := s2.wf.2.2.2
    exact IsUnion.flat s1 (by rw [← e]; exact s2) (by rw [← e]; exact hl), fun ⟨_, h⟩ => h.lay⟩

theorem Consistent.leftWeight2 (hM : M.Consistent) {x : Int} (hx : M.tri.IsLabel x) : M.leftWeight2 x = .ok (2 * M.lf x) := by
  obtain ⟨y, hy⟩ := leftWeight2_total hM hx
  have h := hM.left hx
  obtain ⟨b, c, hg⟩ := hM.1.1.comp.exists_glues hx
  unfold Lam.leftWeight2 at hy ⊢
  unfold Lam.leftWeight at h
  rw [hM.1.1.comp.corner_eq hg, py_bind_ok] at hy h ⊢
  unfold Lam.dualWeight at h
  rw [hy, py_bind_ok, half_ok_iff] at h
  rw [hy]
  congr 1
  omega

/-- the number of strands that go all the way round, twice -/
def IsRound (M : Lam Int) (l : List Int) (m : Int) : Prop := 0 ≤ m ∧ (∀ x ∈ l, m ≤ max (2 * M.lf x) 0) ∧ ∃ x ∈ l, m = max (2 * M.lf x) 0

theorem crossings_value (hM : M.Consistent) (hl : Loop M.tri f β η X) (hv : Triangulation.Around M.tri f X v) : ∃ m, M.IsRound (f :: X) m ∧
    M.parallelCrossings false f = .ok (max (M.w f) 0 - m + ((((f :: X).map M.lf).map (fun x => max (-x) 0)).sum + ((X.map M.w).map (fun x => max (-x) 0)).sum)) := by
  have lab := fun x (hx : x ∈ f :: X) => hl.label_mem hx
  obtain ⟨m, m1, m2, m3, x, m4, m5⟩ := maximin_zero (l := (f :: X).map (fun x => 2 * M.lf x)) (by simp)
  obtain ⟨x', hx', rfl⟩ := List.mem_map.1 m4
  have m3' : ∀ x ∈ f :: X, m ≤ max (2 * M.lf x) 0 := fun x hx => m3 _ (List.mem_map_of_mem hx)
  have e1 : (f :: X).mapM M.leftWeight2 = .ok ((f :: X).map (fun x => 2 * M.lf x)) := mapM_ok (fun x hx => hM.leftWeight2 (lab x hx))
  have e2 : (f :: X).mapM M.leftWeight = .ok ((f :: X).map M.lf) := mapM_ok (fun x hx => hM.left (lab x hx))
  have e3 : X.mapM M.wt = .ok (X.map M.w) := mapM_ok (fun x hx => wt_eq hM.1.2 (lab x (by simp [hx])))
  have hw : M.wt0 f = .ok (max (M.w f) 0) := by unfold wt0; rw [wt_eq hM.1.2 (lab f (by simp))]; rfl
  refine ⟨m, ⟨m2, m3', x', hx', m5⟩, ?_⟩
  unfold parallelCrossings
  simp only [Bool.false_eq_true, if_false]
  rw [hv.around rfl, py_bind_ok, e1, py_bind_ok, m1, py_bind_ok]
  unfold outWeight
  rw [e2, py_bind_ok, List.drop_one, List.tail_cons, e3, py_bind_ok, hw]
  rfl

/-- the crossings with a curve around an edge -/
theorem crossings_iff (hM : M.Consistent) (hl : Loop M.tri f β η X) (hv : Triangulation.Around M.tri f X v) :
    ∃ y, M.parallelCrossings false f = .ok y ∧ 0 ≤ y ∧ (y = 0 ↔ (M.tri.curveFromCutSequence X : Lam Int).DisjointFrom M) := by
  obtain ⟨m, ⟨m2, m3', x', hx', m5⟩, hy⟩ := crossings_value hM hl hv
  let o1 := (((f :: X).map M.lf).map (fun x => max (-x) 0)).sum
  let o2 := ((X.map M.w).map (fun x => max (-x) 0)).sum
  have sum0 : ∀ (l : List Int), 0 ≤ (l.map (fun x => max (-x) 0)).sum ∧ ((l.map (fun x => max (-x) 0)).sum = 0 ↔ ∀ x ∈ l, 0 ≤ x) := by
    intro l
    induction l with
    | nil => simp
    | cons x l ih =>
      obtain ⟨i1, i2⟩ := ih
      rw [List.map_cons, List.sum_cons, List.forall_mem_cons, ← i2]
      omega
  refine ⟨_, hy, ?_⟩
  change 0 ≤ max (M.w f) 0 - m + (o1 + o2) ∧ (max (M.w f) 0 - m + (o1 + o2) = 0 ↔ _)
  obtain ⟨p1, p2⟩ := sum0 ((f :: X).map M.lf)
  obtain ⟨p3, p4⟩ := sum0 (X.map M.w)
  change 0 ≤ o1 at p1
  change o1 = 0 ↔ _ at p2
  change 0 ≤ o2 at p3
  change o2 = 0 ↔ _ at p4
  have t := hM.lf_tri hl.glues
  have mf := m3' f (by simp)
  have mb := m3' β (by simp [hl.b_mem])
  have hA : 0 ≤ max (M.w f) 0 - m := by
    generalize max (M.w f) 0 = A at *
    unfold TriDual at t
    rcases t with t | t | t | t <;> omega
  refine ⟨by omega, ?_⟩
  rw [lay_iff hl]
  constructor
  · intro h
    have z1 := p2.1 (by omega)
    have z2 := p4.1 (by omega)
    have z1' : ∀ x ∈ f :: X, 0 ≤ M.lf x := fun x hx => z1 _ (List.mem_map_of_mem hx)
    have z3 := z1' f (by simp)
    have z4 := z1' β (by simp [hl.b_mem])
    have hm : max (M.w f) 0 = m := by omega
    rw [hm] at t
    have : M.lf β = M.lf f ∧ 0 ≤ M.lf η ∧ m = 2 * M.lf f := by
      unfold TriDual at t
      rcases t with t | t | t | t <;> omega
    refine ⟨M.lf f, ⟨hM, hl, rfl, this.1, z3, fun x hx _ => ?_⟩, fun x hx => z2 _ (List.mem_map_of_mem hx), this.2.1⟩
    have q1 := m3' x (by simp [hx])
    have q2 := z1' x (by simp [hx])
    omega
  · rintro ⟨k, hk⟩
    have k0 := hk.belt.nonneg
    have ge : ∀ x ∈ f :: X, k ≤ M.lf x := by
      intro x hx
      rcases List.mem_cons.1 hx with rfl | hx
      · rw [hk.belt.first]
      · by_cases q : x = β
        · rw [q, hk.belt.last]
        · have := hk.belt.room x hx q; omega
    have z1 : o1 = 0 := p2.2 (fun y hy => by
      obtain ⟨x, hx, rfl⟩ := List.mem_map.1 hy
      have := ge x hx
      omega)
    have z2 : o2 = 0 := p4.2 (fun y hy => by
      obtain ⟨x, hx, rfl⟩ := List.mem_map.1 hy
      exact hk.pos x hx)
    have g := ge x' hx'
    have tp := hk.top
    rw [hk.belt.first, hk.belt.last] at t
    unfold TriDual at t
    rcases t with t | t | t | t <;> omega

theorem arc_disjoint_iff (hM : M.Consistent) (hf : M.tri.IsLabel f) : (M.tri.edgeArcOf f : Lam Int).DisjointFrom M ↔ M.w f ≤ 0 := by
  constructor
  · rintro ⟨S, s1, s2⟩
    have e := s2.wf.2.2.2
    exact (s2.signs (x := f) (by rw [← e]; exact hf)).2 (by rw [arc_w hf]; simp)
  · intro h
    have hT := hM.1.1
    let A : Lam Int := M.tri.edgeArcOf f
    let S : Lam Int := make M.tri (fun x => A.w x + M.w x) .integral
    have wS : ∀ x, M.tri.IsLabel x → S.w x = A.w x + M.w x := fun x hx => make_w _ (fun y => by rw [w_inv, w_inv]) hx
    have mS : ∀ x, M.tri.IsLabel x → max (S.w x) 0 = max (M.w x) 0 := by
      intro x hx
      rw [wS x hx, show A.w x = _ from arc_w hx]
      split_ifs with q
      · have : M.w x ≤ 0 := by
          rcases q with rfl | rfl
          · exact h
          · rw [w_inv]; exact h
        omega
      · simp
    have wf : S.WellFormed := make_wellFormed hT _ _
    have hS : S.Consistent := by
      refine consistent_iff.2 ⟨wf, fun a b c hg => ?_⟩
      have l := hT.comp.label_of_glues hg
      have := (consistent_iff.1 hM).2 a b c hg
      unfold TriEven at this ⊢
      rw [mS a l.1, mS b l.2.1, mS c l.2.2]
      exact this
    obtain ⟨N, hN⟩ := arc_union wf (f := f) (by rw [wS f hf, show A.w f = _ from arc_w hf]; simp; omega)
    have wn := hN.wf
    refine ⟨S, hS, hN.same wn.1 wn.2.1 .refl .refl (same_of_w wn.2.1 hM.1 wn.2.2.2 (fun x hx => ?_))⟩
    rw [wn.2.2.2] at hx
    have h1 := hN.sum wf hx
    have h2 := wS x hx
    change S.w x = A.w x + N.w x at h1
    omega

/-- the crossings with an edge -/
theorem arcCrossings_iff (hM : M.Consistent) (hf : M.tri.IsLabel f) : ∃ y, M.parallelCrossings true f = .ok y ∧ 0 ≤ y ∧ (y = 0 ↔ (M.tri.edgeArcOf f : Lam Int).DisjointFrom M) := by
  have hw : M.wt0 f = .ok (max (M.w f) 0) := by unfold wt0; rw [wt_eq hM.1.2 hf]; rfl
  refine ⟨max (M.w f) 0, by unfold parallelCrossings; rw [if_pos rfl]; exact hw, le_max_right _ _, ?_⟩
  rw [arc_disjoint_iff hM hf]
  omega

/-- **three laminations**: a basic component that does not cross either of two laminations does not cross their union -/
theorem Basic.flag (hY : Basic T Y) (hS : S.Consistent) (hu : S.IsUnion N M) (ht : S.tri = T) (h1 : Y.DisjointFrom N) (h2 : Y.DisjointFrom M) : Y.DisjointFrom S := by
  subst ht
  obtain ⟨hN, hM⟩ := hu.consistent hS
  have wu := hu.wf
  rcases hY with ⟨v, h, rfl⟩ | ⟨f, h, rfl⟩ | ⟨f, β, η, X, h, rfl⟩
  · have l1 := (disjoint_link_iff hN (by rw [wu.2.2.1]; exact h)).1 (by rw [wu.2.2.1]; exact h1)
    have l2 := (disjoint_link_iff hM (by rw [wu.2.2.2]; exact h)).1 (by rw [wu.2.2.2]; exact h2)
    refine (disjoint_link_iff hS h).2 (fun x hx => ?_)
    have lx := h.basic.2.1 x hx
    rw [hu.sum hS.1 lx, hu.lf hS lx]
    have := l1 x hx
    have := l2 x hx
    omega
  · have l1 := (arc_disjoint_iff hN (f := f) (by rw [wu.2.2.1]; exact h)).1 (by rw [wu.2.2.1]; exact h1)
    have l2 := (arc_disjoint_iff hM (f := f) (by rw [wu.2.2.2]; exact h)).1 (by rw [wu.2.2.2]; exact h2)
    refine (arc_disjoint_iff hS h).2 ?_
    rw [hu.sum hS.1 h]
    omega
  · obtain ⟨k, hk⟩ := (lay_iff (M := N) (f := f) (β := β) (η := η) (by rw [wu.2.2.1]; exact h)).1 (by rw [wu.2.2.1]; exact h1)
    obtain ⟨k', hk'⟩ := (lay_iff (M := M) (f := f) (β := β) (η := η) (by rw [wu.2.2.2]; exact h)).1 (by rw [wu.2.2.2]; exact h2)
    have key := fun x (hx : x ∈ f :: X) => hu.lf hS (h.label_mem hx)
    have le : S.tri.IsLabel η := (h.valid.comp.label_of_glues h.glues).2.2
    refine (lay_iff h).2 ⟨k + k', ⟨hS, h, ?_, ?_, ?_, ?_⟩, ?_, ?_⟩
    · rw [key f (by simp), hk.belt.first, hk'.belt.first]
    · rw [key β (by simp [h.b_mem]), hk.belt.last, hk'.belt.last]
    · have := hk.belt.nonneg; have := hk'.belt.nonneg; omega
    · intro x hx q
      rw [key x (by simp [hx])]
      have := hk.belt.room x hx q
      have := hk'.belt.room x hx q
      omega
    · intro x hx
      rw [hu.sum hS.1 (h.label_mem (by simp [hx]))]
      have := hk.pos x hx
      have := hk'.pos x hx
      omega
    · rw [hu.lf hS le]
      have := hk.top
      have := hk'.top
      omega

theorem Unions.disjoint : ∀ {D : List (Lam Int)} {C : Lam Int}, C.Unions D → C.Consistent → M.Consistent → M.tri = C.tri → (∀ Y ∈ D, Basic C.tri Y ∧ Y.DisjointFrom M) → C.DisjointFrom M := by
  intro D C h
  induction h with
  | nil hb => exact fun hC hM ht _ => hb.disjoint hC.1 hM ht.symm
  | @cons C Y N D hu _ ih =>
    intro hC hM ht hD
    have wu := hu.wf
    obtain ⟨S, s1, s2⟩ := ih (hu.consistent hC).2 hM (ht.trans wu.2.2.2.symm) (fun Z hZ => by rw [wu.2.2.2]; exact hD Z (by simp [hZ]))
    obtain ⟨b1, b2⟩ := hD Y (by simp)
    have ts : S.tri = C.tri := s2.wf.2.2.1.symm.trans wu.2.2.2
    obtain ⟨U, u1, u2⟩ := b1.flag s1 s2 ts ⟨C, hC, hu⟩ b2
    obtain ⟨Z, z1, z2⟩ := u2.assoc u1 s2
    have wz := z2.wf
    have cZ := (z1.consistent u1).1
    refine ⟨U, u1, z1.same z1.wf.1 z1.wf.2.1 .refl ?_ .refl⟩
    have e : Z.tri = C.tri := wz.2.2.1.symm.trans wu.2.2.1
    refine same_of_w cZ.1 hC.1 e (fun x hx => ?_)
    have a1 := z2.sum cZ.1 hx
    have a2 := hu.sum hC.1 (by rw [← e]; exact hx)
    omega

theorem vertexCrossings_zero (hM : M.NoArcs) {v : List Int} (hv : ∀ x ∈ v, M.tri.IsLabel x) : M.vertexCrossings v = .ok 0 := by
  unfold vertexCrossings
  have : v.mapM (fun e => do
    let x ← M.wt e
    let y ← M.leftWeight e
    return max (-x) 0 + max (-y) 0) = .ok (v.map (fun _ => (0 : Int))) := by
    refine mapM_ok (fun x hx => ?_)
    have lx := hv x hx
    obtain ⟨y, z, hg⟩ := hM.1.1.comp.exists_glues lx
    obtain ⟨l1, -, l3⟩ := hM.lf_spec hg
    have := hM.nonneg lx
    rw [wt_eq hM.1.2 lx, py_bind_ok, l1, py_bind_ok]
    show Except.ok (max (-M.w x) 0 + max (-M.lf x) 0) = _
    rw [max_eq_right (by omega), max_eq_right (by omega)]
    rfl
  rw [this, py_bind_ok]
  show Except.ok _ = _
  congr 1
  clear this hv
  induction v with
  | nil => rfl
  | cons x v ih => simpa using ih

theorem mapM_sum {α : Type} {F : α → Py Int} {Q : α → Prop} : ∀ {l : List α} {ys : List Int}, (∀ q ∈ l, ∃ y, F q = .ok y ∧ 0 ≤ y ∧ (y = 0 ↔ Q q)) → l.mapM F = .ok ys → 0 ≤ ys.sum ∧ (ys.sum = 0 ↔ ∀ q ∈ l, Q q)
  | [], ys, _, h => by cases h; simp
  | q :: l, ys, hl, h => by
    rw [List.mapM_cons] at h
    simp only [py_bind_eq_ok] at h
    obtain ⟨y, h1, zs, h2, h3⟩ := h
    cases h3
    obtain ⟨y', a1, a2, a3⟩ := hl q (by simp)
    cases h1.symm.trans a1
    obtain ⟨i1, i2⟩ := mapM_sum (fun r hr => hl r (by simp [hr])) h2
    rw [List.sum_cons]
    refine ⟨by omega, ?_⟩
    rw [List.forall_mem_cons, ← i2, ← a3]
    omega

/-- curves around vertices in a short lamination come from such curves -/
theorem Ended.noLinks {g : Enc} (h : Ended c s g) (hc : c.Consistent) (hp : ∀ X, c.HasPart X → X.NoArcs → ¬ X.Peripheral) {per : List (Lam Int × (Int × List Int))} (h1 : s.peripheralComponents = .ok per) : per = [] := by
  have hs := h.consistent
  obtain ⟨-, D, d1, d2⟩ := h.stripped.unions
  have l := h.shortens.legal
  rw [List.eq_nil_iff_forall_not_mem]
  intro p hpp
  obtain ⟨a1, a2, a3⟩ := (per_spec hs d1 d2 h1).1 p hpp
  obtain ⟨Y, y1, y2⟩ := List.mem_map.1 (List.count_pos_iff.1 (show 0 < (D.map Lam.geometric).count p.1.geometric by omega))
  obtain ⟨vs, hv, μ, -, h2, per1⟩ := peripheralComponents_ok hs
  cases h1.symm.trans per1
  obtain ⟨v, hv', rfl⟩ := List.mem_map.1 hpp
  obtain ⟨hvs, -⟩ := List.mem_filter.1 hv'
  obtain ⟨v1, v2, v3, v4⟩ := hs.1.1.comp.vertices_mem hv
  obtain ⟨x, hx⟩ := List.exists_mem_of_ne_nil _ (v2 v hvs).1.ne
  have hst : s.tri.Star v := ⟨hs.1.1, x, (v2 v hvs).2.2 x hx, hs.1.1.comp.vertexOf_of_mem hv hvs hx⟩
  have hN := link_noArcs hst.valid hst.ex
  obtain ⟨b, b1, b2⟩ := isPeripheral_spec (fun _ => .ok .curve) hst.mult.1
  rw [star_isPeripheral hst] at b1
  cases b1
  obtain ⟨Z, hZ⟩ := d1.pull hs y1
  have e1 : Same (s.tri.curveFromCutSequence v : Lam Int) Y := ⟨hZ.wf.2.2.1.symm, y2.symm⟩
  have hY := e1.noArcs hN
  have pY := (b2.1 rfl).same e1
  obtain ⟨K, k1, k2, k3⟩ := h.shortens.acts
  have e : Same K s := ⟨k2, k3⟩
  obtain ⟨u1, u2, u3, u4⟩ := l.undo hc.1 k1
  have hK := hc.enc l k1
  have hZ' : K.IsUnion Y Z := hZ.same hZ.wf.1 hZ.wf.2.1 e.symm .refl .refl
  obtain ⟨Y', Z', r1, r2, r3⟩ := hZ'.enc hK l.inv' u4
  exact hp Y' ⟨(d2 Y y1).connected.enc (hZ.consistent hs).1 l.inv' r1, Z', r3⟩ (l.inv'.noArcs hY r1) (pY.enc hY l.inv' r1)

/-- intersection numbers -/
theorem Ended.crossings {g : Enc} (h : Ended c s g) (hc : c.Consistent) (hM : M.Consistent) (hp : M.NoArcs ∨ ∀ X, c.HasPart X → X.NoArcs → ¬ X.Peripheral) (ht : M.tri = c.tri) {Sh : Lam Int → Py (Lam Int × Enc)} (hSh : Sh c = .ok (s, g)) {x : Int} (hx : c.intersectionWith Sh M = .ok x) :
    0 ≤ x ∧ (x = 0 ↔ c.DisjointFrom M) := by
  unfold intersectionWith at hx
  simp only [py_bind_eq_ok] at hx
  obtain ⟨_, -, ⟨s', g'⟩, e0, M', hM', per, p1, xs, p2, par, p3, ys, p4, hx⟩ := hx
  cases hSh.symm.trans e0
  dsimp only at hM' p1 p3
  injection hx with hx
  subst hx
  have l := h.shortens.legal
  have nM' := hM.enc l hM'
  have tM' : M'.tri = s.tri := (l.undo hM.1 hM').2.1.trans h.shortens.target
  have hs := h.consistent
  -- the curves around vertices
  have hz : s.tri.zeta = M.tri.zeta := by rw [← h.shortens.target, l.path.zeta, h.shortens.source, ht]
  have hlab : ∀ {x}, s.tri.IsLabel x ↔ M.tri.IsLabel x := by
    intro x; unfold Triangulation.IsLabel; rw [hz]
  obtain ⟨vs, hv, μ, h1, h2, per1⟩ := peripheralComponents_ok hs
  obtain ⟨v1, v2, v3, v4⟩ := hs.1.1.comp.vertices_mem hv
  cases p1.symm.trans per1
  have x0 : xs.sum = 0 := by
    rcases hp with hp | hp
    · refine (mapM_sum (Q := fun _ => True) (fun q hq => ?_) p2).2.2 (fun _ _ => trivial)
      obtain ⟨v, hv', rfl⟩ := List.mem_map.1 hq
      have := vertexCrossings_zero hp (v := v) (fun x hx => hlab.1 ((v2 v (List.mem_of_mem_filter hv')).2.2 x hx))
      refine ⟨0, ?_, le_rfl, by simp⟩
      dsimp only
      rw [this, py_bind_ok]
      show Except.ok _ = _
      rw [mul_zero]
    · have e := h.noLinks hc hp p1
      rw [e] at p2
      cases p2
      rfl
  -- the components along edges
  obtain ⟨he, -⟩ := parallel_entries hs.1 p3
  have entry : ∀ q ∈ par, ∃ N, 0 < q.2.1 ∧ Basic s.tri q.1 ∧ s.IsUnion q.1 N ∧ ∃ y, M'.parallelCrossings (decide (q.1.cls = .arc)) q.2.2 = .ok y ∧ 0 ≤ y ∧ (y = 0 ↔ q.1.DisjointFrom M') := by
    rintro ⟨K, k, f⟩ hq
    obtain ⟨e1, e2⟩ := he _ hq
    dsimp only at e1 e2
    rcases e2 with ⟨e2, e3, e4, e5⟩ | e2
    · obtain ⟨N, hN⟩ := arc_union hs.1 (f := f) (by omega)
      subst e2
      refine ⟨N, e4, .inr (.inl ⟨f, e1, rfl⟩), hN, ?_⟩
      have := arcCrossings_iff nM' (f := f) (by rw [tM']; exact e1)
      rwa [tM'] at this
    · obtain ⟨b1, β', η', X', a, b2, b3, -⟩ := parallelCurve_belt hs e1 e2
      obtain ⟨-, X, v, hX, c0, c1, -⟩ := parallelCurve_some hs.1.1.comp e1 e2
      obtain ⟨N, n1, -⟩ := b3.union b1
      rw [← b2] at n1
      obtain ⟨β, η, hl⟩ := hX.loop hs.1.1 e1 c0
      subst c1
      refine ⟨N, b1, .inr (.inr ⟨f, β, η, X, hl, rfl⟩), n1, ?_⟩
      have := crossings_iff nM' (X := X) (f := f) (β := β) (η := η) (v := v) (by rw [tM']; exact hl) (by rw [tM']; exact hX)
      rwa [tM'] at this
  obtain ⟨y0, y1⟩ := mapM_sum (Q := fun q : Lam Int × (Int × Int) => q.1.DisjointFrom M') (fun q hq => by
    obtain ⟨N, a1, a2, a3, y, a4, a5, a6⟩ := entry q hq
    refine ⟨q.2.1 * y, by rw [a4, py_bind_ok]; simp, by positivity, ?_⟩
    rw [← a6, mul_eq_zero]
    omega) p4
  refine ⟨by omega, ?_⟩
  rw [x0, zero_add, y1]
  -- `s` and its components
  have key : (∀ q ∈ par, q.1.DisjointFrom M') ↔ s.DisjointFrom M' := by
    constructor
    · intro hq
      obtain ⟨-, D, d1, d2⟩ := h.stripped.unions
      refine d1.disjoint hs nM' tM' (fun Y hY => ⟨d2 Y hY, ?_⟩)
      obtain ⟨N, hN⟩ := d1.pull hs hY
      rcases d2 Y hY with ⟨v, hv, rfl⟩ | ⟨f, hf, rfl⟩ | ⟨f, β, η, X, hl, rfl⟩
      · rcases hp with hp | hp
        · have hN := link_noArcs hv.valid hv.ex
          obtain ⟨b, b1, b2⟩ := isPeripheral_spec (fun _ => .ok .curve) hv.mult.1
          rw [star_isPeripheral hv] at b1
          cases b1
          exact (Peripheral.disjoint (l.noArcs hp hM') hN (b2.1 rfl) tM').symm
        · have e := h.noLinks hc hp p1
          have := (per_spec hs d1 d2 p1).2 v hv hY
          rw [e] at this
          simp [keys] at this
      · have hneg := arc_of_part hf hN
        have e : (s.tri.edgeArcOf f : Lam Int) = s.tri.edgeArcOf (norm f) := arc_norm f
        have h0 : 0 ≤ norm f := by unfold norm Curver.inv; omega
        have ln : s.tri.IsLabel (norm f) := by unfold norm; rcases le_total f (Curver.inv f) with q | q <;> simp [q, hf, isLabel_inv]
        have wn : s.w (norm f) < 0 := by
          unfold norm; rcases le_total f (Curver.inv f) with q | q <;> simp [q, w_inv, hneg]
        have hk := (par_found p3 ln).1 _ _ (parallelArc_found hs.1 ln h0 wn)
        unfold keys at hk
        obtain ⟨p, hp, hpg⟩ := List.mem_map.1 hk
        obtain ⟨N', -, -, n1, -⟩ := entry p hp
        rw [e]
        exact (hq p hp).same ⟨n1.wf.2.2.1, hpg⟩ .refl
      · obtain ⟨a, ha⟩ := belt_of_part hs hl hN
        obtain ⟨k', -, hf⟩ := ha.found (by omega)
        have hk := (par_found p3 hl.sweep.label).2 _ _ hf
        unfold keys at hk
        obtain ⟨p, hp, hpg⟩ := List.mem_map.1 hk
        obtain ⟨N', -, -, n1, -⟩ := entry p hp
        exact (hq p hp).same ⟨n1.wf.2.2.1, hpg⟩ .refl
    · intro hd q hq
      obtain ⟨N, -, -, a3, -⟩ := entry q hq
      exact hd.right a3
  rw [key]
  obtain ⟨K, k1, k2, k3⟩ := h.shortens.acts
  have e : Same K s := ⟨k2, k3⟩
  obtain ⟨u1, u2, u3, u4⟩ := l.undo hc.1 k1
  obtain ⟨w1, w2, w3, w4⟩ := l.undo hM.1 hM'
  constructor
  · intro hd
    obtain ⟨c', a1, a2⟩ := (hd.same e.symm .refl).enc l.inv' (Enc.applyLam_source w4).symm w4
    cases u4.symm.trans a1
    exact a2
  · intro hd
    obtain ⟨X', a1, a2⟩ := hd.enc l (ht.trans h.shortens.source.symm) hM'
    cases k1.symm.trans a1
    exact a2.same e .refl

end Lam
end Curver
