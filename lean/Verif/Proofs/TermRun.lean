import Verif.Proofs.TermFlip
import Verif.Proofs.UnionMap

/-!
# The flips that `shorten` makes come to an end: the loop
-/

namespace Curver
open Triangulation
namespace Lam
variable {L L' : Lam Int} {slow : Int → Int → Bool}

/-- an inequality for all the triangles after a flip -/
theorem _root_.Curver.Triangulation.FlipData.all {S T : Triangulation} {e ε a b c d : Int} (D : FlipData S T e ε a b c d) {P : Int → Int → Int → Prop}
    (h1 : P ε d a ∧ P d a ε ∧ P a ε d) (h2 : P (inv ε) b c ∧ P b c (inv ε) ∧ P c (inv ε) b)
    (h3 : ∀ x y z, S.Glues x y z → (∀ u ∈ [x, y, z], u ≠ e ∧ u ≠ inv e) → P x y z) : ∀ x y z, T.Glues x y z → P x y z := by
  intro x y z hg
  have u := fun {p q r s t : Int} (k1 : T.Glues p q r) (k2 : T.Glues p s t) => D.hT.glues_unique k1 k2
  by_cases hx : x ∈ [ε, inv ε, d, a, b, c]
  · simp only [List.mem_cons, List.not_mem_nil, or_false] at hx
    rcases hx with rfl | rfl | rfl | rfl | rfl | rfl
    · obtain ⟨rfl, rfl⟩ := u hg D.t1; exact h1.1
    · obtain ⟨rfl, rfl⟩ := u hg D.t2; exact h2.1
    · obtain ⟨rfl, rfl⟩ := u hg D.t1.rot; exact h1.2.1
    · obtain ⟨rfl, rfl⟩ := u hg D.t1.rot.rot; exact h1.2.2
    · obtain ⟨rfl, rfl⟩ := u hg D.t2.rot; exact h2.2.1
    · obtain ⟨rfl, rfl⟩ := u hg D.t2.rot.rot; exact h2.2.2
  · have hS := D.symm.far hg hx
    refine h3 _ _ _ hS ?_
    simp only [List.mem_cons, List.not_mem_nil, or_false, not_or] at hx
    have v := fun {p q r s t : Int} (k1 : S.Glues p q r) (k2 : S.Glues p s t) => D.hS.glues_unique k1 k2
    have hxe : x ≠ e ∧ x ≠ inv e := by
      rcases D.eps with q | q
      · rw [q] at hx; exact ⟨hx.1, hx.2.1⟩
      · rw [q, Curver.inv_inv] at hx; exact ⟨hx.2.1, hx.1⟩
    intro w hw
    simp only [List.mem_cons, List.not_mem_nil, or_false] at hw
    rcases hw with rfl | rfl | rfl
    · exact hxe
    · exact ⟨by rintro rfl; exact hx.2.2.2.2.1 (v hS.rot D.s1).2, by rintro rfl; exact hx.2.2.1 (v hS.rot D.s2).2⟩
    · exact ⟨by rintro rfl; exact hx.2.2.2.1 (v hS.rot.rot D.s1).1, by rintro rfl; exact hx.2.2.2.2.2 (v hS.rot.rot D.s2).1⟩

/-- the flip of an edge that has been chosen -/
theorem flip_step (hL : L.Consistent) {e : Int} (he : L.tri.IsLabel e) (hv : L.val e ≠ 0) : ∃ m flip L' ε, L.tri.encodeFlip e = .ok m ∧ m.encode = .ok flip ∧ Fine L flip ∧ flip.target = L'.tri ∧
    flip.applyLam L = .ok L' ∧ L'.Consistent ∧ FlipData L.tri L'.tri e ε (L.tri.nxt e) (L.tri.nxt (L.tri.nxt e)) (L.tri.nxt (inv e)) (L.tri.nxt (L.tri.nxt (inv e))) ∧
    FlipW L.tri L.w L'.w e ε (L.tri.nxt e) (L.tri.nxt (L.tri.nxt e)) (L.tri.nxt (inv e)) (L.tri.nxt (L.tri.nxt (inv e))) := by
  have hc := hL.1.1.comp
  obtain ⟨hf, hpos⟩ := val_flippable hL.1 he hv
  obtain ⟨T, hm, he'⟩ := hL.1.1.encodeFlip_eq hf
  obtain ⟨m, hmm⟩ : ∃ m, L.tri.encodeFlip e = .ok m := ⟨_, he'⟩
  obtain ⟨T', k1, k2, rfl⟩ := hL.1.1.encodeFlip_ok_iff.1 hmm
  have hl : LMove.Legal _ := .flip L.tri e _ hL.1.1 hmm
  obtain ⟨f, f1, f2, f3, f4, f5, f6⟩ := hl.encoded
  obtain ⟨⟨L', l1, l2⟩, l3⟩ := f2.applyLam_total ⟨L, hL, f5.symm⟩
  dsimp only at l3
  have l4 := l3
  have f7 : f.source = L.tri := f5
  rw [Enc.applyLam_eq, if_pos f7] at l4
  simp only [Enc.performed, f4, List.reverse_singleton, performLam] at l4
  have l5 : EdgeFlip.applyLam ⟨L.tri, T', e, L.tri.sq e⟩ L = .ok L' := by
    rw [py_bind_eq_ok] at l4
    obtain ⟨K, q1, q2⟩ := l4
    cases q2
    exact q1
  rw [ef_applyLam_iff hL.1 hf] at l5
  obtain ⟨rfl, hF⟩ := l5
  obtain ⟨ε, a, b, c, d, D, W⟩ := hF.flipW hL.1 hf k2
  obtain ⟨rfl, rfl⟩ := hc.glues_unique D.s1 (hc.glues_nxt he)
  obtain ⟨rfl, rfl⟩ := hc.glues_unique D.s2 (hc.glues_nxt (isLabel_inv.2 he))
  exact ⟨_, f, L', ε, hmm, f1, flip_fine hL.1 hpos hmm f1, f6, l3, l1, D, W⟩

/-- never faster than flips -/
def Quiet (slow : Int → Int → Bool) (L : Lam Int) : Prop := (∀ w w', slow w w' = false) ∨ ∀ x, L.tri.IsLabel x → L.w x ≤ 4

theorem Quiet.weight (h : ∀ x, L.tri.IsLabel x → L.w x ≤ 4) (hL : L.WellFormed) : L.weight ≤ 4 * L.tri.zeta := by
  unfold Lam.weight
  have : ∀ l : List Int, (∀ x ∈ l, x ≤ 4) → (l.map (fun x => max x 0)).sum ≤ 4 * l.length := by
    intro l
    induction l with
    | nil => simp
    | cons x l ih =>
      intro hl
      have h1 := hl x (by simp)
      have h2 := ih (fun y hy => hl y (by simp [hy]))
      simp only [List.map_cons, List.sum_cons, List.length_cons]
      push_cast
      omega
  have := this L.geometric ?_
  · rw [hL.2] at this; exact this
  · intro x hx
    obtain ⟨i, hi, rfl⟩ := List.getElem_of_mem hx
    have hl : L.tri.IsLabel (i : Int) := by unfold Triangulation.IsLabel; rw [hL.2] at hi; omega
    have := h i hl
    have e := wt_eq hL.2 hl
    unfold Lam.w at this
    have hn : norm (i : Int) = i := by unfold norm Curver.inv; omega
    simpa [hn, hi] using this

theorem Quiet.chooseMove {S : Lam Int → Py (Lam Int × Enc)} {P : Lam Int → Py LamClass} {st : FlipState} (h : Quiet slow st.lam) (hL : st.lam.WellFormed) {e c d : Int} {l r : Nat} {flip : Enc}
    {L' : Lam Int} (ha : flip.applyLam st.lam = .ok L') : chooseMove S P slow st.lam.tri.zeta st e c d l r flip = .ok (flip, (l, (r, [c, d]))) := by
  unfold Lam.chooseMove
  rcases h with h | h
  · rw [ha]
    simp [h, py_bind_ok]
  · have := Quiet.weight h hL
    rw [if_neg (by omega)]
    rfl

/-- what is needed for the flips -/
structure FGood (st : FlipState) : Prop where
  lam : st.lam.Consistent
  per : st.peripheral.Consistent
  tri : st.peripheral.tri = st.lam.tri
  legal : st.conjugator.Legal
  target : st.conjugator.target = st.lam.tri
  extra : ∀ x ∈ st.extra, st.lam.tri.IsLabel x
  zeta : 0 < st.lam.tri.zeta

theorem FGood.pick {st : FlipState} (h : FGood st) {ub : Int} (hu : ub = 2 ∨ (ub = 1 ∧ st.lam.NoNeg)) : ∃ e, maximumM st.lam.shortenStrategy ub (st.extra ++ st.lam.tri.labels) = .ok (e, st.lam.val e) ∧
    st.lam.tri.IsLabel e ∧ ∀ x, st.lam.tri.IsLabel x → st.lam.val x ≤ st.lam.val e := by
  have hlab : ∀ x ∈ st.extra ++ st.lam.tri.labels, st.lam.tri.IsLabel x := by
    intro x hx
    rcases List.mem_append.1 hx with hx | hx
    · exact h.extra x hx
    · exact mem_labels.1 hx
  obtain ⟨e, h1, h2, h3⟩ := maximumM_total (key := st.lam.shortenStrategy) (k := st.lam.val) (ub := ub) (l := st.extra ++ st.lam.tri.labels)
    (fun x hx => shortenStrategy_eq h.lam (hlab x hx)) (by
      intro q
      have : (0 : Int) ∈ st.lam.tri.labels := mem_labels.2 (by unfold Triangulation.IsLabel; have := h.zeta; omega)
      have : (0 : Int) ∈ st.extra ++ st.lam.tri.labels := List.mem_append.2 (.inr this)
      rw [q] at this
      cases this) (by
      intro x hx
      rcases hu with rfl | ⟨rfl, hn⟩
      · have := st.lam.val_range x; omega
      · exact (noNeg_iff h.lam.1).1 hn x (hlab x hx))
  exact ⟨e, h1, hlab e h2, fun x hx => h3 x (List.mem_append.2 (.inr (mem_labels.2 hx)))⟩

/-- what the flips of one round do -/
structure Flipped (slow : Int → Int → Bool) (ub : Int) (st st' : FlipState) : Prop where
  good : FGood st'
  quiet : Quiet slow st'.lam
  zeta : st'.lam.tri.zeta = st.lam.tri.zeta
  noNeg : st.lam.NoNeg → st'.lam.NoNeg
  done : ∀ e, st'.lam.tri.IsLabel e → st'.lam.val e = 0
  dec : (∀ e, st.lam.tri.IsLabel e → st.lam.val e = 0) ∧ st' = st ∨ st'.lam.crossed < st.lam.crossed

/-- the next edge to be flipped has more points than `w` -/
def NextPick (st : FlipState) (ub w : Int) : Prop := ∃ e, maximumM st.lam.shortenStrategy ub (st.extra ++ st.lam.tri.labels) = .ok (e, st.lam.val e) ∧ st.lam.tri.IsLabel e ∧
  (∀ x, st.lam.tri.IsLabel x → st.lam.val x ≤ st.lam.val e) ∧ st.lam.val e ≠ 0 ∧ w < max (st.lam.w e) 0

set_option maxHeartbeats 1600000 in
theorem flipRounds_aux {P : Lam Int → Py LamClass} {ub : Int} : ∀ (k ν : Nat) (st : FlipState) (e : Int), FGood st → Quiet slow st.lam → (ub = 2 ∨ (ub = 1 ∧ st.lam.NoNeg)) →
    maximumM st.lam.shortenStrategy ub (st.extra ++ st.lam.tri.labels) = .ok (e, st.lam.val e) → st.lam.tri.IsLabel e → (∀ x, st.lam.tri.IsLabel x → st.lam.val x ≤ st.lam.val e) →
    st.lam.crossed = k → (st.lam.total - max (st.lam.w e) 0).toNat = ν →
    ∃ st' N, Flipped slow ub st st' ∧ ∀ S n, N ≤ n → flipRounds S P slow st.lam.tri.zeta ub n st = .ok st' := by
  intro k
  induction k using Nat.strong_induction_on with
  | _ k ihk =>
  intro ν
  induction ν using Nat.strong_induction_on with
  | _ ν ihν =>
  intro st e hG hQ hu hpick he hmax hk hν
  by_cases hv : st.lam.val e = 0
  · refine ⟨st, 1, ⟨hG, hQ, rfl, id, ?_, .inl ⟨?_, rfl⟩⟩, ?_⟩
    · intro x hx
      have := hmax x hx
      have := st.lam.val_range x
      omega
    · intro x hx
      have := hmax x hx
      have := st.lam.val_range x
      omega
    · intro S n hn
      obtain ⟨n, rfl⟩ : ∃ m, n = m + 1 := ⟨n - 1, by omega⟩
      rw [flipRounds, hpick, py_bind_ok]
      simp only [hv, if_true]
      rfl
  · have hC := hG.lam
    have hc := hC.1.1.comp
    obtain ⟨m, flip, L', ε, h1, h2, h3, h4, h5, h6, D, W⟩ := flip_step hC he hv
    obtain ⟨hf, hpos⟩ := val_flippable hC.1 he hv
    have hsq := hc.square_eq hf
    generalize ha : st.lam.tri.nxt e = a at *
    generalize hb : st.lam.tri.nxt a = b at *
    generalize hcc : st.lam.tri.nxt (inv e) = c at *
    generalize hd : st.lam.tri.nxt c = d at *
    have la := hc.label_of_glues D.s1
    have lc := hc.label_of_glues D.s2
    obtain ⟨conj, q1, q2, q3⟩ := C14_composition flip st.conjugator h3.legal hG.legal (h3.source.trans hG.target.symm)
    obtain ⟨⟨per, p1, p2⟩, p3⟩ := h3.legal.applyLam_total ⟨st.peripheral, hG.per, by rw [h3.source, hG.tri]⟩
    dsimp only at p1 p2 p3
    set lr := turns st.extra e st.turnLeft st.turnRight with hlr
    let st1 : FlipState := ⟨L', per, conj, lr.1, lr.2, [c, d]⟩
    have hz : L'.tri.zeta = st.lam.tri.zeta := D.zeta
    have hlab : ∀ {x}, L'.tri.IsLabel x ↔ st.lam.tri.IsLabel x := D.isLabel_iff
    have hG1 : FGood st1 := ⟨h6, p1, by rw [p2, h4], q2, q3.target.trans h4, by
      intro x hx
      simp only [st1, List.mem_cons, List.not_mem_nil, or_false] at hx
      rcases hx with rfl | rfl
      · exact hlab.2 lc.2.1
      · exact hlab.2 lc.2.2, by show 0 < L'.tri.zeta; rw [hz]; exact hG.zeta⟩
    have hne := D.ne
    have wa : L'.w a = st.lam.w a := W.kept a la.2.1 (hne a (by simp)).1 (hne a (by simp)).2
    have wb : L'.w b = st.lam.w b := W.kept b la.2.2 (hne b (by simp)).1 (hne b (by simp)).2
    have wc : L'.w c = st.lam.w c := W.kept c lc.2.1 (hne c (by simp)).1 (hne c (by simp)).2
    have wd : L'.w d = st.lam.w d := W.kept d lc.2.2 (hne d (by simp)).1 (hne d (by simp)).2
    have wε : L'.w e = L'.w ε := by
      rcases D.eps with q | q
      · rw [q]
      · rw [q, w_inv]
    have hnew := W.new
    have n0 : ∀ u : Int, 0 ≤ max u 0 := fun u => le_max_right _ _
    have v2 := val_two hC.1 D.s1
    have v1 := val_one hC.1 D.s1
    have hval : max (st.lam.w a) 0 + max (st.lam.w b) 0 ≤ st.lam.w e := by
      have := st.lam.val_range e
      have hm : max (st.lam.w e) 0 = st.lam.w e := max_eq_left hpos.le
      rcases this with q | q | q
      · exact absurd q hv
      · have := (v1.1 q).1; omega
      · have := v2.1 q; omega
    have hbound := hnew.bound (n0 _) (n0 _) (n0 _) (n0 _) hval
    have hQ1 : Quiet slow st1.lam := by
      rcases hQ with hQ | hQ
      · exact .inl hQ
      · refine .inr ?_
        intro x hx
        rw [hlab] at hx
        by_cases x1 : x = e ∨ x = inv e
        · have : L'.w x = L'.w ε := by
            rcases x1 with rfl | rfl
            · exact wε
            · rw [w_inv]; exact wε
          show L'.w x ≤ 4
          have := hQ c lc.2.1
          have := hQ d lc.2.2
          omega
        · push Not at x1
          show L'.w x ≤ 4
          rw [W.kept x hx x1.1 x1.2]; exact hQ x hx
    have hmono : ∀ x, st.lam.tri.IsLabel x → 0 < L'.w x → 0 < st.lam.w x := by
      intro x hx h0
      by_cases x1 : x = e ∨ x = inv e
      · rcases x1 with rfl | rfl
        · exact hpos
        · rw [w_inv]; exact hpos
      · push Not at x1
        rw [W.kept x hx x1.1 x1.2] at h0; exact h0
    have hcr : L'.crossed ≤ st.lam.crossed := crossed_le hz hmono
    -- the triangle inequalities are kept
    have hNN : st.lam.NoNeg → st.lam.val e = 1 → L'.NoNeg ∧ (L'.w ε ≤ 0 ∨ max (st.lam.w c) 0 = max (st.lam.w b) 0 + L'.w ε ∨
        (max (st.lam.w c) 0 ≠ max (st.lam.w b) 0 + L'.w ε ∧ max (st.lam.w d) 0 = max (st.lam.w a) 0 + L'.w ε)) := by
      intro hN q
      obtain ⟨b1, b2, b3⟩ := v1.1 q
      have t1 := hN _ _ _ D.s2
      have t2 := hN _ _ _ D.s2.rot
      have t3 := hN _ _ _ D.s2.rot.rot
      have wi : st.lam.w (inv e) = st.lam.w e := w_inv _ _
      rw [wi] at t1 t2 t3
      have hm : max (st.lam.w e) 0 = st.lam.w e := max_eq_left hpos.le
      rw [hm] at t1 t2 t3 b1
      obtain ⟨r1, r2, r3, r4, r5, r6, r7⟩ := hnew.bipod (n0 _) (n0 _) (n0 _) (n0 _) b1 b2 b3 t1 t2 t3
      refine ⟨?_, r1⟩
      refine D.all (P := fun x y z => max (L'.w x) 0 ≤ max (L'.w y) 0 + max (L'.w z) 0) ?_ ?_ ?_
      · rw [wa, wd]; exact ⟨r2, r3, r4⟩
      · rw [wb, wc, w_inv]; exact ⟨r5, r6, r7⟩
      · intro x y z hg hu
        have l := hc.label_of_glues hg
        rw [W.kept x l.1 (hu x (by simp)).1 (hu x (by simp)).2, W.kept y l.2.1 (hu y (by simp)).1 (hu y (by simp)).2, W.kept z l.2.2 (hu z (by simp)).1 (hu z (by simp)).2]
        exact hN x y z hg
    have hval1 : st.lam.NoNeg → st.lam.val e = 1 := by
      intro hN
      have := (noNeg_iff hC.1).1 hN e he
      have := st.lam.val_range e
      omega
    have hu1 : ub = 2 ∨ (ub = 1 ∧ st1.lam.NoNeg) := by
      rcases hu with hu | ⟨hu, hN⟩
      · exact .inl hu
      · exact .inr ⟨hu, (hNN hN (hval1 hN)).1⟩
    -- it is enough to go on from the next state
    have goon : (∃ st' N, Flipped slow ub st1 st' ∧ st'.lam.crossed < st.lam.crossed ∧ ∀ S n, N ≤ n → flipRounds S P slow st1.lam.tri.zeta ub n st1 = .ok st') →
        ∃ st' N, Flipped slow ub st st' ∧ ∀ S n, N ≤ n → flipRounds S P slow st.lam.tri.zeta ub n st = .ok st' := by
      rintro ⟨st', N, F, hlt, hrun⟩
      refine ⟨st', N + 1, ⟨F.good, F.quiet, F.zeta.trans hz, fun hN => F.noNeg (hNN hN (hval1 hN)).1, F.done, .inr hlt⟩, ?_⟩
      intro S n hn
      obtain ⟨n, rfl⟩ : ∃ m, n = m + 1 := ⟨n - 1, by omega⟩
      have hr := hrun S n (by omega)
      have hz1 : st1.lam.tri.zeta = st.lam.tri.zeta := hz
      rw [hz1] at hr
      rw [flipRounds, hpick, py_bind_ok]
      simp only [if_neg hv]
      rw [← hlr, hsq, py_bind_ok, h1, py_bind_ok, h2, py_bind_ok]
      dsimp only
      rw [hQ.chooseMove hC.1 h5, py_bind_ok]
      dsimp only
      rw [q1, py_bind_ok, h5, py_bind_ok, p3, py_bind_ok]
      exact hr
    apply goon
    by_cases hε : L'.w ε ≤ 0
    · have hlt : L'.crossed < st.lam.crossed := crossed_lt hz hmono he (by rw [wε]; exact hε) hpos
      obtain ⟨e1, g1, g2, g3⟩ := hG1.pick hu1
      obtain ⟨st', N, F, hrun⟩ := ihk L'.crossed (by omega) _ st1 e1 hG1 hQ1 hu1 g1 g2 g3 rfl rfl
      refine ⟨st', N, F, ?_, hrun⟩
      rcases F.dec with ⟨-, q⟩ | q
      · rw [q]; exact hlt
      · exact lt_trans q hlt
    · have hε' : max (L'.w ε) 0 = L'.w ε := max_eq_left (by omega)
      have gc : L'.tri.Glues c (inv ε) b := D.t2.rot.rot
      have gd : L'.tri.Glues d a ε := D.t1.rot
      have hkey : ∀ y ∈ st1.extra ++ st1.lam.tri.labels, st1.lam.shortenStrategy y = .ok (st1.lam.val y) := by
        intro y hy
        refine shortenStrategy_eq hG1.lam ?_
        rcases List.mem_append.1 hy with hy | hy
        · exact hG1.extra y hy
        · exact mem_labels.1 hy
      have hlabs : ∀ y ∈ st1.extra ++ st1.lam.tri.labels, st1.lam.tri.IsLabel y := by
        intro y hy
        rcases List.mem_append.1 hy with hy | hy
        · exact hG1.extra y hy
        · exact mem_labels.1 hy
      -- the next edge
      obtain ⟨e1, g1, g2, g3, g4, g5⟩ : NextPick st1 ub (L'.w ε) := by
        have fromc : (∀ x, st1.lam.tri.IsLabel x → st1.lam.val x ≤ L'.val c) → L'.val c ≠ 0 → L'.w ε < max (L'.w c) 0 → NextPick st1 ub (L'.w ε) := fun m1 m2 m3 =>
          ⟨c, maximumM_first (l := d :: st1.lam.tri.labels) hkey (fun y hy => m1 y (hlabs y (List.mem_cons_of_mem _ hy))), hlab.2 lc.2.1, m1, m2, m3⟩
        have fromd : (∀ x, st1.lam.tri.IsLabel x → st1.lam.val x ≤ L'.val d) → L'.val c < L'.val d → L'.val d ≤ ub → L'.val d ≠ 0 → L'.w ε < max (L'.w d) 0 → NextPick st1 ub (L'.w ε) := fun m1 m2 m3 m4 m5 =>
          ⟨d, maximumM_second (l := st1.lam.tri.labels) hkey (fun y hy => m1 y (mem_labels.1 hy)) m2 m3, hlab.2 lc.2.2, m1, m4, m5⟩
        have c2 := val_two h6.1 gc
        have d2 := val_two h6.1 gd
        have c1 := val_one h6.1 gc
        have d1 := val_one h6.1 gd
        rw [w_inv, hε', wb, wc] at c1 c2
        rw [hε', wa, wd] at d1 d2
        have hle2 : ∀ x, L'.val x ≤ 2 := fun x => by have := L'.val_range x; omega
        rcases st.lam.val_range e with q | q | q
        · exact absurd q hv
        · -- bipods
          have hN : st.lam.NoNeg := (noNeg_iff hC.1).2 (fun x hx => by have := hmax x hx; omega)
          obtain ⟨N1, r⟩ := hNN hN q
          have hle1 := (noNeg_iff h6.1).1 N1
          obtain ⟨b1, b2, b3⟩ := v1.1 q
          rcases r with r | r | ⟨r1, r2⟩
          · exact absurd r hε
          · have : L'.val c = 1 := c1.2 ⟨by omega, by omega, b3⟩
            refine fromc (fun x hx => by rw [this]; exact hle1 x hx) (by omega) (by rw [wc]; omega)
          · have hd1 : L'.val d = 1 := d1.2 ⟨by omega, b2, by omega⟩
            have hcv : L'.val c ≠ 1 := fun q' => by have := (c1.1 q').1; omega
            have := hle1 c (hlab.2 lc.2.1)
            have := L'.val_range c
            refine fromd (fun x hx => by rw [hd1]; exact hle1 x hx) (by omega) ?_ (by omega) (by rw [wd]; omega)
            rcases hu with hu | ⟨hu, -⟩ <;> omega
        · -- arcs
          have hub : ub = 2 := by
            rcases hu with hu | ⟨hu, hN⟩
            · exact hu
            · have := hval1 hN; omega
          have hm : max (st.lam.w e) 0 = st.lam.w e := max_eq_left hpos.le
          have := v2.1 q
          rcases hnew.arc (n0 _) (n0 _) (n0 _) (n0 _) (by omega) with r | r | ⟨r1, r2⟩
          · exact absurd r hε
          · have hc2 : L'.val c = 2 := c2.2 (by omega)
            refine fromc (fun x hx => by rw [hc2]; exact hle2 x) (by omega) (by rw [wc]; have := n0 (st.lam.w b); omega)
          · have hd2 : L'.val d = 2 := d2.2 (by omega)
            have hcv : L'.val c ≠ 2 := fun q' => by have := c2.1 q'; omega
            have := hle2 c
            refine fromd (fun x hx => by rw [hd2]; exact hle2 x) (by omega) (by omega) (by omega) (by rw [wd]; have := n0 (st.lam.w a); omega)
      have htot := total_change he hz W.kept
      rw [wε, hε', max_eq_left hpos.le] at htot
      have hge := total_ge (L := L') g2
      have hge0 := total_ge he
      rw [max_eq_left hpos.le] at hge0 hν
      have hlt : (L'.total - max (L'.w e1) 0).toNat < ν := by
        have g6 : L'.w ε < max (L'.w e1) 0 := g5
        clear * - g6 hge hge0 htot hν
        generalize max (L'.w e1) 0 = A at *
        omega
      have fin : ∃ st' N, Flipped slow ub st1 st' ∧ ∀ S n, N ≤ n → flipRounds S P slow st1.lam.tri.zeta ub n st1 = .ok st' := by
        rcases lt_or_eq_of_le hcr with q | q
        · exact ihk L'.crossed (by omega) _ st1 e1 hG1 hQ1 hu1 g1 g2 g3 rfl rfl
        · exact ihν (L'.total - max (L'.w e1) 0).toNat hlt st1 e1 hG1 hQ1 hu1 g1 g2 g3 (q.trans hk) rfl
      obtain ⟨st', N, F, hrun⟩ := fin
      refine ⟨st', N, F, ?_, hrun⟩
      rcases F.dec with ⟨q, -⟩ | q
      · exact absurd (q e1 g2) g4
      · exact lt_of_lt_of_le q hcr

theorem flipRounds_total {P : Lam Int → Py LamClass} {ub : Int} {st : FlipState} (hG : FGood st) (hQ : Quiet slow st.lam) (hu : ub = 2 ∨ (ub = 1 ∧ st.lam.NoNeg)) :
    ∃ st' N, Flipped slow ub st st' ∧ ∀ S n, N ≤ n → flipRounds S P slow st.lam.tri.zeta ub n st = .ok st' := by
  obtain ⟨e, h1, h2, h3⟩ := hG.pick hu
  exact flipRounds_aux _ _ st e hG hQ hu h1 h2 h3 rfl rfl

end Lam
end Curver
