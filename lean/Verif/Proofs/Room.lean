import Verif.Proofs.LoopFlip
import Verif.Proofs.FlipRoom

/-!
# Copies of a short curve that can be taken away from a lamination, before and after a flip
-/

namespace Curver
open Triangulation

/-- `t` strands fit round the corner between the sides of weight `C` and `A` -/
def Cr (A B C t : Int) : Prop := t = 0 ∨ (2 * t ≤ A + C - B ∧ t ≤ A ∧ t ≤ C)

theorem triRoom_of_cr {A B C p q r : Int} (hA : 0 ≤ A) (hB : 0 ≤ B) (hC : 0 ≤ C) (p0 : 0 ≤ p) (q0 : 0 ≤ q) (r0 : 0 ≤ r)
    (hp : Cr A B C p) (hq : Cr B C A q) (hr : Cr C A B r) : TriRoom A B C p q r := by
  unfold Cr at hp hq hr
  refine ⟨p0, q0, r0, ?_, ?_, ?_, ?_, ?_, ?_⟩ <;> omega

theorem TriRoom.cr {A B C p q r : Int} (h : TriRoom A B C p q r) : Cr A B C p ∧ Cr B C A q ∧ Cr C A B r := by
  obtain ⟨h1, h2, h3, h4, h5, h6, h7, h8, h9⟩ := h
  unfold Cr
  refine ⟨?_, ?_, ?_⟩ <;> omega

theorem FlipCase.loop_a {b c d e x k M N : Int} (hk : 0 < k) (hc : 0 ≤ c) (hd : 0 ≤ d) (he : max e 0 = b) (h1 : TriRoom b c d k M N) (h2 : k + M ≤ b)
    (h : FlipCase 0 b c d e x) : x = d ∧ TriRoom (max x 0) d 0 0 (k + N) 0 ∧ TriRoom (max x 0) b c N k M ∧
      FlipCase 0 (b - (k + M)) (c - (M + N)) (d - (k + N)) (e - (k + M)) (x - (k + N)) := by
  obtain ⟨-, M0, N0, a1, a2, a3, a4, a5, a6⟩ := h1
  have e0 : e = b := by omega
  have hx : x = d := by
    have := FlipCase.unique (by omega) (by omega) hc hd h (.xbd (by omega) (by omega) (by omega) (by omega) (by omega) (by omega) (by omega) rfl)
    omega
  have hx0 : max x 0 = d := by omega
  refine ⟨hx, ?_, ?_, .xbd (by omega) (by omega) (by omega) (by omega) (by omega) (by omega) (by omega) (by omega)⟩
  · rw [hx0]; refine ⟨?_, ?_, ?_, ?_, ?_, ?_, ?_, ?_, ?_⟩ <;> omega
  · rw [hx0]; refine ⟨?_, ?_, ?_, ?_, ?_, ?_, ?_, ?_, ?_⟩ <;> omega

theorem FlipCase.loop_b {a c d e x k M N : Int} (hk : 0 < k) (hc : 0 ≤ c) (hd : 0 ≤ d) (he : max e 0 = a) (h1 : TriRoom a c d M k N) (h2 : k + M ≤ a)
    (h : FlipCase a 0 c d e x) : x = c ∧ TriRoom (max x 0) 0 c (k + N) 0 0 ∧ TriRoom (max x 0) d a k N M ∧
      FlipCase (a - (k + M)) 0 (c - (k + N)) (d - (M + N)) (e - (k + M)) (x - (k + N)) := by
  obtain ⟨M0, -, N0, a1, a2, a3, a4, a5, a6⟩ := h1
  have e0 : e = a := by omega
  have hx : x = c := by
    have := FlipCase.unique (by omega) (by omega) hc hd h (.xac (by omega) (by omega) (by omega) (by omega) (by omega) (by omega) (by omega) rfl)
    omega
  have hx0 : max x 0 = c := by omega
  refine ⟨hx, ?_, ?_, .xac (by omega) (by omega) (by omega) (by omega) (by omega) (by omega) (by omega) (by omega)⟩
  · rw [hx0]; refine ⟨?_, ?_, ?_, ?_, ?_, ?_, ?_, ?_, ?_⟩ <;> omega
  · rw [hx0]; refine ⟨?_, ?_, ?_, ?_, ?_, ?_, ?_, ?_, ?_⟩ <;> omega

namespace Triangulation
variable {S T : Triangulation} {e ε a b c d f β η : Int} {X Y : List Int} {U U' : Int → Int} {k : Int}

/-- the number of strands of the curve round the corner at the start of `x` -/
def mu (f β η : Int) (X : List Int) (x : Int) : Int := if x = f then 0 else if x = β then 0 else if x = η then 1 + X.count η else X.count x

theorem mu_nonneg (f β η : Int) (X : List Int) (x : Int) : 0 ≤ mu f β η X x := by unfold mu; split_ifs <;> omega

theorem Loop.gap (h : Loop T f β η X) {x y z : Int} (hg : T.Glues x y z) : cn X x + cn X z - cn X y = 2 * mu f β η X x := by
  have hc := h.valid.comp
  have ne := h.fan.base.nes
  unfold mu
  by_cases h1 : x = f
  · subst h1
    obtain ⟨rfl, rfl⟩ := hc.glues_unique hg h.glues
    rw [h.cn_a, h.cn_b, h.cn_e, if_pos rfl]; omega
  by_cases h2 : x = β
  · subst h2
    obtain ⟨rfl, rfl⟩ := hc.glues_unique hg h.glues.rot
    rw [h.cn_a, h.cn_b, h.cn_e, if_neg h1, if_pos rfl]; omega
  by_cases h3 : x = η
  · subst h3
    obtain ⟨rfl, rfl⟩ := hc.glues_unique hg h.glues.rot.rot
    rw [h.cn_a, h.cn_b, h.cn_e, if_neg h1, if_neg h2, if_pos rfl]; omega
  · rw [h.corner_other hg ⟨h1, h2, h3⟩, if_neg h1, if_neg h2, if_neg h3]

/-- `k` copies of the curve that goes round the edge `f` are part of the lamination with weights `U` -/
structure Room (T : Triangulation) (U : Int → Int) (f β η : Int) (X : List Int) (k : Int) : Prop where
  loop : Loop T f β η X
  off : U f ≤ 0
  bal : max (U β) 0 = max (U η) 0
  room : ∀ x y z, T.Glues x y z → Cr (max (U x) 0) (max (U y) 0) (max (U z) 0) (k * mu f β η X x)

theorem Room.tri (h : Room T U f β η X k) (hk : 0 ≤ k) {x y z : Int} (hg : T.Glues x y z) :
    TriRoom (max (U x) 0) (max (U y) 0) (max (U z) 0) (k * mu f β η X x) (k * mu f β η X y) (k * mu f β η X z) :=
  triRoom_of_cr (le_max_right _ _) (le_max_right _ _) (le_max_right _ _) (mul_nonneg hk (mu_nonneg _ _ _ _ _)) (mul_nonneg hk (mu_nonneg _ _ _ _ _))
    (mul_nonneg hk (mu_nonneg _ _ _ _ _)) (h.room _ _ _ hg) (h.room _ _ _ hg.rot) (h.room _ _ _ hg.rot.rot)

/-- the weights are at least those of the copies -/
theorem Room.le (h : Room T U f β η X k) (hk : 0 ≤ k) {x : Int} (hx : T.IsLabel x) : k * cn X x ≤ max (U x) 0 := by
  obtain ⟨y, z, hg⟩ := h.loop.valid.comp.exists_glues hx
  have h1 := h.loop.gap hg
  have h2 := h.loop.gap hg.rot
  have : cn X x = mu f β η X x + mu f β η X y := by omega
  rw [this, mul_add]
  exact (h.tri hk hg).ha

theorem Room.sub (h : Room T U f β η X k) (hk : 0 ≤ k) {x : Int} (hx : T.IsLabel x) : max (U x - k * cn X x) 0 = max (U x) 0 - k * cn X x := by
  have h1 := h.le hk hx
  have h2 : 0 ≤ k * cn X x := mul_nonneg hk (cn_nonneg _ _)
  omega

/-- what a flip does to the copies -/
structure RoomFlip (S T : Triangulation) (e ε a b c d : Int) (U U' : Int → Int) (f : Int) (X : List Int) (k β' η' : Int) (Y : List Int) : Prop where
  room : Room T U' f β' η' Y k
  kept : ∀ x, x ≠ e → x ≠ inv e → cn Y x = cn X x
  flip : FlipCase (max (U a - k * cn X a) 0) (max (U b - k * cn X b) 0) (max (U c - k * cn X c) 0) (max (U d - k * cn X d) 0) (U e - k * cn X e) (U' ε - k * cn Y ε)

theorem RoomFlip.turn {β' η' : Int} (hU : ∀ x, U (inv x) = U x) (hU' : ∀ x, U' (inv x) = U' x) (h : RoomFlip S T (inv e) (inv ε) c d a b U U' f X k β' η' Y) :
    RoomFlip S T e ε a b c d U U' f X k β' η' Y := by
  refine ⟨h.room, fun x h1 h2 => h.kept x h2 (by rw [inv_inv]; exact h1), ?_⟩
  have := h.flip.rot
  rwa [hU, hU', cn_inv, cn_inv] at this

/-- weights before and after a flip -/
structure FlipW (S : Triangulation) (U U' : Int → Int) (e ε a b c d : Int) : Prop where
  inv : ∀ x, U (inv x) = U x
  inv' : ∀ x, U' (Curver.inv x) = U' x
  kept : ∀ x, S.IsLabel x → x ≠ e → x ≠ Curver.inv e → U' x = U x
  new : FlipCase (max (U a) 0) (max (U b) 0) (max (U c) 0) (max (U d) 0) (U e) (U' ε)

theorem FlipW.turn (W : FlipW S U U' e ε a b c d) : FlipW S U U' (Curver.inv e) (Curver.inv ε) c d a b :=
  ⟨W.inv, W.inv', fun x hx h1 h2 => W.kept x hx (by rwa [inv_inv] at h2) h1, by rw [W.inv, W.inv']; exact W.new.rot⟩

theorem count_congr (hX : X.Nodup) (hY : Y.Nodup) {x y : Int} (h : y ∈ Y ↔ x ∈ X) : Y.count y = X.count x := by
  by_cases hx : x ∈ X
  · rw [List.count_eq_one_of_mem hX hx, List.count_eq_one_of_mem hY (h.2 hx)]
  · rw [List.count_eq_zero.2 hx, List.count_eq_zero.2 (fun k => hx (h.1 k))]

/-- the corners after a flip -/
theorem room_corners (D : FlipData S T e ε a b c d) (W : FlipW S U U' e ε a b c d) (h : Room S U f β η X k) {β' η' : Int}
    (hmu : ∀ x, S.IsLabel x → x ∉ [e, inv e, a, b, c, d] → mu f β' η' Y x = mu f β η X x)
    (h1 : TriRoom (max (U' ε) 0) (max (U d) 0) (max (U a) 0) (k * mu f β' η' Y ε) (k * mu f β' η' Y d) (k * mu f β' η' Y a))
    (h2 : TriRoom (max (U' ε) 0) (max (U b) 0) (max (U c) 0) (k * mu f β' η' Y (inv ε)) (k * mu f β' η' Y b) (k * mu f β' η' Y c)) :
    ∀ x y z, T.Glues x y z → Cr (max (U' x) 0) (max (U' y) 0) (max (U' z) 0) (k * mu f β' η' Y x) := by
  intro x y z hg
  have hx : S.IsLabel x := D.isLabel_iff.1 (D.hT.label_of_glues hg).1
  have la := (D.hS.label_of_glues D.s1)
  have lc := (D.hS.label_of_glues D.s2)
  have ka := W.kept a la.2.1 (D.ne a (by simp)).1 (D.ne a (by simp)).2
  have kb := W.kept b la.2.2 (D.ne b (by simp)).1 (D.ne b (by simp)).2
  have kc := W.kept c lc.2.1 (D.ne c (by simp)).1 (D.ne c (by simp)).2
  have kd := W.kept d lc.2.2 (D.ne d (by simp)).1 (D.ne d (by simp)).2
  have k1 := h1.cr
  have k2 := h2.cr
  have u := fun {x' y' z' : Int} (g : T.Glues x' y' z') (q : x = x') => D.hT.glues_unique (q ▸ hg) g
  have t1 := D.t1
  have t2 := D.t2
  by_cases q1 : x = ε
  · obtain ⟨rfl, rfl⟩ := u t1 q1
    rw [ka, kd, q1]; exact k1.1
  by_cases q2 : x = inv ε
  · obtain ⟨rfl, rfl⟩ := u t2 q2
    rw [kb, kc, q2, W.inv']; exact k2.1
  by_cases q3 : x = a
  · obtain ⟨rfl, rfl⟩ := u t1.rot.rot q3
    rw [q3, ka, kd]; exact k1.2.2
  by_cases q4 : x = b
  · obtain ⟨rfl, rfl⟩ := u t2.rot q4
    rw [q4, kb, kc, W.inv']; exact k2.2.1
  by_cases q5 : x = c
  · obtain ⟨rfl, rfl⟩ := u t2.rot.rot q5
    rw [q5, kb, kc, W.inv']; exact k2.2.2
  by_cases q6 : x = d
  · obtain ⟨rfl, rfl⟩ := u t1.rot q6
    rw [q6, kd, ka]; exact k1.2.1
  have q7 := (D.eps_pair x).2 ⟨q1, q2⟩
  have hgS : S.Glues x y z := D.symm.far hg (by simp [q1, q2, q3, q4, q5, q6])
  have hn : ∀ y', y' = y ∨ y' = z → y' ≠ e ∧ y' ≠ inv e := by
    intro y' hy'
    rw [D.eps_pair]
    constructor
    · rintro rfl
      rcases hy' with rfl | rfl
      · exact q3 (D.hT.glues_unique hg.rot t1).2
      · exact q6 (D.hT.glues_unique hg.rot.rot t1).1
    · rintro rfl
      rcases hy' with rfl | rfl
      · exact q5 (D.hT.glues_unique hg.rot t2).2
      · exact q4 (D.hT.glues_unique hg.rot.rot t2).1
  have ly := D.hS.label_of_glues hgS
  rw [W.kept x hx q7.1 q7.2, W.kept y ly.2.1 (hn y (.inl rfl)).1 (hn y (.inl rfl)).2, W.kept z ly.2.2 (hn z (.inr rfl)).1 (hn z (.inr rfl)).2,
    hmu x hx (by simp [q7.1, q7.2, q3, q4, q5, q6])]
  exact h.room x y z hgS

theorem Room.flip_far (D : FlipData S T e ε a b c d) (hT : T.Valid) (W : FlipW S U U' e ε a b c d) (h : Room S U f β η X k) (hk : 0 < k)
    (hf : f ∉ [e, inv e, a, b, c, d]) : ∃ β' η' Y, RoomFlip S T e ε a b c d U U' f X k β' η' Y := by
  have hf' := hf
  simp only [List.mem_cons, List.not_mem_nil, or_false, not_or] at hf'
  obtain ⟨f1, f2, f3, f4, f5, f6⟩ := hf'
  obtain ⟨β', η', Y, hY, m1, m2, m3⟩ := h.loop.flip D hT ⟨f1, f2⟩
  have hc := D.hS
  obtain ⟨rfl, rfl⟩ := D.hT.glues_unique hY.glues (D.far h.loop.glues hf)
  refine ⟨β', η', Y, ?_⟩
  have hL := h.loop
  have g := hL.glues
  -- the triangle of `f` is not one of the two
  have key : ∀ x, x ∈ [e, inv e, a, b, c, d] → x ≠ f ∧ x ≠ β' ∧ x ≠ η' := by
    have s1 := D.s1
    have s2 := D.s2
    intro x hx
    have P : ∀ {x y z : Int}, S.Glues x y z → f ≠ x → f ≠ y → f ≠ z → x ≠ f ∧ x ≠ β' ∧ x ≠ η' := by
      intro x y z hg q1 q2 q3
      refine ⟨q1.symm, ?_, ?_⟩
      · rintro rfl
        exact q3 (hc.glues_unique g.rot hg).2
      · rintro rfl
        exact q2 (hc.glues_unique g.rot.rot hg).1
    simp only [List.mem_cons, List.not_mem_nil, or_false] at hx
    rcases hx with rfl | rfl | rfl | rfl | rfl | rfl
    · exact P s1 f1 f3 f4
    · exact P s2 f2 f5 f6
    · exact P s1.rot f3 f4 f1
    · exact P s1.rot.rot f4 f1 f3
    · exact P s2.rot f5 f6 f2
    · exact P s2.rot.rot f6 f2 f5
  have muX : ∀ x, x ∈ [e, inv e, a, b, c, d] → mu f β' η' X x = X.count x := by
    intro x hx
    have := key x hx
    unfold mu
    rw [if_neg this.1, if_neg this.2.1, if_neg this.2.2]
  have ce : ∀ x, x ≠ e → x ≠ inv e → Y.count x = X.count x := fun x h1 h2 => count_congr hL.nodup hY.nodup (m1 x h1 h2)
  have cne : ∀ x, x ≠ e → x ≠ inv e → cn Y x = cn X x := by
    intro x h1 h2
    have := FlipData.inv_ne_pair ⟨h1, h2⟩
    unfold cn
    rw [ce x h1 h2, ce _ this.1 this.2]
  have cε : Y.count ε = X.count b := count_congr hL.nodup hY.nodup (by rw [m2, List.mem_cons]; constructor
                                                                       · rintro (q | q)
                                                                         · exact absurd q.symm f4
                                                                         · exact q
                                                                       · exact .inr)
  have cε' : Y.count (inv ε) = X.count d := count_congr hL.nodup hY.nodup (by rw [m3, List.mem_cons]; constructor
                                                                              · rintro (q | q)
                                                                                · exact absurd q.symm f6
                                                                                · exact q
                                                                              · exact .inr)
  have hε : ε ∈ [e, inv e, a, b, c, d] ∧ inv ε ∈ [e, inv e, a, b, c, d] := by rcases D.eps with q | q <;> rw [q] <;> simp
  have muY : ∀ x, x ∈ [e, inv e, a, b, c, d] → mu f β' η' Y x = Y.count x := by
    intro x hx
    have := key x hx
    unfold mu
    rw [if_neg this.1, if_neg this.2.1, if_neg this.2.2]
  have na := D.ne a (by simp)
  have nb := D.ne b (by simp)
  have nc := D.ne c (by simp)
  have nd := D.ne d (by simp)
  -- the counts round the ends of the edge
  have ca : X.count a = X.count (inv e) := by
    have := hL.count_spin D.s1.rot
    rw [if_neg (key a (by simp)).2.1, if_neg (key a (by simp)).1] at this
    omega
  have cc : X.count c = X.count e := by
    have := hL.count_spin D.s2.rot
    rw [if_neg (key c (by simp)).2.1, if_neg (key c (by simp)).1, inv_inv] at this
    omega
  have t1 := h.tri hk.le D.s1
  have t2 := h.tri hk.le D.s2
  rw [muX e (by simp), muX a (by simp), muX b (by simp), ca, ← cc] at t1
  rw [muX (inv e) (by simp), muX c (by simp), muX d (by simp), W.inv] at t2
  have r1 := W.new.room1 (le_max_right _ _) (le_max_right _ _) (le_max_right _ _) (le_max_right _ _) t1 t2
  have r2 := W.new.room2 (le_max_right _ _) (le_max_right _ _) (le_max_right _ _) (le_max_right _ _) t1 t2
  have rm := W.new.remove t1 t2
  have la := D.hS.label_of_glues D.s1
  have lc := D.hS.label_of_glues D.s2
  have cna : cn X a = X.count (inv e) + X.count b := by
    have q1 := hL.gap D.s1.rot
    have q2 := hL.gap D.s1.rot.rot
    rw [muX a (by simp)] at q1
    rw [muX b (by simp)] at q2
    omega
  have cnb : cn X b = X.count b + X.count c := by
    have q1 := hL.gap D.s1.rot.rot
    have q2 := hL.gap D.s1
    rw [muX b (by simp)] at q1
    rw [muX e (by simp)] at q2
    omega
  have cne' : cn X e = X.count c + X.count (inv e) := by unfold cn; rw [cc]
  have cnc : cn X c = X.count c + X.count d := by
    have q1 := hL.gap D.s2.rot
    have q2 := hL.gap D.s2.rot.rot
    rw [muX c (by simp)] at q1
    rw [muX d (by simp)] at q2
    omega
  have cnd : cn X d = X.count d + X.count (inv e) := by
    have q1 := hL.gap D.s2.rot.rot
    have q2 := hL.gap D.s2
    rw [muX d (by simp)] at q1
    rw [muX _ (by simp)] at q2
    omega
  have cnε : cn Y ε = X.count b + X.count d := by unfold cn; rw [cε, cε']
  refine ⟨⟨hY, ?_, ?_, ?_⟩, cne, ?_⟩
  · rw [W.kept f hL.sweep.label f1 f2]; exact h.off
  · have lb := hc.label_of_glues g
    have kk : ∀ y, y = β' ∨ y = η' → y ≠ e ∧ y ≠ inv e := by
      intro y hy
      have k1 := key e (by simp)
      have k2 := key (inv e) (by simp)
      rcases hy with rfl | rfl
      · exact ⟨k1.2.1.symm, k2.2.1.symm⟩
      · exact ⟨k1.2.2.symm, k2.2.2.symm⟩
    rw [W.kept _ lb.2.1 (kk _ (.inl rfl)).1 (kk _ (.inl rfl)).2, W.kept _ lb.2.2 (kk _ (.inr rfl)).1 (kk _ (.inr rfl)).2]
    exact h.bal
  · refine room_corners D W h ?_ ?_ ?_
    · intro x hx hn
      simp only [List.mem_cons, List.not_mem_nil, or_false, not_or] at hn
      have : ∀ y, y = x ∨ y = η' → Y.count y = X.count y := by
        intro y hy
        rcases hy with rfl | rfl
        · exact ce y hn.1 hn.2.1
        · exact ce y (key e (by simp)).2.2.symm (key (inv e) (by simp)).2.2.symm
      unfold mu
      rw [this x (.inl rfl), this η' (.inr rfl)]
    · rw [muY ε hε.1, muY d (by simp), muY a (by simp), cε, ce d nd.1 nd.2, ce a na.1 na.2, ca]
      exact r1
    · rw [muY (inv ε) hε.2, muY b (by simp), muY c (by simp), cε', ce b nb.1 nb.2, ce c nc.1 nc.2]
      exact r2
  · rw [h.sub hk.le la.2.1, h.sub hk.le la.2.2, h.sub hk.le lc.2.1, h.sub hk.le lc.2.2, cna, cnb, cnc, cnd, cne', cnε]
    convert rm using 1 <;> ring

theorem Room.flip_a (D : FlipData S T e ε a b c d) (hT : T.Valid) (W : FlipW S U U' e ε a b c d) (h : Room S U a β η X k) (hk : 0 < k) :
    ∃ β' η' Y, RoomFlip S T e ε a b c d U U' a X k β' η' Y := by
  obtain ⟨d1, d2, d3, d4, d5, d6, d7, d8, d9, d10, d11, d12, d13, d14, d15⟩ := D.distinct
  obtain ⟨β', η', Y, hY, m1, m2, m3⟩ := h.loop.flip D hT ⟨d2, d3⟩
  have hL := h.loop
  obtain ⟨rfl, rfl⟩ := D.hS.glues_unique hL.glues D.s1.rot
  obtain ⟨rfl, rfl⟩ := D.hT.glues_unique hY.glues D.t1.rot.rot
  refine ⟨β', η', Y, ?_⟩
  have na := D.ne a (by simp)
  have nb := D.ne β (by simp)
  have nc := D.ne c (by simp)
  have nd := D.ne η' (by simp)
  have ea := (D.eps_pair a).1 na
  have eb := (D.eps_pair β).1 nb
  have ec := (D.eps_pair c).1 nc
  have ed := (D.eps_pair η').1 nd
  have ce : ∀ x, x ≠ η → x ≠ inv η → Y.count x = X.count x := fun x h1 h2 => count_congr hL.nodup hY.nodup (m1 x h1 h2)
  have cne : ∀ x, x ≠ η → x ≠ inv η → cn Y x = cn X x := by
    intro x h1 h2
    have := FlipData.inv_ne_pair ⟨h1, h2⟩
    unfold cn
    rw [ce x h1 h2, ce _ this.1 this.2]
  have cε' : Y.count (inv β') = X.count η' := count_congr hL.nodup hY.nodup (by
    rw [m3, List.mem_cons]
    constructor
    · rintro (q | q)
      · exact absurd q.symm d5
      · exact q
    · exact .inr)
  have cc : X.count c = X.count η := by
    have := hL.count_spin D.s2.rot
    rw [if_neg d8.symm, if_neg d4.symm, inv_inv] at this
    omega
  have u1 : mu a β η X (inv η) = 1 := by unfold mu; rw [if_neg d3.symm, if_neg d7.symm, if_neg (inv_ne η), hL.count_ie]; rfl
  have u2 : mu a β η X c = X.count η := by unfold mu; rw [if_neg d4.symm, if_neg d8.symm, if_neg nc.1, cc]
  have u3 : mu a β η X η' = X.count η' := by unfold mu; rw [if_neg d5.symm, if_neg d9.symm, if_neg nd.1]
  have u4 : mu a β η X η = 1 + X.count η := by unfold mu; rw [if_neg d2.symm, if_neg d6.symm, if_pos rfl]
  have v1 : mu a β' η' Y β' = 0 := by unfold mu; rw [if_neg ea.1.symm, if_pos rfl]
  have v2 : mu a β' η' Y η' = 1 + X.count η' := by unfold mu; rw [if_neg d5.symm, if_neg ed.1, if_pos rfl, ce η' nd.1 nd.2]
  have v3 : mu a β' η' Y a = 0 := by unfold mu; rw [if_pos rfl]
  have v4 : mu a β' η' Y (inv β') = X.count η' := by unfold mu; rw [if_neg ea.2.symm, if_neg (inv_ne β'), if_neg ed.2.symm, cε']
  have v5 : mu a β' η' Y β = 1 := by unfold mu; rw [if_neg d1.symm, if_neg eb.1, if_neg d9, ce β nb.1 nb.2, hL.count_b]; rfl
  have v6 : mu a β' η' Y c = X.count η := by unfold mu; rw [if_neg d4.symm, if_neg ec.1, if_neg d15, ce c nc.1 nc.2, cc]
  have t2 := h.tri hk.le D.s2
  rw [u1, u2, u3, W.inv, mul_one, ← h.bal] at t2
  have t1 := (h.tri hk.le D.s1).cr.1
  have kM : 0 ≤ k * (X.count η : Int) := mul_nonneg hk.le (by omega)
  have kN : 0 ≤ k * (X.count η' : Int) := mul_nonneg hk.le (by omega)
  rw [u4, ← h.bal, mul_add, mul_one] at t1
  have t3 : k + k * (X.count η : Int) ≤ max (U β) 0 := by unfold Cr at t1; omega
  have off0 : max (U a) 0 = 0 := max_eq_right h.off
  have hn := W.new
  rw [off0] at hn
  obtain ⟨r1, r2, r3, r4⟩ := FlipCase.loop_a hk (le_max_right _ _) (le_max_right _ _) h.bal.symm t2 t3 hn
  have la := D.hS.label_of_glues D.s1
  have lc := D.hS.label_of_glues D.s2
  have cnc : cn X c = X.count η + X.count η' := by
    have q1 := hL.gap D.s2.rot
    have q2 := hL.gap D.s2.rot.rot
    rw [u2] at q1
    rw [u3] at q2
    omega
  have cnd : cn X η' = 1 + X.count η' := by
    have q1 := hL.gap D.s2.rot.rot
    have q2 := hL.gap D.s2
    rw [u3] at q1
    rw [u1] at q2
    omega
  have cnε : cn Y β' = 1 + X.count η' := by rw [hY.cn_b, ce η' nd.1 nd.2]
  refine ⟨⟨hY, ?_, ?_, ?_⟩, cne, ?_⟩
  · rw [W.kept a la.2.1 na.1 na.2]; exact h.off
  · rw [W.kept η' lc.2.2 nd.1 nd.2, r1]; exact max_eq_left (le_max_right _ _)
  · refine room_corners D W h ?_ ?_ ?_
    · intro x hx hn
      simp only [List.mem_cons, List.not_mem_nil, or_false, not_or] at hn
      obtain ⟨n1, n2, n3, n4, n5, n6⟩ := hn
      unfold mu
      rw [if_neg n3, if_neg ((D.eps_pair x).1 ⟨n1, n2⟩).1, if_neg n6, if_neg n3, if_neg n4, if_neg n1, ce x n1 n2]
    · rw [v1, v2, v3, off0, mul_zero, mul_add, mul_one]
      exact r2
    · rw [v4, v5, v6, mul_one]
      exact r3
  · rw [h.sub hk.le la.2.1, h.sub hk.le la.2.2, h.sub hk.le lc.2.1, h.sub hk.le lc.2.2, hL.cn_a, hL.cn_b, cnc, cnd, hL.cn_e, cnε, off0, mul_zero, sub_zero]
    convert r4 using 1 <;> ring

theorem Room.flip_b (D : FlipData S T e ε a b c d) (hT : T.Valid) (W : FlipW S U U' e ε a b c d) (h : Room S U b β η X k) (hk : 0 < k) :
    ∃ β' η' Y, RoomFlip S T e ε a b c d U U' b X k β' η' Y := by
  obtain ⟨d1, d2, d3, d4, d5, d6, d7, d8, d9, d10, d11, d12, d13, d14, d15⟩ := D.distinct
  obtain ⟨β', η', Y, hY, m1, m2, m3⟩ := h.loop.flip D hT ⟨d6, d7⟩
  have hL := h.loop
  obtain ⟨rfl, rfl⟩ := D.hS.glues_unique hL.glues D.s1.rot.rot
  obtain ⟨rfl, rfl⟩ := D.hT.glues_unique hY.glues D.t2.rot
  refine ⟨β', inv ε, Y, ?_⟩
  have na := D.ne η (by simp)
  have nb := D.ne b (by simp)
  have nc := D.ne β' (by simp)
  have nd := D.ne d (by simp)
  have ea := (D.eps_pair η).1 na
  have eb := (D.eps_pair b).1 nb
  have ec := (D.eps_pair β').1 nc
  have ed := (D.eps_pair d).1 nd
  have ce : ∀ x, x ≠ β → x ≠ inv β → Y.count x = X.count x := fun x h1 h2 => count_congr hL.nodup hY.nodup (m1 x h1 h2)
  have cne : ∀ x, x ≠ β → x ≠ inv β → cn Y x = cn X x := by
    intro x h1 h2
    have := FlipData.inv_ne_pair ⟨h1, h2⟩
    unfold cn
    rw [ce x h1 h2, ce _ this.1 this.2]
  have cε' : Y.count (inv ε) = X.count d := count_congr hL.nodup hY.nodup (by
    rw [m3, List.mem_cons]
    constructor
    · rintro (q | q)
      · exact absurd q.symm d9
      · exact q
    · exact .inr)
  have cε : Y.count ε = 1 := List.count_eq_one_of_mem hY.nodup (m2.2 (by simp))
  have cc : X.count β' = 1 := by
    have := hL.count_spin D.s2.rot
    rw [if_neg nc.1, if_neg d8.symm, inv_inv, hL.count_b] at this
    omega
  have ci : X.count (inv β) = X.count η := hL.count_e.symm
  have u1 : mu b β η X (inv β) = X.count η := by unfold mu; rw [if_neg d7.symm, if_neg (inv_ne β), if_neg d3.symm, ci]
  have u2 : mu b β η X β' = 1 := by unfold mu; rw [if_neg d8.symm, if_neg nc.1, if_neg d4.symm, cc]; rfl
  have u3 : mu b β η X d = X.count d := by unfold mu; rw [if_neg d9.symm, if_neg nd.1, if_neg d5.symm]
  have u4 : mu b β η X η = 1 + X.count η := by unfold mu; rw [if_neg d1, if_neg d2, if_pos rfl]
  have ne1 : ε ≠ inv ε := (inv_ne ε).symm
  have v1 : mu b β' (inv ε) Y ε = 1 := by unfold mu; rw [if_neg eb.1.symm, if_neg ec.1.symm, if_neg ne1, cε]; rfl
  have v2 : mu b β' (inv ε) Y d = X.count d := by unfold mu; rw [if_neg d9.symm, if_neg d15.symm, if_neg ed.2, ce d nd.1 nd.2]
  have v3 : mu b β' (inv ε) Y η = X.count η := by unfold mu; rw [if_neg d1, if_neg d4, if_neg ea.2, ce η na.1 na.2]
  have v4 : mu b β' (inv ε) Y (inv ε) = 1 + X.count d := by unfold mu; rw [if_neg eb.2.symm, if_neg ec.2.symm, if_pos rfl, cε']
  have v5 : mu b β' (inv ε) Y b = 0 := by unfold mu; rw [if_pos rfl]
  have v6 : mu b β' (inv ε) Y β' = 0 := by unfold mu; rw [if_neg d8.symm, if_pos rfl]
  have t2 := h.tri hk.le D.s2
  rw [u1, u2, u3, W.inv, mul_one, h.bal] at t2
  have t1 := (h.tri hk.le D.s1.rot).cr.1
  have kM : 0 ≤ k * (X.count η : Int) := mul_nonneg hk.le (by omega)
  have kN : 0 ≤ k * (X.count d : Int) := mul_nonneg hk.le (by omega)
  rw [u4, h.bal, mul_add, mul_one] at t1
  have t3 : k + k * (X.count η : Int) ≤ max (U η) 0 := by unfold Cr at t1; omega
  have off0 : max (U b) 0 = 0 := max_eq_right h.off
  have hn := W.new
  rw [off0] at hn
  obtain ⟨r1, r2, r3, r4⟩ := FlipCase.loop_b hk (le_max_right _ _) (le_max_right _ _) h.bal t2 t3 hn
  have la := D.hS.label_of_glues D.s1
  have lc := D.hS.label_of_glues D.s2
  have cnc : cn X β' = 1 + X.count d := by
    have q1 := hL.gap D.s2.rot
    have q2 := hL.gap D.s2.rot.rot
    rw [u2] at q1
    rw [u3] at q2
    omega
  have cnd : cn X d = X.count η + X.count d := by
    have q1 := hL.gap D.s2.rot.rot
    have q2 := hL.gap D.s2
    rw [u3] at q1
    rw [u1] at q2
    omega
  have cnε : cn Y ε = 1 + X.count d := by unfold cn; rw [cε, cε']; rfl
  refine ⟨⟨hY, ?_, ?_, ?_⟩, cne, ?_⟩
  · rw [W.kept b la.2.2 nb.1 nb.2]; exact h.off
  · rw [W.kept β' lc.2.1 nc.1 nc.2, W.inv', r1]; exact (max_eq_left (le_max_right _ _)).symm
  · refine room_corners D W h ?_ ?_ ?_
    · intro x hx hn
      simp only [List.mem_cons, List.not_mem_nil, or_false, not_or] at hn
      obtain ⟨n1, n2, n3, n4, n5, n6⟩ := hn
      unfold mu
      rw [if_neg n4, if_neg n5, if_neg ((D.eps_pair x).1 ⟨n1, n2⟩).2, if_neg n4, if_neg n1, if_neg n3, ce x n1 n2]
    · rw [v1, v2, v3, mul_one]
      exact r3
    · rw [v4, v5, v6, off0, mul_zero, mul_add, mul_one]
      exact r2
  · rw [h.sub hk.le la.2.1, h.sub hk.le la.2.2, h.sub hk.le lc.2.1, h.sub hk.le lc.2.2, hL.cn_a, hL.cn_b, cnc, cnd, hL.cn_e, cnε, off0, mul_zero, sub_zero]
    convert r4 using 1 <;> ring

/-- flips of other edges keep the copies of the curve -/
theorem Room.flip (D : FlipData S T e ε a b c d) (hT : T.Valid) (W : FlipW S U U' e ε a b c d) (h : Room S U f β η X k) (hk : 0 < k) (hf : f ≠ e ∧ f ≠ inv e) :
    ∃ β' η' Y, RoomFlip S T e ε a b c d U U' f X k β' η' Y := by
  by_cases f1 : f = a
  · subst f1; exact h.flip_a D hT W hk
  by_cases f2 : f = b
  · subst f2; exact h.flip_b D hT W hk
  by_cases f3 : f = c
  · subst f3
    obtain ⟨β', η', Y, hh⟩ := h.flip_a D.turn hT W.turn hk
    exact ⟨β', η', Y, hh.turn W.inv W.inv'⟩
  by_cases f4 : f = d
  · subst f4
    obtain ⟨β', η', Y, hh⟩ := h.flip_b D.turn hT W.turn hk
    exact ⟨β', η', Y, hh.turn W.inv W.inv'⟩
  exact h.flip_far D hT W hk (by simp [hf.1, hf.2, f1, f2, f3, f4])

end Triangulation
end Curver
