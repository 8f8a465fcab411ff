import Verif.Proofs.Clear

namespace Curver
open Triangulation
namespace Triangulation
variable {T : Triangulation} {a e : Int}

set_option maxHeartbeats 4000000 in
theorem exists_shuffle {c a e f P Q u v x y : Int} (d1 : c ≠ a) (d2 : c ≠ e) (d3 : c ≠ f) (d4 : c ≠ P) (d5 : c ≠ Q) (d6 : a ≠ e) (d7 : a ≠ f) (d8 : a ≠ P) (d9 : a ≠ Q)
    (d10 : e ≠ f) (d11 : e ≠ P) (d12 : e ≠ Q) (d13 : f ≠ P) (d14 : f ≠ Q) (d15 : P ≠ Q) (huv : (u = P ∧ v = Q) ∨ (u = Q ∧ v = P)) (hxy : (x = e ∧ y = f) ∨ (x = f ∧ y = e)) :
    ∃ π : Int → Int, (∀ z, (z = c ∧ π z = a) ∨ (z = a ∧ π z = c) ∨ (z = e ∧ π z = u) ∨ (z = f ∧ π z = v) ∨ (z = P ∧ π z = x) ∨ (z = Q ∧ π z = y) ∨
      (z ≠ c ∧ z ≠ a ∧ z ≠ e ∧ z ≠ f ∧ z ≠ P ∧ z ≠ Q ∧ π z = z)) ∧ (∀ z w, π z = π w → z = w) ∧ π c = a ∧ π a = c ∧ π e = u ∧ π f = v ∧ π P = x ∧ π Q = y ∧
      ∀ z, z ≠ c → z ≠ a → z ≠ e → z ≠ f → z ≠ P → z ≠ Q → π z = z := by
  refine ⟨fun z => if z = c then a else if z = a then c else if z = e then u else if z = f then v else if z = P then x else if z = Q then y else z, ?_⟩
  have key : ∀ z : Int, ∃ k, (if z = c then a else if z = a then c else if z = e then u else if z = f then v else if z = P then x else if z = Q then y else z) = k ∧
      ((z = c ∧ k = a) ∨ (z = a ∧ k = c) ∨ (z = e ∧ k = u) ∨ (z = f ∧ k = v) ∨ (z = P ∧ k = x) ∨ (z = Q ∧ k = y) ∨
      (z ≠ c ∧ z ≠ a ∧ z ≠ e ∧ z ≠ f ∧ z ≠ P ∧ z ≠ Q ∧ k = z)) := by
    intro z; refine ⟨_, rfl, ?_⟩
    by_cases h1 : z = c
    · left; exact ⟨h1, if_pos h1⟩
    by_cases h2 : z = a
    · right; left; refine ⟨h2, ?_⟩; rw [if_neg h1, if_pos h2]
    by_cases h3 : z = e
    · right; right; left; refine ⟨h3, ?_⟩; rw [if_neg h1, if_neg h2, if_pos h3]
    by_cases h4 : z = f
    · right; right; right; left; refine ⟨h4, ?_⟩; rw [if_neg h1, if_neg h2, if_neg h3, if_pos h4]
    by_cases h5 : z = P
    · right; right; right; right; left; refine ⟨h5, ?_⟩; rw [if_neg h1, if_neg h2, if_neg h3, if_neg h4, if_pos h5]
    by_cases h6 : z = Q
    · right; right; right; right; right; left; refine ⟨h6, ?_⟩; rw [if_neg h1, if_neg h2, if_neg h3, if_neg h4, if_neg h5, if_pos h6]
    · right; right; right; right; right; right; refine ⟨h1, h2, h3, h4, h5, h6, ?_⟩; rw [if_neg h1, if_neg h2, if_neg h3, if_neg h4, if_neg h5, if_neg h6]
  refine ⟨fun z => ?_, fun z w => ?_, if_pos rfl, ?_, ?_, ?_, ?_, ?_, ?_⟩
  · obtain ⟨k, h1, h2⟩ := key z
    rw [← h1] at h2; exact h2
  · obtain ⟨k, h1, h2⟩ := key z
    obtain ⟨l, h3, h4⟩ := key w
    dsimp only
    rw [h1, h3]
    rintro rfl
    rcases huv with ⟨rfl, rfl⟩ | ⟨rfl, rfl⟩ <;> rcases hxy with ⟨rfl, rfl⟩ | ⟨rfl, rfl⟩ <;> clear key h1 h3 <;>
    rcases h2 with h | h | h | h | h | h | h <;> rcases h4 with h4 | h4 | h4 | h4 | h4 | h4 | h4 <;> omega
  · dsimp only; rw [if_neg d1.symm, if_pos rfl]
  · dsimp only; rw [if_neg d2.symm, if_neg d6.symm, if_pos rfl]
  · dsimp only; rw [if_neg d3.symm, if_neg d7.symm, if_neg d10.symm, if_pos rfl]
  · dsimp only; rw [if_neg d4.symm, if_neg d8.symm, if_neg d11.symm, if_neg d13.symm, if_pos rfl]
  · dsimp only; rw [if_neg d5.symm, if_neg d9.symm, if_neg d12.symm, if_neg d14.symm, if_neg d15.symm, if_pos rfl]
  · intro z h1 h2 h3 h4 h5 h6
    dsimp only; rw [if_neg h1, if_neg h2, if_neg h3, if_neg h4, if_neg h5, if_neg h6]

/-- the six labels of the two triangles next to the edge `e` that surrounds `a` -/
theorem FlipData.distinct {S : Triangulation} {e ε c a P Q : Int} (D : FlipData T S e ε c a P Q) : c ≠ a ∧ c ≠ e ∧ c ≠ inv e ∧ c ≠ P ∧ c ≠ Q ∧ a ≠ e ∧ a ≠ inv e ∧ a ≠ P ∧ a ≠ Q ∧
    e ≠ inv e ∧ e ≠ P ∧ e ≠ Q ∧ inv e ≠ P ∧ inv e ≠ Q ∧ P ≠ Q := by
  have n1 := D.hS.glues_ne D.s1
  have n2 := D.hS.glues_ne D.s2
  have nc := D.ne c (by simp)
  have na := D.ne a (by simp)
  have nP := D.ne P (by simp)
  have nQ := D.ne Q (by simp)
  have i := inv_ne e
  refine ⟨n1.2.1, nc.1, nc.2, ?_, ?_, na.1, na.2, ?_, ?_, i.symm, nP.1.symm, nQ.1.symm, nP.2.symm, nQ.2.symm, n2.2.1⟩
  · rintro rfl; exact i (D.hS.glues_unique D.s2.rot D.s1.rot).2
  · rintro rfl; exact na.2 (D.hS.glues_unique D.s2.rot.rot D.s1.rot).1.symm
  · rintro rfl; exact nQ.1 (D.hS.glues_unique D.s2.rot D.s1.rot.rot).1
  · rintro rfl; exact i (D.hS.glues_unique D.s2.rot.rot D.s1.rot.rot).1

/-- the half twist, once `a` is surrounded by the edge `e`: the flips and the relabelling -/
structure Half (T : Triangulation) (a e P Q : Int) (S1 : Triangulation) (ε : Int) (D : List Int) (ms : List LMove) (S : Triangulation) (F : Int → Int) (S' : Triangulation)
    (ε2 r : Int) (Ψ : Int → Int) : Prop where
  flippable : T.Flippable e
  flipped : T.IsMultiflip [e] S1
  data : FlipData T S1 e ε (inv a) a P Q
  swing : Swing S1 (inv a) ε Q D
  swept : Swept S1 (inv a) ε Q D ms S F S' ε2 r (inv ε)
  hatr : hat ε Q r = P
  iso : T.IsIsometry S' Ψ
  at_c : Ψ (inv a) = a
  at_a : Ψ a = inv a
  at_e : Ψ e = ε2
  at_P : Ψ P = F ε
  at_Q : Ψ Q = F (inv ε)
  other : ∀ x, x ≠ inv a → x ≠ a → x ≠ e → x ≠ inv e → x ≠ P → x ≠ Q → Ψ x = F x
  fix : ∀ x, T.IsLabel x → ¬ T.Joined a x → Ψ x = x

set_option maxHeartbeats 1000000 in
theorem Valid.half (hT : T.Valid) (hg : T.Glues a e (inv a)) : ∃ P Q S1 ε D ms S F S' ε2 r Ψ, Half T a e P Q S1 ε D ms S F S' ε2 r Ψ := by
  have hc := hT.comp
  have le := (hc.label_of_glues hg).2.1
  have la := (hc.label_of_glues hg).1
  have g1 := hg.rot
  have ng := hc.glues_ne hg
  have hf : T.Flippable e := by
    refine ⟨le, ?_⟩
    rw [hc.sameTriangle_iff le]
    obtain ⟨h1, h2⟩ := hc.glues_unique (hc.glues_nxt le) g1
    rw [h1] at h2
    rw [h1, h2]
    push Not
    refine ⟨inv_ne e, fun h => ng.1 (inv_inj.1 h).symm, fun h => ng.2.1 ?_⟩
    rw [← h, inv_inv]
  obtain ⟨S1, hm, _⟩ := hT.encodeFlip_eq hf
  obtain ⟨ε, A, B, P, Q, K⟩ := hf.flipData hT hm
  obtain ⟨rfl, rfl⟩ := hc.glues_unique K.s1 g1
  obtain ⟨d1, d2, d3, d4, d5, d6, d7, d8, d9, d10, d11, d12, d13, d14, d15⟩ := K.distinct
  have hε : (ε = e ∧ inv ε = inv e) ∨ (ε = inv e ∧ inv ε = e) := by
    rcases K.eps with h | h
    · exact .inl ⟨h, by rw [h]⟩
    · exact .inr ⟨h, by rw [h, inv_inv]⟩
  -- facts about `ε`
  have εn : ∀ x, x ≠ e → x ≠ inv e → x ≠ ε ∧ x ≠ inv ε := by
    intro x h1 h2
    rcases hε with ⟨h, h'⟩ | ⟨h, h'⟩ <;> rw [h', h] <;> tauto
  have εc := εn _ d2 d3
  have εB := εn _ d6 d7
  have εP := εn P d11.symm d13.symm
  have εQ := εn Q d12.symm d14.symm
  have base : Base S1 (inv B) ε Q := by
    refine ⟨hm.valid, K.t1.rot.rot, fun h => εQ.2 (by rw [h, inv_inv]), ?_, ?_⟩
    · rw [inv_inv]; exact εB.1.symm
    · rw [inv_inv]; exact d9.symm
  have gB : S1.Glues B P (inv ε) := K.t2.rot
  have lB : S1.IsLabel B := (K.hT.label_of_glues gB).1
  have hsv : ¬ S1.SV (inv B) (inv (inv B)) := by
    rw [inv_inv]
    intro h
    have h2 := K.hT.sv_symm (isLabel_inv.2 lB) h
    have h3 := K.hT.sv_induct lB h2 (fun z => z = B ∨ z = ε) (.inl rfl) (by
      rintro z _ (rfl | rfl)
      · right; rw [Sweep.spin_eq K.hT gB, inv_inv]
      · left; rw [Sweep.spin_eq K.hT K.t1, inv_inv])
    rcases h3 with h | h
    · exact d1 h
    · exact εc.1 h
  obtain ⟨D, hsw⟩ := base.swing hsv
  obtain ⟨ms, S, F, S', ε2, r, p, W⟩ := hsw.swept
  have hrp : hat ε Q r = P ∧ p = inv ε := by
    have := W.glues
    rw [inv_inv] at this
    exact K.hT.glues_unique this.rot.rot gB
  obtain ⟨hr, rfl⟩ := hrp
  have sl := W.slid
  have Fc := sl.fa
  have FB := sl.fia
  rw [inv_inv] at FB
  have hFP : inv (F Q) = F P := by rw [sl.fe, inv_inv, hr]
  have hu : ∃ u v, ε2 = F u ∧ inv ε2 = F v ∧ ((u = P ∧ v = Q) ∨ (u = Q ∧ v = P)) := by
    rcases W.data.eps with h | h
    · exact ⟨Q, P, h, by rw [h, hFP], .inr ⟨rfl, rfl⟩⟩
    · exact ⟨P, Q, by rw [h, hFP], by rw [h, inv_inv], .inl ⟨rfl, rfl⟩⟩
  obtain ⟨u, v, hu1, hu2, huv⟩ := hu
  obtain ⟨π, π1, π2, πc, πB, πe, πi, πP, πQ, πo⟩ := exists_shuffle d1 d2 d3 d4 d5 d6 d7 d8 d9 d10 d11 d12 d13 d14 d15 huv hε
  have labs : S1.IsLabel P ∧ S1.IsLabel Q ∧ S1.IsLabel ε := ⟨(K.hT.label_of_glues gB).2.1, base.labels.2.2, base.labels.2.1⟩
  have lu : S1.IsLabel u ∧ S1.IsLabel v := by
    rcases huv with ⟨rfl, rfl⟩ | ⟨rfl, rfl⟩
    · exact ⟨labs.1, labs.2.1⟩
    · exact ⟨labs.2.1, labs.1⟩
  -- the relabelling
  let Ψ : Int → Int := fun x => F (π x)
  have vc : Ψ (inv B) = B := by
    simp only [Ψ, πc, FB]
  have vB : Ψ B = inv B := by
    simp only [Ψ, πB, Fc]
  have ve : Ψ e = ε2 := by
    simp only [Ψ, πe, hu1]
  have vi : Ψ (inv e) = inv ε2 := by
    simp only [Ψ, πi, hu2]
  have vP : Ψ P = F ε := by
    simp only [Ψ, πP]
  have vQ : Ψ Q = F (inv ε) := by
    simp only [Ψ, πQ]
  have vo : ∀ x, x ≠ inv B → x ≠ B → x ≠ e → x ≠ inv e → x ≠ P → x ≠ Q → Ψ x = F x := by
    intro x h1 h2 h3 h4 h5 h6
    have := πo x h1 h2 h3 h4 h5 h6
    simp only [Ψ, this]
  have πl : ∀ x, S1.IsLabel x → S1.IsLabel (π x) := by
    intro x hx
    rcases π1 x with ⟨_, h⟩ | ⟨_, h⟩ | ⟨_, h⟩ | ⟨_, h⟩ | ⟨_, h⟩ | ⟨_, h⟩ | ⟨_, _, _, _, _, _, h⟩ <;> rw [h]
    exacts [lB, isLabel_inv.2 lB, lu.1, lu.2, labs.2.2, isLabel_inv.2 labs.2.2, hx]
  have hz1 : S1.zeta = T.zeta := K.zeta
  have lab1 : ∀ {x}, S1.IsLabel x ↔ T.IsLabel x := K.isLabel_iff
  -- inverses
  have leftε : S1.Left (inv B) Q ε := base.left_b
  have rcase : (P = inv Q ∧ r = ε) ∨ (P ≠ inv Q ∧ r = P) := by
    by_cases h : P = inv Q
    · left; refine ⟨h, base.hat_inj W.left.1 leftε ?_⟩
      rw [hr, h, Base.hat_b]
    · right; refine ⟨h, ?_⟩
      unfold hat at hr
      split at hr
      · exact absurd hr.symm h
      · exact hr
  have hinvP : Ψ (inv P) = inv (Ψ P) := by
    rw [vP]
    rcases rcase with ⟨h, hr'⟩ | ⟨h, hr'⟩
    · have := sl.fb
      rw [hr', Base.hat_of_ne (inv_ne ε)] at this
      rw [h, inv_inv, vQ, this, inv_inv]
    · have := sl.fb
      rw [hr', Base.hat_of_ne (fun k => εP.2 (by rw [← k, inv_inv]))] at this
      rw [vo (inv P) _ _ _ _ _ _, this, inv_inv]
      · intro k; exact d8 (inv_inj.1 k).symm
      · intro k; exact d4 (by rw [← k, inv_inv])
      · intro k; exact d13 (by rw [← k, inv_inv])
      · intro k; exact d11 (inv_inj.1 k).symm
      · exact inv_ne P
      · intro k; exact h (by rw [← k, inv_inv])
  have hinvQ : Ψ (inv Q) = inv (Ψ Q) := by
    rcases rcase with ⟨h, hr'⟩ | ⟨h, hr'⟩
    · have := hinvP
      rw [h, inv_inv] at this
      rw [this, inv_inv]
    · have h1 : ε ≠ r := by rw [hr']; exact εP.1.symm
      have h2 : ε ≠ inv r := by rw [hr']; exact fun k => εP.2 (by rw [k, inv_inv])
      have := sl.tw ε leftε base.left_inv_b h1 h2
      rw [Base.hat_of_ne (inv_ne ε), Base.hat_b] at this
      rw [vQ, vo (inv Q) _ _ _ _ _ _, this, inv_inv]
      · intro k; exact d9 (inv_inj.1 k).symm
      · intro k; exact d5 (by rw [← k, inv_inv])
      · intro k; exact d14 (by rw [← k, inv_inv])
      · intro k; exact d12 (inv_inj.1 k).symm
      · intro k; exact h k.symm
      · exact inv_ne Q
  have hinv : ∀ x, T.IsLabel x → Ψ (inv x) = inv (Ψ x) := by
    intro x hx
    by_cases h1 : x = B
    · rw [h1, vc, vB, inv_inv]
    by_cases h2 : x = inv B
    · rw [h2, inv_inv, vB, vc]
    by_cases h3 : x = e
    · rw [h3, vi, ve]
    by_cases h4 : x = inv e
    · rw [h4, inv_inv, ve, vi, inv_inv]
    by_cases h5 : x = P
    · rw [h5, hinvP]
    by_cases h6 : x = inv P
    · rw [h6, inv_inv, hinvP, inv_inv]
    by_cases h7 : x = Q
    · rw [h7, hinvQ]
    by_cases h8 : x = inv Q
    · rw [h8, inv_inv, hinvQ, inv_inv]
    have k1 : ∀ {y}, x ≠ y → inv x ≠ inv y := fun h k => h (inv_inj.1 k)
    have k2 : ∀ {y}, x ≠ inv y → inv x ≠ y := fun h k => h (by rw [← k, inv_inv])
    rw [vo x h2 h1 h3 h4 h5 h7, vo (inv x) (k1 h1) (k2 h2) (k2 h4) (k1 h3) (k2 h6) (k2 h8)]
    have hxε := εn x h3 h4
    have := sl.tw x ⟨lab1.2 hx, h2, h7, h8⟩ ⟨isLabel_inv.2 (lab1.2 hx), k1 h1, k2 h8, k1 h7⟩ (by
      rcases rcase with ⟨_, h⟩ | ⟨_, h⟩ <;> rw [h]
      · exact hxε.1
      · exact h5) (by
      rcases rcase with ⟨_, h⟩ | ⟨_, h⟩ <;> rw [h]
      · exact hxε.2
      · exact h6)
    rwa [Base.hat_of_ne hxε.1, Base.hat_of_ne (k2 hxε.2)] at this
  -- triangles
  have first : S'.Glues (Ψ e) (Ψ (inv B)) (Ψ B) := by
    have := W.data.t1
    rw [inv_inv] at this
    rw [ve, vc, vB]; exact this
  have second : S'.Glues (Ψ (inv e)) (Ψ P) (Ψ Q) := by
    rw [vi, vP, vQ]; exact W.data.t2
  refine ⟨P, Q, S1, ε, D, ms, S, F, S', ε2, r, Ψ, hf, hm, K, hsw, W, hr, ⟨?_, ?_, ?_, hinv, ?_⟩, vc, vB, ve, vP, vQ, vo, ?_⟩
  · rw [W.data.zeta, sl.zeta, hz1]
  · intro x hx
    exact W.data.isLabel_iff.2 (sl.maps _ (πl x (lab1.2 hx)))
  · intro x y hx hy hxy
    exact π2 _ _ (sl.inj _ _ (πl x (lab1.2 hx)) (πl y (lab1.2 hy)) hxy)
  · intro x y z h
    have key : ∀ {x y z}, T.Glues x y z → (x = e ∨ x = inv B ∨ x = B ∨ x = inv e ∨ x = P ∨ x = Q) → S'.Glues (Ψ x) (Ψ y) (Ψ z) := by
      intro x y z h hx
      rcases hx with rfl | rfl | rfl | rfl | rfl | rfl
      · obtain ⟨rfl, rfl⟩ := hc.glues_unique h K.s1; exact first
      · obtain ⟨rfl, rfl⟩ := hc.glues_unique h K.s1.rot; exact first.rot
      · obtain ⟨rfl, rfl⟩ := hc.glues_unique h K.s1.rot.rot; exact first.rot.rot
      · obtain ⟨rfl, rfl⟩ := hc.glues_unique h K.s2; exact second
      · obtain ⟨rfl, rfl⟩ := hc.glues_unique h K.s2.rot; exact second.rot
      · obtain ⟨rfl, rfl⟩ := hc.glues_unique h K.s2.rot.rot; exact second.rot.rot
    by_cases hx : x = e ∨ x = inv B ∨ x = B ∨ x = inv e ∨ x = P ∨ x = Q
    · exact key h hx
    by_cases hy : y = e ∨ y = inv B ∨ y = B ∨ y = inv e ∨ y = P ∨ y = Q
    · exact (key h.rot hy).rot.rot
    by_cases hz : z = e ∨ z = inv B ∨ z = B ∨ z = inv e ∨ z = P ∨ z = Q
    · exact (key h.rot.rot hz).rot
    push Not at hx hy hz
    rw [vo x hx.2.1 hx.2.2.1 hx.1 hx.2.2.2.1 hx.2.2.2.2.1 hx.2.2.2.2.2, vo y hy.2.1 hy.2.2.1 hy.1 hy.2.2.2.1 hy.2.2.2.2.1 hy.2.2.2.2.2,
      vo z hz.2.1 hz.2.2.1 hz.1 hz.2.2.2.1 hz.2.2.2.2.1 hz.2.2.2.2.2]
    have s1 : S1.Glues x y z := K.kept x y z h (by
      intro t ht
      simp only [List.mem_cons, List.not_mem_nil, or_false] at ht
      rcases ht with rfl | rfl | rfl
      exacts [⟨hx.1, hx.2.2.2.1⟩, ⟨hy.1, hy.2.2.2.1⟩, ⟨hz.1, hz.2.2.2.1⟩])
    have ll := K.hT.label_of_glues s1
    refine W.data.kept _ _ _ (sl.glues _ _ _ s1) ?_
    have nn : ∀ t, S1.IsLabel t → t ≠ P → t ≠ Q → F t ≠ F Q ∧ F t ≠ inv (F Q) := by
      intro t ht h1 h2
      refine ⟨fun k => h2 (sl.inj _ _ ht labs.2.1 k), fun k => h1 (sl.inj _ _ ht labs.1 (k.trans hFP))⟩
    intro t ht
    simp only [List.mem_cons, List.not_mem_nil, or_false] at ht
    rcases ht with rfl | rfl | rfl
    · exact nn _ ll.1 hx.2.2.2.2.1 hx.2.2.2.2.2
    · exact nn _ ll.2.1 hy.2.2.2.2.1 hy.2.2.2.2.2
    · exact nn _ ll.2.2 hz.2.2.2.2.1 hz.2.2.2.2.2
  · intro x hx hj
    have je : T.Joined B e := (Joined.of_glues K.s1.rot.rot).1
    have jc : T.Joined B (inv B) := Joined.of_inv
    have ji : T.Joined B (inv e) := je.trans Joined.of_inv
    have jP := ji.trans (Joined.of_glues K.s2).1
    have jQ := ji.trans (Joined.of_glues K.s2).2
    rw [vo x (fun k => hj (k ▸ jc)) (fun k => hj (k ▸ .refl)) (fun k => hj (k ▸ je)) (fun k => hj (k ▸ ji)) (fun k => hj (k ▸ jP)) (fun k => hj (k ▸ jQ))]
    exact sl.fix x (lab1.2 hx) (fun k => hj (jc.trans (K.joined_iff.1 k)))

end Triangulation
end Curver
