import Verif.Proofs.RoomMove

/-!
# Two short curves in one lamination
-/

namespace Curver
open Triangulation
namespace Triangulation
variable {T : Triangulation} {f β η f₁ β₁ η₁ f₂ β₂ η₂ : Int} {X X₁ X₂ : List Int} {k k₁ k₂ : Int} {U V : Int → Int}

namespace Loop

/-- the edge before one of the edges -/
theorem pred (h : Loop T f β η X) {x y z : Int} (hg : T.Glues x y z) (hx : inv x ∈ X) : y = f ∨ (y ∈ X ∧ y ≠ β) := by
  have hc := h.valid.comp
  have := h.mem_spin (hc.label_of_glues hg).2.1
  rw [Sweep.spin_eq hc hg.rot] at this
  exact this.1 hx

theorem succ (h : Loop T f β η X) {x y z : Int} (hg : T.Glues x y z) (hx : x ∈ X) (hb : x ≠ β) : inv z ∈ X := by
  have hc := h.valid.comp
  have := h.mem_spin (hc.label_of_glues hg).1
  rw [Sweep.spin_eq hc hg] at this
  exact this.2 (.inr ⟨hx, hb⟩)

theorem mu_one (h : Loop T f β η X) {x : Int} (hx : x ∈ X) (hb : x ≠ β) (he : x ≠ η) : mu f β η X x = 1 := by
  unfold mu
  rw [if_neg (fun q : x = f => h.a_notin (q ▸ hx)), if_neg hb, if_neg he, List.count_eq_one_of_mem h.nodup hx]; rfl

theorem mu_pos (h : Loop T f β η X) {x : Int} (hx : x ∈ X) (hb : x ≠ β) : 1 ≤ mu f β η X x := by
  by_cases he : x = η
  · have ne := h.fan.base.nes
    unfold mu
    rw [if_neg (fun q : x = f => h.a_notin (q ▸ hx)), if_neg hb, if_pos he]; omega
  · rw [h.mu_one hx hb he]

theorem mu_eta (h : Loop T f β η X) : mu f β η X η = 1 + X.count η := by
  have ne := h.fan.base.nes
  unfold mu
  rw [if_neg ne.2.2, if_neg ne.2.1.symm, if_pos rfl]

theorem mu_f (f β η : Int) (X : List Int) : mu f β η X f = 0 := by unfold mu; rw [if_pos rfl]

theorem mu_β (f β η : Int) (X : List Int) : mu f β η X β = 0 := by
  unfold mu
  by_cases h : β = f
  · rw [if_pos h]
  · rw [if_neg h, if_pos rfl]

theorem of_mu (h : Loop T f β η X) {x : Int} (hx : mu f β η X x ≠ 0) : x ≠ f ∧ x ≠ β ∧ (x = η ∨ x ∈ X) := by
  unfold mu at hx
  split_ifs at hx with h1 h2 h3
  · exact absurd rfl hx
  · exact absurd rfl hx
  · exact ⟨h1, h2, .inl h3⟩
  · refine ⟨h1, h2, .inr ?_⟩
    by_contra q
    rw [List.count_eq_zero.2 q] at hx
    exact hx rfl

theorem eta_ne (h : Loop T f β η X) : inv β ≠ η ∧ inv η ≠ β := by
  have := h.fan.base.bi
  exact ⟨fun q => this (by rw [← q, inv_inv]), fun q => this q.symm⟩

/-- two loops whose edges do not meet each other's curves have different edges -/
theorem apart (h₁ : Loop T f₁ β₁ η₁ X₁) (h₂ : Loop T f₂ β₂ η₂ X₂) (hne : f₁ ≠ f₂) (n1 : f₁ ∉ X₂) (n2 : f₂ ∉ X₁) : ∀ x ∈ X₁, x ∉ X₂ := by
  have hc := h₁.valid.comp
  have hch := h₁.sweep.chain
  have key : ∀ (l : List Int) (u : Int), List.IsChain (fun x y => y = T.spin x) (u :: l) → T.IsLabel u → u ∉ X₂ → u ≠ f₂ → (∀ x ∈ l, T.IsLabel x ∧ x ≠ f₂) → ∀ x ∈ l, x ∉ X₂ := by
    intro l
    induction l with
    | nil => intro u _ _ _ _ _ x hx; cases hx
    | cons v l ih =>
      intro u hu lu nu nf hl x hx
      rw [List.isChain_cons_cons] at hu
      have nv : v ∉ X₂ := by
        intro q
        rw [hu.1, h₂.mem_spin lu] at q
        rcases q with q | q
        · exact nf q
        · exact nu q.1
      rcases List.mem_cons.1 hx with rfl | hx
      · exact nv
      · exact ih v hu.2 (hl v (by simp)).1 nv (hl v (by simp)).2 (fun y hy => hl y (by simp [hy])) x hx
  intro x hx
  refine key X₁ f₁ ?_ h₁.sweep.label n1 hne (fun y hy => ⟨h₁.sweep.labels hc y hy, fun q => n2 (q ▸ hy)⟩) x hx
  have : f₁ :: (X₁ ++ [inv f₁]) = (f₁ :: X₁) ++ [inv f₁] := by simp
  rw [this] at hch
  exact hch.left_of_append

theorem eq_pair (h : Loop T f β η X) (hs : T.spin (inv η) = β) : X = [inv η, β] := by
  obtain ⟨X', hX⟩ := h.sweep.first h.valid.comp h.glues h.ne_nil
  have hl := h.sweep.eq_concat h.valid.comp h.glues h.ne_nil
  have hch := h.sweep.chain
  have hn := h.nodup
  cases X' with
  | nil => have := h.two; rw [hX] at this; simp at this
  | cons v X'' =>
    have hv : v = β := by
      rw [hX] at hch
      simp only [List.cons_append, List.isChain_cons_cons] at hch
      rw [hch.2.1, hs]
    cases X'' with
    | nil => rw [hX, hv]
    | cons w X3 =>
      exfalso
      rw [hX, hv] at hl hn
      have : β ∈ (inv η :: β :: w :: X3).dropLast := by simp
      exact h.b_notin (by rw [hX, hv]; exact this)

/-- the same curve seen from two edges -/
theorem same (h₁ : Loop T f₁ β₁ η₁ X₁) (h₂ : Loop T f₂ β₂ η₂ X₂) (hne : f₁ ≠ f₂) (hcn : ∀ x, T.IsLabel x → cn X₁ x = cn X₂ x) : η₂ = inv η₁ ∧ β₂ = inv β₁ := by
  have hc := h₁.valid.comp
  have mueq : ∀ x, T.IsLabel x → mu f₁ β₁ η₁ X₁ x = mu f₂ β₂ η₂ X₂ x := by
    intro x hx
    obtain ⟨y, z, hg⟩ := hc.exists_glues hx
    have l := hc.label_of_glues hg
    have g1 := h₁.gap hg
    have g2 := h₂.gap hg
    rw [hcn x l.1, hcn y l.2.1, hcn z l.2.2] at g1
    omega
  have n1 : f₁ ∉ X₂ := by
    intro q
    have e1 := hcn f₁ h₁.sweep.label
    rw [h₁.cn_a] at e1
    have : 0 < X₂.count f₁ := List.count_pos_iff.2 q
    unfold cn at e1; omega
  have n2 : f₂ ∉ X₁ := by
    intro q
    have e1 := hcn f₂ h₂.sweep.label
    rw [h₂.cn_a] at e1
    have : 0 < X₁.count f₂ := List.count_pos_iff.2 q
    unfold cn at e1; omega
  have hd := h₁.apart h₂ hne n1 n2
  have lg := hc.label_of_glues h₁.glues
  have e1 := h₁.mu_eta
  have m1 := h₂.of_mu (x := η₁) (by rw [← mueq η₁ lg.2.2]; omega)
  have nee : η₁ ≠ η₂ := by
    rintro rfl
    exact hne (hc.glues_unique h₁.glues.rot.rot h₂.glues.rot.rot).1
  have i1 : η₁ ∈ X₂ := m1.2.2.resolve_left nee
  have m2 := h₁.mu_pos h₁.inv_e_mem h₁.eta_ne.2
  have m3 := h₂.of_mu (x := inv η₁) (by rw [← mueq _ (isLabel_inv.2 lg.2.2)]; omega)
  have r1 : inv η₁ = η₂ := by
    rcases m3.2.2 with q | q
    · exact q
    · exact absurd q (hd _ h₁.inv_e_mem)
  refine ⟨r1.symm, ?_⟩
  have i2 := h₂.succ h₁.glues.rot.rot i1 m1.2.1
  by_contra hb
  have m4 := h₂.mu_pos i2 (fun q => hb q.symm)
  have m5 := h₁.of_mu (x := inv β₁) (by rw [mueq _ (isLabel_inv.2 lg.2.1)]; omega)
  rcases m5.2.2 with q | q
  · exact h₁.eta_ne.1 q
  · exact hd _ q i2

end Loop

/-- copies seen from another edge -/
theorem Room.seen (h : Room T U f₂ β₂ η₂ X₂ k) (h₁ : Loop T f₁ β₁ η₁ X₁) (hU : ∀ x, U (inv x) = U x) (hne : f₁ ≠ f₂) (hcn : ∀ x, T.IsLabel x → cn X₁ x = cn X₂ x) (hoff : U f₁ ≤ 0) :
    Room T U f₁ β₁ η₁ X₁ k := by
  have hc := h₁.valid.comp
  obtain ⟨e1, e2⟩ := h₁.same h.loop hne hcn
  refine ⟨h₁, hoff, ?_, ?_⟩
  · have := h.bal
    rw [e1, e2, hU, hU] at this
    exact this
  · intro x y z hg
    have l := hc.label_of_glues hg
    have g1 := h₁.gap hg
    have g2 := h.loop.gap hg
    rw [hcn x l.1, hcn y l.2.1, hcn z l.2.2] at g1
    have : mu f₁ β₁ η₁ X₁ x = mu f₂ β₂ η₂ X₂ x := by omega
    rw [this]
    exact h.room x y z hg

/-- the edge of a curve in a lamination is not met by another curve in it -/
theorem Room.notin (h : Room T U f₂ β₂ η₂ X₂ k) (hk : 0 < k) (hl : T.IsLabel f₁) (hoff : U f₁ ≤ 0) : cn X₂ f₁ = 0 ∧ f₁ ∉ X₂ := by
  have h1 := h.le hk.le hl
  rw [max_eq_right hoff] at h1
  have h2 := cn_nonneg X₂ f₁
  have h3 : cn X₂ f₁ = 0 := by nlinarith
  refine ⟨h3, fun q => ?_⟩
  have : 0 < X₂.count f₁ := List.count_pos_iff.2 q
  unfold cn at h3; omega

/-- at the third side of the triangle of `f₁` -/
theorem Room.pair_eta (h₁ : Room T U f₁ β₁ η₁ X₁ k₁) (h₂ : Room T U f₂ β₂ η₂ X₂ k₂) (hU : ∀ x, U (inv x) = U x) (p₁ : 0 < k₁) (p₂ : 0 < k₂) (hne : f₁ ≠ f₂)
    (hcn : ∃ x, T.IsLabel x ∧ cn X₁ x ≠ cn X₂ x) (hmu : mu f₂ β₂ η₂ X₂ η₁ ≠ 0) : k₁ * mu f₁ β₁ η₁ X₁ η₁ + k₂ * mu f₂ β₂ η₂ X₂ η₁ ≤ max (U η₁) 0 := by
  have hc := h₁.loop.valid.comp
  have L₁ := h₁.loop
  have L₂ := h₂.loop
  have n1 := (h₂.notin p₂ L₁.sweep.label h₁.off).2
  have n2 := (h₁.notin p₁ L₂.sweep.label h₂.off).2
  have hd := L₁.apart L₂ hne n1 n2
  have lg := hc.label_of_glues L₁.glues
  have m1 := L₂.of_mu hmu
  have nee : η₁ ≠ η₂ := by
    rintro rfl
    exact hne (hc.glues_unique L₁.glues.rot.rot L₂.glues.rot.rot).1
  have i1 : η₁ ∈ X₂ := m1.2.2.resolve_left nee
  have i1' : η₁ ∉ X₁ := fun q => hd _ q i1
  rw [L₁.mu_eta, List.count_eq_zero.2 i1', L₂.mu_one i1 m1.2.1 nee]
  -- two corners on one side
  have two : ∀ {x y z : Int}, T.Glues x y z → ((1 ≤ mu f₁ β₁ η₁ X₁ x ∧ 1 ≤ mu f₂ β₂ η₂ X₂ y) ∨ (1 ≤ mu f₂ β₂ η₂ X₂ x ∧ 1 ≤ mu f₁ β₁ η₁ X₁ y)) → k₁ + k₂ ≤ max (U x) 0 := by
    intro x y z hg hm
    have up : ∀ {k m : Int}, 0 < k → 1 ≤ m → k ≤ k * m := fun hk hm => by nlinarith
    rcases hm with ⟨a1, a2⟩ | ⟨a1, a2⟩
    · have r1 := h₁.room _ _ _ hg
      have r2 := h₂.room _ _ _ hg.rot
      have := up p₁ a1
      have := up p₂ a2
      unfold Cr at r1 r2
      omega
    · have r1 := h₂.room _ _ _ hg
      have r2 := h₁.room _ _ _ hg.rot
      have := up p₂ a1
      have := up p₁ a2
      unfold Cr at r1 r2
      omega
  have goal : k₁ + k₂ ≤ max (U η₁) 0 := by
    obtain ⟨y, z, hg⟩ := hc.exists_glues (isLabel_inv.2 lg.2.2)
    have pm1 := L₁.mu_pos L₁.inv_e_mem L₁.eta_ne.2
    rcases L₂.pred hg (by rw [inv_inv]; exact i1) with q | q
    · -- `η₁ = inv η₂`
      subst q
      have e1 : η₁ = inv η₂ := by
        have u := (hc.glues_unique hg.rot L₂.glues).2
        rw [← u, inv_inv]
      obtain ⟨y', z', hg'⟩ := hc.exists_glues (isLabel_inv.2 lg.2.1)
      have q' : y' ∈ X₁ ∧ y' ≠ β₁ := by
        rcases L₁.pred hg' (by rw [inv_inv]; exact L₁.b_mem) with q' | q'
        · exfalso
          subst q'
          exact L₁.eta_ne.1 (hc.glues_unique hg'.rot L₁.glues).2
        · exact q'
      have i2 := L₂.succ L₁.glues.rot.rot i1 m1.2.1
      by_cases hb : inv β₁ = β₂
      · exfalso
        obtain ⟨x, hx, hcx⟩ := hcn
        apply hcx
        have s1 : X₁ = [inv η₁, β₁] := by
          refine L₁.eq_pair ?_
          rw [e1, inv_inv, Sweep.spin_eq hc L₂.glues.rot.rot, ← hb, inv_inv]
        have s2 : X₂ = [inv η₂, β₂] := by
          refine L₂.eq_pair ?_
          rw [← e1, Sweep.spin_eq hc L₁.glues.rot.rot, hb]
        rw [s1, s2, ← e1, ← hb]
        have c0 : ∀ u v : Int, (if inv u = v then (1 : Nat) else 0) = if u = inv v then 1 else 0 := by
          intro u v; exact if_congr inv_eq_iff rfl rfl
        unfold cn
        simp only [List.count_cons, List.count_nil, beq_iff_eq, c0, inv_inj, inv_inv]
        omega
      · have pm2 := L₂.mu_pos i2 hb
        have pm3 := L₁.mu_pos q'.1 q'.2
        have := two hg' (.inr ⟨pm2, pm3⟩)
        rwa [hU, h₁.bal] at this
    · have := two hg (.inl ⟨pm1, L₂.mu_pos q.1 q.2⟩)
      rwa [hU] at this
  simpa using goal

/-- both fit -/
theorem Room.pair (h₁ : Room T U f₁ β₁ η₁ X₁ k₁) (h₂ : Room T U f₂ β₂ η₂ X₂ k₂) (hU : ∀ x, U (inv x) = U x) (p₁ : 0 < k₁) (p₂ : 0 < k₂) (hne : f₁ ≠ f₂)
    (hcn : ∃ x, T.IsLabel x ∧ cn X₁ x ≠ cn X₂ x) {x y z : Int} (hg : T.Glues x y z) :
    Cr (max (U x) 0) (max (U y) 0) (max (U z) 0) (k₁ * mu f₁ β₁ η₁ X₁ x + k₂ * mu f₂ β₂ η₂ X₂ x) := by
  have hc := h₁.loop.valid.comp
  have L₁ := h₁.loop
  have L₂ := h₂.loop
  have r1 := h₁.room _ _ _ hg
  have r2 := h₂.room _ _ _ hg
  by_cases z1 : mu f₁ β₁ η₁ X₁ x = 0
  · rw [z1, mul_zero, zero_add]; exact r2
  by_cases z2 : mu f₂ β₂ η₂ X₂ x = 0
  · rw [z2, mul_zero, add_zero]; exact r1
  have m1 := L₁.of_mu z1
  have m2 := L₂.of_mu z2
  have n1 := (h₂.notin p₂ L₁.sweep.label h₁.off).2
  have n2 := (h₁.notin p₁ L₂.sweep.label h₂.off).2
  have hd := L₁.apart L₂ hne n1 n2
  by_cases q1 : x = η₁
  · subst q1
    obtain ⟨rfl, rfl⟩ := hc.glues_unique hg L₁.glues.rot.rot
    have := h₁.pair_eta h₂ hU p₁ p₂ hne hcn z2
    have hb := h₁.bal
    have ho : max (U y) 0 = 0 := max_eq_right h₁.off
    unfold Cr
    omega
  by_cases q2 : x = η₂
  · subst q2
    obtain ⟨rfl, rfl⟩ := hc.glues_unique hg L₂.glues.rot.rot
    obtain ⟨x, hx, hcx⟩ := hcn
    have := h₂.pair_eta h₁ hU p₂ p₁ hne.symm ⟨x, hx, hcx.symm⟩ z1
    have hb := h₂.bal
    have ho : max (U y) 0 = 0 := max_eq_right h₂.off
    unfold Cr
    omega
  · exact absurd (m2.2.2.resolve_left q2) (hd _ (m1.2.2.resolve_left q1))

/-- the balance of another loop is not changed by taking away copies -/
theorem Room.bal_iff (h₂ : Room T U f₂ β₂ η₂ X₂ k₂) (p₂ : 0 < k₂) (hg : T.Glues f₁ β₁ η₁) (hoff : U f₁ ≤ 0) (hV : ∀ x, T.IsLabel x → V x = U x - k₂ * cn X₂ x) :
    max (V β₁) 0 = max (V η₁) 0 ↔ max (U β₁) 0 = max (U η₁) 0 := by
  have hc := h₂.loop.valid.comp
  have lg := hc.label_of_glues hg
  have h0 := (h₂.notin p₂ lg.1 hoff).1
  have g1 := h₂.loop.gap hg
  have g2 := h₂.loop.gap hg.rot
  have n1 := mu_nonneg f₂ β₂ η₂ X₂ f₁
  have n2 := mu_nonneg f₂ β₂ η₂ X₂ β₁
  have e : cn X₂ β₁ = cn X₂ η₁ := by omega
  rw [hV _ lg.2.1, hV _ lg.2.2, h₂.sub p₂.le lg.2.1, h₂.sub p₂.le lg.2.2, e]
  omega

/-- what is left after taking away one curve still has the other -/
theorem Room.after (h₁ : Room T U f₁ β₁ η₁ X₁ k₁) (h₂ : Room T U f₂ β₂ η₂ X₂ k₂) (hU : ∀ x, U (inv x) = U x) (p₁ : 0 < k₁) (p₂ : 0 < k₂) (hne : f₁ ≠ f₂)
    (hcn : ∃ x, T.IsLabel x ∧ cn X₁ x ≠ cn X₂ x) (hV : ∀ x, T.IsLabel x → V x = U x - k₁ * cn X₁ x) : Room T V f₂ β₂ η₂ X₂ k₂ := by
  have hc := h₁.loop.valid.comp
  refine ⟨h₂.loop, ?_, ?_, ?_⟩
  · have := (h₁.notin p₁ h₂.loop.sweep.label h₂.off).1
    rw [hV _ h₂.loop.sweep.label, this, mul_zero, sub_zero]; exact h₂.off
  · rw [h₁.bal_iff p₁ h₂.loop.glues h₂.off hV]; exact h₂.bal
  · intro x y z hg
    have l := hc.label_of_glues hg
    have c1 := h₁.pair h₂ hU p₁ p₂ hne hcn hg
    have c2 := h₁.pair h₂ hU p₁ p₂ hne hcn hg.rot
    have c3 := h₁.pair h₂ hU p₁ p₂ hne hcn hg.rot.rot
    have g1 := h₁.loop.gap hg
    have g2 := h₁.loop.gap hg.rot
    have g3 := h₁.loop.gap hg.rot.rot
    have ex : cn X₁ x = mu f₁ β₁ η₁ X₁ x + mu f₁ β₁ η₁ X₁ y := by omega
    have ey : cn X₁ y = mu f₁ β₁ η₁ X₁ y + mu f₁ β₁ η₁ X₁ z := by omega
    have ez : cn X₁ z = mu f₁ β₁ η₁ X₁ z + mu f₁ β₁ η₁ X₁ x := by omega
    have nn : ∀ w, 0 ≤ k₁ * mu f₁ β₁ η₁ X₁ w ∧ 0 ≤ k₂ * mu f₂ β₂ η₂ X₂ w := fun w => ⟨mul_nonneg p₁.le (mu_nonneg _ _ _ _ _), mul_nonneg p₂.le (mu_nonneg _ _ _ _ _)⟩
    have t := triRoom_of_cr (le_max_right _ _) (le_max_right _ _) (le_max_right _ _) (add_nonneg (nn x).1 (nn x).2) (add_nonneg (nn y).1 (nn y).2) (add_nonneg (nn z).1 (nn z).2) c1 c2 c3
    obtain ⟨-, -, -, ha, hb, hcc, -, -, -⟩ := t
    rw [hV x l.1, hV y l.2.1, hV z l.2.2, h₁.sub p₁.le l.1, h₁.sub p₁.le l.2.1, h₁.sub p₁.le l.2.2, ex, ey, ez, mul_add, mul_add, mul_add]
    have := nn x
    have := nn y
    have := nn z
    unfold Cr at c1 ⊢
    omega

/-- what could be taken away after another curve could be taken away before -/
theorem Room.before (h₂ : Room T U f₂ β₂ η₂ X₂ k₂) (p₂ : 0 < k₂) (h : Room T V f β η X k) (pk : 0 < k) (hoff : U f ≤ 0) (hV : ∀ x, T.IsLabel x → V x = U x - k₂ * cn X₂ x) : Room T U f β η X k := by
  have hc := h₂.loop.valid.comp
  refine ⟨h.loop, hoff, (h₂.bal_iff p₂ h.loop.glues hoff hV).1 h.bal, ?_⟩
  intro x y z hg
  have l := hc.label_of_glues hg
  have r := h.room _ _ _ hg
  have g1 := h₂.loop.gap hg
  have nn : ∀ w, 0 ≤ k₂ * cn X₂ w := fun w => mul_nonneg p₂.le (cn_nonneg _ _)
  have nm : 0 ≤ k₂ * mu f₂ β₂ η₂ X₂ x := mul_nonneg p₂.le (mu_nonneg _ _ _ _ _)
  have e : k₂ * cn X₂ x + k₂ * cn X₂ z - k₂ * cn X₂ y = 2 * (k₂ * mu f₂ β₂ η₂ X₂ x) := by rw [← mul_add, ← mul_sub, g1]; ring
  rw [hV x l.1, hV y l.2.1, hV z l.2.2, h₂.sub p₂.le l.1, h₂.sub p₂.le l.2.1, h₂.sub p₂.le l.2.2] at r
  have := nn x
  have := nn y
  have := nn z
  have := mul_nonneg pk.le (mu_nonneg f β η X x)
  unfold Cr at r ⊢
  omega

/-- more copies of the same curve -/
theorem Room.more (h : Room T U f β η X k) (pk : 0 < k) {k' : Int} (h' : Room T V f β η X k') (pk' : 0 < k') (hV : ∀ x, T.IsLabel x → V x = U x - k * cn X x) : Room T U f β η X (k + k') := by
  have hc := h.loop.valid.comp
  refine ⟨h.loop, h.off, h.bal, ?_⟩
  intro x y z hg
  have l := hc.label_of_glues hg
  have r := h'.room _ _ _ hg
  have g1 := h.loop.gap hg
  have g2 := h.loop.gap hg.rot
  have g3 := h.loop.gap hg.rot.rot
  have ex : cn X x = mu f β η X x + mu f β η X y := by omega
  have ey : cn X y = mu f β η X y + mu f β η X z := by omega
  have ez : cn X z = mu f β η X z + mu f β η X x := by omega
  have nm : ∀ w, 0 ≤ k * mu f β η X w := fun w => mul_nonneg pk.le (mu_nonneg _ _ _ _ _)
  have nm' : 0 ≤ k' * mu f β η X x := mul_nonneg pk'.le (mu_nonneg _ _ _ _ _)
  have r0 := h.room _ _ _ hg
  rw [hV x l.1, hV y l.2.1, hV z l.2.2, h.sub pk.le l.1, h.sub pk.le l.2.1, h.sub pk.le l.2.2, ex, ey, ez, mul_add, mul_add, mul_add] at r
  have := nm x
  have := nm y
  have := nm z
  rw [add_mul]
  unfold Cr at r r0 ⊢
  omega

end Triangulation
end Curver
