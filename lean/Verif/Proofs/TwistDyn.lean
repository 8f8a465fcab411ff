import Verif.Proofs.TwistLam

namespace Curver
open Triangulation
namespace Triangulation
namespace Loop
variable {T : Triangulation} {a b e : Int} {X : List Int}
variable {R : Type} [CommRing R] [LinearOrder R] [IsStrictOrderedRing R] [Halvable R]
variable {σ : Equiv.Perm (LamOn R T)} {L M : LamOn R T} {t μ : R}

theorem perm_apply_inv {α : Type} (f : Equiv.Perm α) (x : α) : f (f⁻¹ x) = x := by simp
theorem perm_inv_apply {α : Type} (f : Equiv.Perm α) (x : α) : f⁻¹ (f x) = x := by simp

theorem dropLast_sub (h : Loop T a b e X) {x : Int} (hx : x ∈ X.dropLast) : x ∈ a :: X := List.mem_cons_of_mem _ (h.mem_dropLast.1 hx).1

theorem inv_e_mem' (h : Loop T a b e X) : inv e ∈ X.dropLast := by
  refine h.mem_dropLast.2 ⟨h.inv_e_mem, ?_⟩
  intro k
  exact h.fan.base.left_b.ni k.symm

/-- the two corners on a side -/
theorem cor_pair (h : Loop T a b e X) (L : LamOn R T) {x y z : Int} (hg : T.Glues x y z) : T.cor L x + T.cor L y = 2 * L.1.w x := by
  rw [cor_eq h.valid.comp L hg, cor_eq h.valid.comp L hg.rot]; ring

theorem cor_across (h : Loop T a b e X) (L : LamOn R T) {y z : Int} (hg : T.Glues (inv e) y z) : T.cor L (inv e) + T.cor L y = T.cor L e + T.cor L a := by
  rw [h.cor_pair L hg, Lam.w_inv, ← h.cor_pair L h.glues.rot.rot]

/-- when `e` is swept, so is the edge before it, in the triangle on the other side of `e` -/
theorem pred_e (h : Loop T a b e X) (he : e ∈ X) : ∃ y z, T.Glues (inv e) y z ∧ y ∈ X.dropLast ∧ y ≠ e := by
  have hc := h.valid.comp
  have le : T.IsLabel e := h.sweep.labels hc e he
  obtain ⟨y, z, hg⟩ := hc.exists_glues (isLabel_inv.2 le)
  have hl := hc.label_of_glues hg
  have hs : T.spin y = e := by rw [Sweep.spin_eq hc hg.rot, inv_inv]
  have hm : T.spin y ∈ X := hs ▸ he
  rcases (h.mem_spin hl.2.1).1 hm with k | k
  · subst k
    exfalso
    obtain ⟨rfl, k2⟩ := hc.glues_unique hg.rot h.glues
    exact absurd k2.symm (fun k => inv_ne _ k.symm)
  · refine ⟨y, z, hg, h.mem_dropLast.2 k, ?_⟩
    rintro rfl
    obtain ⟨k1, k2⟩ := hc.glues_unique hg.rot h.glues.rot.rot
    exact h.fan.base.left_b.ni k2.symm

/-- the corner of `e` follows the others -/
theorem cor_e_ge (h : Loop T a b e X) (he : e ∈ X) {τ : R} (hd : ∀ x ∈ X.dropLast, x ≠ e → μ + τ ≤ T.cor L x) : 2 * μ + 2 * τ - T.cor L a ≤ T.cor L e := by
  obtain ⟨y, z, hg, hy, hne⟩ := h.pred_e he
  have h1 := h.cor_across L hg
  have h2 := hd _ h.inv_e_mem' (fun k => inv_ne e k)
  have h3 := hd y hy hne
  linarith

theorem e_mem_dropLast (h : Loop T a b e X) : e ∈ X.dropLast ↔ e ∈ X := by
  rw [h.mem_dropLast]
  exact ⟨fun k => k.1, fun k => ⟨k, fun k' => h.fan.base.left_b.ne k'.symm⟩⟩

theorem iota_nonneg (h : Loop T a b e X) (hm : IsMin a X L μ) : 0 ≤ L.1.w a - μ := by
  have h1 := (h.cor_ab L).1
  have h2 := hm.1 a (by simp)
  have h3 := hm.1 b (by simp [h.b_mem])
  linarith

theorem zero_of_disjoint (h : Loop T a b e X) (hm : IsMin a X L μ) (h0 : L.1.w a - μ = 0) : T.cor L a = μ := by
  have h1 := (h.cor_ab L).1
  have h2 := hm.1 a (by simp)
  have h3 := hm.1 b (by simp [h.b_mem])
  linarith

/-- the lamination with the curve added exists -/
theorem shift_exists (h : Loop T a b e X) (hL : L.1.NoArcs) (t : R)
    (hc : ∀ x y z, T.Glues x y z → 0 ≤ T.cor L x + t * ((cn X x + cn X z - cn X y : Int) : R)) : ∃ M : LamOn R T, Shifts X L t M ∧ M.1.NoArcs := by
  have hcomp := h.valid.comp
  have hw : L.1.geometric.length = T.zeta := by have := L.2.1.1.2; rwa [L.2.2] at this
  let N : Lam R := ⟨T, (List.range T.zeta).map (fun (i : Nat) => L.1.w (i : Int) + t * ((cn X (i : Int) : Int) : R)), L.1.cls⟩
  have hN : ∀ x, T.IsLabel x → N.w x = L.1.w x + t * (cn X x : Int) := by
    intro x hx
    have hi := idx_lt hx
    have : N.w x = L.1.w (((norm x).toNat : Nat) : Int) + t * ((cn X (((norm x).toNat : Nat) : Int) : Int) : R) := by
      show (((List.range T.zeta).map _)[(norm x).toNat]?).getD 0 = _
      rw [List.getElem?_map, List.getElem?_range hi]; rfl
    rw [this]
    have hn := norm_nonneg x
    rw [Int.toNat_of_nonneg hn]
    have : norm x = x ∨ norm x = inv x := max_choice _ _
    rcases this with k | k
    · rw [k]
    · rw [k, Lam.w_inv, cn_inv]
  have hwf : N.WellFormed := ⟨h.valid, by simp [N]⟩
  have hcor : ∀ x y z, T.Glues x y z → N.w x + N.w z - N.w y = T.cor L x + t * ((cn X x + cn X z - cn X y : Int) : R) := by
    intro x y z hg
    have hl := hcomp.label_of_glues hg
    rw [cor_eq hcomp L hg, hN x hl.1, hN y hl.2.1, hN z hl.2.2]; push_cast; ring
  have hge : ∀ x y z, T.Glues x y z → 0 ≤ N.w x + N.w z - N.w y := fun x y z hg => by rw [hcor x y z hg]; exact hc x y z hg
  have hT : N.Taut := by
    intro x y z hg
    have h1 := hge x y z hg
    have h2 := hge y z x hg.rot
    have h3 := hge z x y hg.rot.rot
    constructor <;> linarith
  have hC : N.Consistent := by
    refine Lam.consistent_iff.2 ⟨hwf, fun x y z hg => ?_⟩
    intro _ _ _
    have hx := (hT x y z hg).1
    have hy := (hT y z x hg.rot).1
    have hz := (hT z x y hg.rot.rot).1
    rw [max_eq_left hx, max_eq_left hy, max_eq_left hz]
    have hl := hcomp.label_of_glues hg
    obtain ⟨hLc, hLt⟩ := Lam.noArcs_iff.1 hL
    have hg' : L.1.tri.Glues x y z := by rw [L.2.2]; exact hg
    have t1 := hLt x y z hg'
    have t2 := hLt y z x hg'.rot
    have t3 := hLt z x y hg'.rot.rot
    have he := (Lam.consistent_iff.1 hLc).2 x y z hg'
    unfold TriEven at he
    rw [max_eq_left t1.1, max_eq_left t2.1, max_eq_left t3.1] at he
    obtain ⟨u, hu⟩ := he t1.2 t2.2 t3.2
    obtain ⟨v, hv⟩ := (h.corner_nonneg hg).2
    have hv' : ((cn X x : Int) : R) + (cn X z : Int) - (cn X y : Int) = v + v := by exact_mod_cast congrArg (fun (i : Int) => (i : R)) hv
    refine ⟨u + t * (v + (cn X y : Int)), ?_⟩
    rw [hN x hl.1, hN y hl.2.1, hN z hl.2.2]
    linear_combination hu + t * hv'
  exact ⟨⟨N, hC, rfl⟩, ⟨rfl, hN⟩, Lam.noArcs_iff.2 ⟨hC, hT⟩⟩

theorem min_pow (h : Loop T a b e X) (hσ : Loop.Action T a b e X σ) : ∀ (n : Nat) (L : LamOn R T), L.1.NoArcs → IsMin a X L μ →
    ((σ ^ n) L).1.NoArcs ∧ IsMin a X ((σ ^ n) L) μ ∧ ((σ ^ n) L).1.w a = L.1.w a
  | 0, L, hL, hm => ⟨hL, hm, rfl⟩
  | n + 1, L, hL, hm => by
    obtain ⟨h1, h2, h3⟩ := min_pow h hσ n (σ L) ((hσ.noArcs L).2 hL) (h.min_step hσ hL hm)
    rw [pow_succ, Equiv.Perm.mul_apply]
    exact ⟨h1, h2, h3.trans (h.wa_step hσ hL)⟩

theorem min_back (h : Loop T a b e X) (hσ : Loop.Action T a b e X σ) (hL : L.1.NoArcs) (hm : IsMin a X L μ) :
    (σ⁻¹ L).1.NoArcs ∧ IsMin a X (σ⁻¹ L) μ ∧ (σ⁻¹ L).1.w a = L.1.w a := by
  have e1 : σ (σ⁻¹ L) = L := by simp
  have h1 : (σ⁻¹ L).1.NoArcs := (hσ.noArcs _).1 (by rw [e1]; exact hL)
  obtain ⟨μ', hm'⟩ := exists_min a X (σ⁻¹ L)
  have h2 := h.min_step hσ h1 hm'
  rw [e1] at h2
  have h3 := h.wa_step hσ h1
  rw [e1] at h3
  exact ⟨h1, by rw [hm.unique h2]; exact hm', h3.symm⟩

theorem min_back_pow (h : Loop T a b e X) (hσ : Loop.Action T a b e X σ) : ∀ (n : Nat) (L : LamOn R T), L.1.NoArcs → IsMin a X L μ →
    ((σ⁻¹ ^ n) L).1.NoArcs ∧ IsMin a X ((σ⁻¹ ^ n) L) μ ∧ ((σ⁻¹ ^ n) L).1.w a = L.1.w a
  | 0, L, hL, hm => ⟨hL, hm, rfl⟩
  | n + 1, L, hL, hm => by
    obtain ⟨b1, b2, b3⟩ := h.min_back hσ hL hm
    obtain ⟨h1, h2, h3⟩ := min_back_pow h hσ n (σ⁻¹ L) b1 b2
    rw [pow_succ, Equiv.Perm.mul_apply]
    exact ⟨h1, h2, h3.trans b3⟩

/-- moving away -/
theorem away (h : Loop T a b e X) (hσ : Loop.Action T a b e X σ) : ∀ (n : Nat) (L : LamOn R T), L.1.NoArcs → IsMin a X L μ → T.cor L a = μ →
    Shifts X L (n * (L.1.w a - μ)) ((σ ^ n) L)
  | 0, L, _, _, _ => by simpa using Shifts.zero L
  | n + 1, L, hL, hm, ha => by
    have hab := (h.cor_ab L).1
    have h1 := h.shift_one hσ hL (t := L.1.w a - μ) (by linarith) (fun x hx _ => by
      have := hm.1 x (h.dropLast_sub hx); linarith)
    have h2 := away h hσ n (σ L) ((hσ.noArcs L).2 hL) (h.min_step hσ hL hm) (by rw [h.shift_a h1, ha])
    have h3 := h1.trans h2
    rw [pow_succ, Equiv.Perm.mul_apply]
    rw [h.wa_step hσ hL] at h3
    convert h3 using 1
    push_cast; ring

/-- moving towards -/
theorem toward (h : Loop T a b e X) (hσ : Loop.Action T a b e X σ) : ∀ (n : Nat) (L : LamOn R T), L.1.NoArcs → IsMin a X L μ → T.cor L b = μ →
    (∀ x ∈ X.dropLast, x ≠ e → μ + 2 * (n * (L.1.w a - μ)) ≤ T.cor L x) → Shifts X L (-(n * (L.1.w a - μ))) ((σ ^ n) L)
  | 0, L, _, _, _, _ => by simpa using Shifts.zero L
  | n + 1, L, hL, hm, hb, hd => by
    have hi := h.iota_nonneg hm
    have hn : (0 : R) ≤ n * (L.1.w a - μ) := mul_nonneg (Nat.cast_nonneg n) hi
    have h1 := h.shift_one hσ hL (t := -(L.1.w a - μ)) (by linarith) (fun x hx hxe => by
      have := hd x hx hxe
      push_cast at this
      linarith)
    have h2 := toward h hσ n (σ L) ((hσ.noArcs L).2 hL) (h.min_step hσ hL hm) (by rw [h.shift_b h1, hb]) (by
      intro x hx hxe
      rw [h.shift_mem h1 hx hxe, h.wa_step hσ hL]
      have := hd x hx hxe
      push_cast at this
      linarith)
    have h3 := h1.trans h2
    rw [pow_succ, Equiv.Perm.mul_apply]
    rw [h.wa_step hσ hL] at h3
    convert h3 using 1
    push_cast; ring

theorem low_a (h : Loop T a b e X) (hσ : Loop.Action T a b e X σ) (hL : L.1.NoArcs) (hm : IsMin a X L μ) (ha : T.cor L a = μ) : T.cor (σ L) a = μ :=
  h.low_step hσ hL hm ⟨a, by simp, fun k => h.a_notin (k ▸ h.b_mem), ha⟩

/-- two twists cross the dangerous region -/
theorem cross (h : Loop T a b e X) (hσ : Loop.Action T a b e X σ) (hL : L.1.NoArcs) (hm : IsMin a X L μ)
    (hd : ∃ x ∈ X.dropLast, x ≠ e ∧ T.cor L x < μ + 2 * (L.1.w a - μ)) : T.cor (σ (σ L)) a = μ := by
  have hL' := (hσ.noArcs L).2 hL
  have hm' := h.min_step hσ hL hm
  by_cases hlow : ∃ y ∈ a :: X, y ≠ b ∧ T.cor L y = μ
  · exact h.low_a hσ hL' hm' (h.low_step hσ hL hm hlow)
  · have hb : T.cor L b = μ := by
      obtain ⟨y, hy, k⟩ := hm.2
      by_cases hyb : y = b
      · rw [← hyb, k]
      · exact absurd ⟨y, hy, hyb, k⟩ hlow
    have hab := (h.cor_ab L).1
    obtain ⟨x, hx, hxe, k⟩ := hd
    exact h.low_step hσ hL' hm' (h.dip_step hσ hL hm hb ⟨x, hx, hxe, by linarith⟩)

/-- backwards, moving away -/
theorem back_away (h : Loop T a b e X) (hσ : Loop.Action T a b e X σ) (n : Nat) (hL : L.1.NoArcs) (hm : IsMin a X L μ) (hb : T.cor L b = μ) :
    Shifts X L (n * (L.1.w a - μ)) ((σ⁻¹ ^ n) L) := by
  have hi := h.iota_nonneg hm
  have hn : (0 : R) ≤ n * (L.1.w a - μ) := mul_nonneg (Nat.cast_nonneg n) hi
  obtain ⟨M, hM, hMn⟩ := h.shift_exists hL (n * (L.1.w a - μ)) (fun x y z hg => by
    have h1 := cor_nonneg h.valid.comp hL (h.valid.comp.label_of_glues hg).1
    have h2 : (0 : R) ≤ ((cn X x + cn X z - cn X y : Int) : R) := by exact_mod_cast (h.corner_nonneg hg).1
    exact add_nonneg h1 (mul_nonneg hn h2))
  have hMm : IsMin a X M μ := by
    refine ⟨?_, b, by simp [h.b_mem], by rw [h.shift_b hM, hb]⟩
    intro y hy
    rcases List.mem_cons.1 hy with k | k
    · rw [k, h.shift_a hM]; exact hm.1 a (by simp)
    · by_cases hyb : y = b
      · rw [hyb, h.shift_b hM, hb]
      · have k1 := h.shift_ge hM hn (h.mem_dropLast.2 ⟨k, hyb⟩)
        have k2 := hm.1 y hy
        linarith
  have hwa := h.shift_wa hM
  have h1 := h.toward hσ n M hMn hMm (by rw [h.shift_b hM, hb]) (by
    intro x hx hxe
    rw [h.shift_mem hM hx hxe, hwa]
    have := hm.1 x (h.dropLast_sub hx)
    linarith)
  rw [hwa] at h1
  have h2 : (σ ^ n) M = L := h1.unique hM.symm
  have h3 : (σ⁻¹ ^ n) L = M := by
    rw [← h2, inv_pow, perm_inv_apply]
  rw [h3]
  exact hM

/-- backwards, moving towards -/
theorem back_toward (h : Loop T a b e X) (hσ : Loop.Action T a b e X σ) (n : Nat) (hL : L.1.NoArcs) (hm : IsMin a X L μ) (ha : T.cor L a = μ)
    (hd : ∀ x ∈ X.dropLast, μ + 2 * (n * (L.1.w a - μ)) ≤ T.cor L x) :
    Shifts X L (-(n * (L.1.w a - μ))) ((σ⁻¹ ^ n) L) := by
  have hc := h.valid.comp
  have hi := h.iota_nonneg hm
  have hn : (0 : R) ≤ n * (L.1.w a - μ) := mul_nonneg (Nat.cast_nonneg n) hi
  have he : (2 : R) * (n * (L.1.w a - μ)) * (1 + X.count e) ≤ T.cor L e := by
    by_cases he : e ∈ X
    · have := h.cor_e_ge (L := L) (μ := μ) he (τ := 2 * (n * (L.1.w a - μ))) (fun x hx _ => hd x hx)
      rw [List.count_eq_one_of_mem h.nodup he]
      push_cast
      have : 0 ≤ μ := ha ▸ cor_nonneg hc hL h.sweep.label
      linarith
    · obtain ⟨y, z, hg⟩ := hc.exists_glues (isLabel_inv.2 (hc.label_of_glues h.glues).2.2)
      have h1 := h.cor_across L hg
      have h2 := hd _ h.inv_e_mem'
      have h3 := cor_nonneg hc hL (hc.label_of_glues hg).2.1
      rw [List.count_eq_zero.2 he]
      push_cast
      linarith
  obtain ⟨M, hM, hMn⟩ := h.shift_exists hL (-(n * (L.1.w a - μ))) (fun x y z hg => by
    have hl := (hc.label_of_glues hg).1
    by_cases h1 : x = a
    · subst h1
      obtain ⟨rfl, rfl⟩ := hc.glues_unique hg h.glues
      rw [h.cn_a, h.cn_b, h.cn_e]
      have := cor_nonneg hc hL hl
      simpa using this
    by_cases h2 : x = b
    · subst h2
      obtain ⟨rfl, rfl⟩ := hc.glues_unique hg h.glues.rot
      rw [h.cn_a, h.cn_b, h.cn_e]
      have := cor_nonneg hc hL hl
      simpa using this
    by_cases h3 : x = e
    · subst h3
      obtain ⟨rfl, rfl⟩ := hc.glues_unique hg h.glues.rot.rot
      rw [h.cn_a, h.cn_b, h.cn_e]
      push_cast
      linarith
    · rw [h.corner_other hg ⟨h1, h2, h3⟩]
      by_cases hx : x ∈ X
      · rw [List.count_eq_one_of_mem h.nodup hx]
        have := hd x (h.mem_dropLast.2 ⟨hx, h2⟩)
        have : 0 ≤ μ := ha ▸ cor_nonneg hc hL h.sweep.label
        push_cast
        linarith
      · rw [List.count_eq_zero.2 hx]
        have := cor_nonneg hc hL hl
        simpa using this)
  have hMm : IsMin a X M μ := by
    refine ⟨?_, a, by simp, by rw [h.shift_a hM, ha]⟩
    intro y hy
    rcases List.mem_cons.1 hy with k | k
    · rw [k, h.shift_a hM, ha]
    · by_cases hyb : y = b
      · rw [hyb, h.shift_b hM]; exact hm.1 b (by simp [h.b_mem])
      · have hyd := h.mem_dropLast.2 ⟨k, hyb⟩
        by_cases hye : y = e
        · subst hye
          rw [h.shift_e hM]
          have := h.cor_e_ge (L := L) (μ := μ) k (τ := 2 * (n * (L.1.w a - μ))) (fun x hx _ => hd x hx)
          rw [List.count_eq_one_of_mem h.nodup k]
          push_cast
          linarith
        · rw [h.shift_mem hM hyd hye]
          have := hd y hyd
          linarith
  have hwa := h.shift_wa hM
  have h1 := h.away hσ n M hMn hMm (by rw [h.shift_a hM, ha])
  rw [hwa] at h1
  have h2 : (σ ^ n) M = L := h1.unique (by have := hM.symm; rwa [neg_neg] at this)
  have h3 : (σ⁻¹ ^ n) L = M := by
    rw [← h2, inv_pow, perm_inv_apply]
  rw [h3]
  exact hM

/-- backwards, two twists cross the dangerous region -/
theorem back_cross (h : Loop T a b e X) (hσ : Loop.Action T a b e X σ) (hL : L.1.NoArcs) (hm : IsMin a X L μ)
    (hd : ¬ (T.cor L a = μ ∧ ∀ x ∈ X.dropLast, μ + 2 * (L.1.w a - μ) ≤ T.cor L x)) {n : Nat} (hn : 2 ≤ n) : T.cor ((σ⁻¹ ^ n) L) b = μ := by
  obtain ⟨n, rfl⟩ : ∃ k, n = k + 1 := ⟨n - 1, by omega⟩
  obtain ⟨m1, m2, m3⟩ := h.min_back_pow hσ (n + 1) L hL hm
  by_contra hb
  obtain ⟨y, hy, k⟩ := m2.2
  have hyb : y ≠ b := by rintro rfl; exact hb k
  have h1 := h.low_step hσ m1 m2 ⟨y, hy, hyb, k⟩
  have e1 : σ ((σ⁻¹ ^ (n + 1)) L) = (σ⁻¹ ^ n) L := by
    rw [pow_succ', Equiv.Perm.mul_apply, perm_apply_inv]
  rw [e1] at h1
  obtain ⟨p1, p2, p3⟩ := h.min_back_pow hσ n L hL hm
  have h2 := h.away hσ n _ p1 p2 h1
  have e2 : (σ ^ n) ((σ⁻¹ ^ n) L) = L := by rw [inv_pow, perm_apply_inv]
  rw [e2, p3] at h2
  apply hd
  have hi := h.iota_nonneg hm
  have hn' : (1 : R) ≤ (n : R) := by exact_mod_cast (show 1 ≤ n by omega)
  have hge : L.1.w a - μ ≤ n * (L.1.w a - μ) := by nlinarith
  refine ⟨by rw [h.shift_a h2, h1], fun x hx => ?_⟩
  have k1 := h.shift_ge h2 (by linarith) hx
  have k2 := p2.1 x (h.dropLast_sub hx)
  linarith

end Loop
end Triangulation
end Curver
