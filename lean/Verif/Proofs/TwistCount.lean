import Verif.Proofs.TwistEnc
import Verif.Props.Peripheral

namespace Curver
open Triangulation
namespace Triangulation
variable {T : Triangulation} {a b e : Int} {X : List Int}

namespace Loop

theorem ne_nil (h : Loop T a b e X) : X ≠ [] := by rintro rfl; have := h.two; simp at this

theorem a_notin (h : Loop T a b e X) : a ∉ X := (List.nodup_cons.1 h.sweep.nodup).1

theorem nodup (h : Loop T a b e X) : X.Nodup := (List.nodup_cons.1 h.sweep.nodup).2

theorem b_mem (h : Loop T a b e X) : b ∈ X := by
  rw [h.sweep.eq_concat h.valid.comp h.glues h.ne_nil]; simp

theorem inv_e_mem (h : Loop T a b e X) : inv e ∈ X := by
  obtain ⟨X', hX⟩ := h.sweep.first h.valid.comp h.glues h.ne_nil
  rw [hX]; simp

theorem e_mem_iff (h : Loop T a b e X) : e ∈ X ↔ inv b ∈ X := h.sweep.mem_iff h.valid h.glues h.two

theorem b_notin (h : Loop T a b e X) : b ∉ X.dropLast := by
  have hn := h.nodup
  rw [h.sweep.eq_concat h.valid.comp h.glues h.ne_nil, List.nodup_append] at hn
  intro hb
  exact hn.2.2 b hb b (by simp) rfl

theorem mem_dropLast (h : Loop T a b e X) {x : Int} : x ∈ X.dropLast ↔ x ∈ X ∧ x ≠ b := by
  constructor
  · intro hx
    exact ⟨List.dropLast_subset _ hx, fun hb => h.b_notin (hb ▸ hx)⟩
  · rintro ⟨hx, hb⟩
    rw [h.sweep.eq_concat h.valid.comp h.glues h.ne_nil] at hx
    rcases List.mem_append.1 hx with hx | hx
    · exact hx
    · exact absurd (List.mem_singleton.1 hx) hb

theorem count_a (h : Loop T a b e X) : X.count a = 0 := List.count_eq_zero.2 h.a_notin

theorem count_ia (h : Loop T a b e X) : X.count (inv a) = 0 := List.count_eq_zero.2 h.sweep.notin

theorem count_b (h : Loop T a b e X) : X.count b = 1 := List.count_eq_one_of_mem h.nodup h.b_mem

theorem count_ie (h : Loop T a b e X) : X.count (inv e) = 1 := List.count_eq_one_of_mem h.nodup h.inv_e_mem

theorem count_e (h : Loop T a b e X) : X.count e = X.count (inv b) := by
  by_cases he : e ∈ X
  · rw [List.count_eq_one_of_mem h.nodup he, List.count_eq_one_of_mem h.nodup (h.e_mem_iff.1 he)]
  · rw [List.count_eq_zero.2 he, List.count_eq_zero.2 (fun k => he (h.e_mem_iff.2 k))]

/-- the edges come in order -/
theorem mem_spin (h : Loop T a b e X) {x : Int} (hx : T.IsLabel x) : T.spin x ∈ X ↔ x = a ∨ (x ∈ X ∧ x ≠ b) := by
  have hc := h.valid.comp
  have hch := h.sweep.chain
  have hspb : T.spin b = inv a := Sweep.spin_eq hc h.glues.rot
  constructor
  · intro hm
    obtain ⟨y, hy, hr⟩ := chain_prev _ _ hch (T.spin x) (by simp [hm])
    have : x = y := hc.spin_inj hx (by
      rcases List.mem_cons.1 (List.dropLast_subset _ hy) with rfl | hy
      · exact h.sweep.label
      · rcases List.mem_append.1 hy with hy | hy
        · exact h.sweep.labels hc y hy
        · rw [List.mem_singleton.1 hy]; exact isLabel_inv.2 h.sweep.label) hr
    subst this
    rw [List.dropLast_cons_of_ne_nil (by simp), List.dropLast_concat] at hy
    rcases List.mem_cons.1 hy with rfl | hy
    · exact .inl rfl
    · refine .inr ⟨hy, ?_⟩
      rintro rfl
      rw [hspb] at hm
      exact h.sweep.notin hm
  · rintro (rfl | ⟨hx', hb⟩)
    · rw [Sweep.spin_eq hc h.glues]; exact h.inv_e_mem
    · obtain ⟨z, hz, hr⟩ := chain_succ _ _ hch x (by
        rw [List.dropLast_cons_of_ne_nil (by simp), List.dropLast_concat]; simp [hx'])
      rw [← hr]
      rcases List.mem_append.1 hz with hz | hz
      · exact hz
      · rw [List.mem_singleton.1 hz] at hr
        exact absurd (hc.spin_inj hx h.fan.base.labels.2.1 (by rw [hspb, hr])) hb

theorem count_spin (h : Loop T a b e X) {x y z : Int} (hg : T.Glues x y z) : ((X.count x : Nat) : Int) = X.count (inv z) + (if x = b then 1 else 0) - (if x = a then 1 else 0) := by
  have hc := h.valid.comp
  have hl := (hc.label_of_glues hg).1
  have hm := h.mem_spin hl
  rw [Sweep.spin_eq hc hg] at hm
  have ne := h.fan.base.nes
  by_cases h1 : x = a
  · subst h1
    rw [if_neg ne.1, if_pos rfl, h.count_a, List.count_eq_one_of_mem h.nodup (hm.2 (.inl rfl))]; simp
  · by_cases h2 : x = b
    · subst h2
      rw [if_pos rfl, if_neg h1, h.count_b, List.count_eq_zero.2]; · simp
      intro k
      rcases hm.1 k with k | k
      · exact h1 k
      · exact k.2 rfl
    · rw [if_neg h1, if_neg h2]
      by_cases h3 : x ∈ X
      · rw [List.count_eq_one_of_mem h.nodup h3, List.count_eq_one_of_mem h.nodup (hm.2 (.inr ⟨h3, h2⟩))]; simp
      · rw [List.count_eq_zero.2 h3, List.count_eq_zero.2]; · simp
        intro k
        rcases hm.1 k with k | k
        · exact h1 k
        · exact h3 k.1

end Loop

/-- how often the curve crosses the edge -/
def cn (X : List Int) (x : Int) : Int := (X.count x : Int) + X.count (inv x)

theorem cn_inv (X : List Int) (x : Int) : cn X (inv x) = cn X x := by unfold cn; rw [inv_inv]; omega

theorem cn_nonneg (X : List Int) (x : Int) : 0 ≤ cn X x := by unfold cn; omega

namespace Loop

/-- the corner weights of the curve -/
theorem corner (h : Loop T a b e X) {x y z : Int} (hg : T.Glues x y z) : cn X x + cn X z - cn X y =
    2 * X.count x - (if x = b then 1 else 0) + (if x = a then 1 else 0) - (if y = b then 1 else 0) + (if y = a then 1 else 0) + (if z = b then 1 else 0) - (if z = a then 1 else 0) := by
  have h1 := h.count_spin hg
  have h2 := h.count_spin hg.rot
  have h3 := h.count_spin hg.rot.rot
  unfold cn
  omega

theorem cn_a (h : Loop T a b e X) : cn X a = 0 := by unfold cn; rw [h.count_a, h.count_ia]; rfl
theorem cn_b (h : Loop T a b e X) : cn X b = 1 + X.count e := by unfold cn; rw [h.count_b, h.count_e]; rfl
theorem cn_e (h : Loop T a b e X) : cn X e = 1 + X.count e := by unfold cn; rw [h.count_ie]; omega

/-- away from the triangle `(a, b, e)` -/
theorem corner_other (h : Loop T a b e X) {x y z : Int} (hg : T.Glues x y z) (hx : x ≠ a ∧ x ≠ b ∧ x ≠ e) : cn X x + cn X z - cn X y = 2 * X.count x := by
  have := h.corner hg
  have no := h.fan.base.other hg hx
  rw [if_neg hx.1, if_neg hx.2.1, if_neg no.1.1, if_neg no.1.2.1, if_neg no.2.1, if_neg no.2.2.1] at this
  omega

theorem corner_nonneg (h : Loop T a b e X) {x y z : Int} (hg : T.Glues x y z) : 0 ≤ cn X x + cn X z - cn X y ∧ Even (cn X x + cn X z - cn X y) := by
  have hc := h.valid.comp
  by_cases h1 : x = a
  · subst h1
    obtain ⟨rfl, rfl⟩ := hc.glues_unique hg h.glues
    rw [h.cn_a, h.cn_b, h.cn_e]; simp
  by_cases h2 : x = b
  · subst h2
    obtain ⟨rfl, rfl⟩ := hc.glues_unique hg h.glues.rot
    rw [h.cn_a, h.cn_b, h.cn_e]; simp
  by_cases h3 : x = e
  · subst h3
    obtain ⟨rfl, rfl⟩ := hc.glues_unique hg h.glues.rot.rot
    rw [h.cn_a, h.cn_b, h.cn_e]
    refine ⟨by omega, ⟨1 + X.count x, by omega⟩⟩
  · rw [h.corner_other hg ⟨h1, h2, h3⟩]
    exact ⟨by omega, ⟨X.count x, by omega⟩⟩

/-- folding away the triangle -/
theorem count_fold (h : Loop T a b e X) {y : Int} (hy : T.Left a e y) : cn X (hat b e y) = (fold e X).count y + (fold e X).count (inv y) := by
  obtain ⟨X', hX⟩ := h.sweep.first h.valid.comp h.glues h.ne_nil
  have hn := h.nodup
  have hf : ∀ z, z ≠ e → z ≠ inv e → (fold e X).count z = X.count z := by
    intro z h1 h2
    unfold fold
    rw [List.count_filter (by simpa using h1), hX, List.tail_cons, List.count_cons_of_ne (Ne.symm h2)]
  have hiy : inv y ≠ e := fun k => hy.ni (inv_eq_iff.1 k)
  have hiy' : inv y ≠ inv e := fun k => hy.ne (inv_inj.1 k)
  rw [hf y hy.ne hy.ni, hf _ hiy hiy']
  by_cases hb : y = b
  · subst hb
    rw [Base.hat_b, cn_inv, h.cn_e, h.count_b, ← h.count_e]; rfl
  · rw [Base.hat_of_ne hb]; rfl

theorem fold_length (h : Loop T a b e X) : ((fold e X).length : Int) + 1 + X.count e = X.length := by
  obtain ⟨X', hX⟩ := h.sweep.first h.valid.comp h.glues h.ne_nil
  unfold fold
  rw [hX, List.tail_cons]
  have h1 : (List.filter (fun z => decide (z ≠ e)) X').length + X'.count e = X'.length := by
    have := List.length_eq_length_filter_add (l := X') (fun z => decide (z ≠ e))
    rw [this, List.count, List.countP_eq_length_filter]
    congr 2
    apply List.filter_congr
    intro x _
    by_cases k : x = e <;> simp [k]
  rw [List.count_cons_of_ne (fun k => inv_ne e k), List.length_cons]
  omega

end Loop

theorem sum_count_zero (n : Nat) (x : Int) (h0 : 0 ≤ norm x) (hn : (norm x).toNat < n) :
    ((List.range n).map (fun (i : Nat) => (([x].count (i : Int) + [x].count (inv (i : Int)) : Nat) : Int))).sum = 1 := by
  have : ∀ i : Nat, (([x].count (i : Int) + [x].count (inv (i : Int)) : Nat) : Int) = if i = (norm x).toNat then 1 else 0 := by
    intro i
    simp only [List.count_singleton]
    by_cases hi : i = (norm x).toNat
    · rw [if_pos hi]
      have : (i : Int) = norm x := by rw [hi, Int.toNat_of_nonneg h0]
      have h2 : (i : Int) = x ∨ inv (i : Int) = x := by unfold norm at this; unfold inv at *; omega
      have h3 : ¬ ((i : Int) = x ∧ inv (i : Int) = x) := by unfold inv; omega
      rcases h2 with h2 | h2
      · have h4 : ¬ inv (i : Int) = x := fun k => h3 ⟨h2, k⟩
        simp [h2.symm]; exact fun k => (inv_ne _) k.symm
      · have h4 : ¬ (i : Int) = x := fun k => h3 ⟨k, h2⟩
        simp [h2.symm]; exact inv_ne _
    · rw [if_neg hi]
      have h1 : x ≠ i := by
        rintro rfl
        exact hi (by rw [norm_of_nonneg (by omega)]; simp)
      have h2 : x ≠ inv i := by
        rintro rfl
        exact hi (by rw [norm_inv, norm_of_nonneg (by omega)]; simp)
      simp [h1, h2]
  simp only [this]
  rw [List.sum_map_ite_eq]
  rw [List.count_eq_one_of_mem List.nodup_range (List.mem_range.2 hn)]; simp

theorem sum_counts (n : Nat) : ∀ X : List Int, (∀ x ∈ X, (norm x).toNat < n) →
    ((List.range n).map (fun (i : Nat) => ((X.count (i : Int) + X.count (inv (i : Int)) : Nat) : Int))).sum = X.length
  | [], _ => by simp
  | x :: X, h => by
    have ih := sum_counts n X (fun y hy => h y (by simp [hy]))
    have h1 := sum_count_zero n x (norm_nonneg x) (h x (by simp))
    have : ∀ i : Nat, (((x :: X).count (i : Int) + (x :: X).count (inv (i : Int)) : Nat) : Int) =
        (([x].count (i : Int) + [x].count (inv (i : Int)) : Nat) : Int) + ((X.count (i : Int) + X.count (inv (i : Int)) : Nat) : Int) := by
      intro i
      rw [show x :: X = [x] ++ X from rfl, List.count_append, List.count_append]
      push_cast; ring
    simp only [this]
    rw [List.sum_map_add, ih, h1, List.length_cons]
    push_cast; ring

/-- the number of flips is the right one -/
theorem Loop.numFlips (h : Loop T a b e X) {c : Lam Int} (ht : c.tri = T) (hc : c.geometric = T.cutSequenceIntersections X) :
    ∃ n, c.dualWeight a = .ok n ∧ c.weight - n = ((fold e X).length : Int) := by
  have hw : c.WellFormed := ⟨ht ▸ h.valid, by rw [hc, cut_length, ht]⟩
  have hcw : ∀ x, T.IsLabel x → c.w x = cn X x := by
    intro x hx
    have := link_w (R := Int) X hx
    unfold cn
    rw [← Int.natCast_add]
    rw [show ((X.count x + X.count (inv x) : Nat) : Int) = (((X.count x + X.count (inv x) : Nat) : Int) : Int) from rfl] at this
    rw [← this]
    unfold Lam.w curveFromCutSequence; rw [hc]
  have hl := h.fan.base.labels
  refine ⟨1 + X.count e, ?_, ?_⟩
  · rw [Lam.dualWeight_eq hw (ht.symm ▸ h.glues), half_ok_iff, hcw a hl.1, hcw b hl.2.1, hcw e hl.2.2, h.cn_a, h.cn_b, h.cn_e]
    unfold Lam.dual2
    dsimp only
    omega
  · have hwt : c.weight = X.length := by
      unfold Lam.weight
      rw [hc]
      unfold cutSequenceIntersections
      rw [List.map_map]
      rw [← sum_counts T.zeta X (fun x hx => idx_lt (h.sweep.labels h.valid.comp x hx))]
      congr 1
      apply List.map_congr_left
      intro i _
      simp only [Function.comp]
      apply max_eq_left
      simp only [Int.natCast_add]
      positivity
    have := h.fold_length
    omega

end Triangulation
end Curver
