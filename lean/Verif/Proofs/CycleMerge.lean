import Mathlib.GroupTheory.Perm.Cycle.Basic
import Mathlib.Logic.Relation

/-! merging two cycles of a permutation, and adding one edge to a graph -/

namespace Curver

theorem eqvGen_insert {κ : Type _} {P : κ → κ → Prop} {a b x y : κ} :
    Relation.EqvGen (fun u v => P u v ∨ (u = a ∧ v = b)) x y ↔ Relation.EqvGen P x y ∨
      (Relation.EqvGen P x a ∧ Relation.EqvGen P b y) ∨ (Relation.EqvGen P x b ∧ Relation.EqvGen P a y) := by
  constructor
  · intro h
    induction h with
    | rel u v h =>
      rcases h with h | ⟨rfl, rfl⟩
      · exact .inl (.rel _ _ h)
      · exact .inr (.inl ⟨.refl _, .refl _⟩)
    | refl u => exact .inl (.refl _)
    | symm u v _ ih =>
      rcases ih with h | ⟨h1, h2⟩ | ⟨h1, h2⟩
      · exact .inl h.symm
      · exact .inr (.inr ⟨h2.symm, h1.symm⟩)
      · exact .inr (.inl ⟨h2.symm, h1.symm⟩)
    | trans u v w _ _ ih1 ih2 =>
      rcases ih1 with h | ⟨h1, h2⟩ | ⟨h1, h2⟩ <;> rcases ih2 with k | ⟨k1, k2⟩ | ⟨k1, k2⟩
      · exact .inl (h.trans _ _ _ k)
      · exact .inr (.inl ⟨h.trans _ _ _ k1, k2⟩)
      · exact .inr (.inr ⟨h.trans _ _ _ k1, k2⟩)
      · exact .inr (.inl ⟨h1, h2.trans _ _ _ k⟩)
      · exact .inr (.inl ⟨h1, k2⟩)
      · exact .inl (h1.trans _ _ _ k2)
      · exact .inr (.inr ⟨h1, h2.trans _ _ _ k⟩)
      · exact .inl (h1.trans _ _ _ k2)
      · exact .inr (.inr ⟨h1, k2⟩)
  · have mono : ∀ {x y}, Relation.EqvGen P x y → Relation.EqvGen (fun u v => P u v ∨ (u = a ∧ v = b)) x y :=
      fun h => h.mono (fun _ _ h => .inl h)
    rintro (h | ⟨h1, h2⟩ | ⟨h1, h2⟩)
    · exact mono h
    · exact (mono h1).trans _ _ _ ((Relation.EqvGen.rel _ _ (.inr ⟨rfl, rfl⟩)).trans _ _ _ (mono h2))
    · exact (mono h1).trans _ _ _ ((Relation.EqvGen.rel _ _ (.inr ⟨rfl, rfl⟩)).symm.trans _ _ _ (mono h2))

open Equiv Equiv.Perm

variable {α : Type _} [DecidableEq α] {f : Perm α} {a b : α}

/-- before it returns, the walk from `a` under `swap a b * f` agrees with the walk under `f` -/
theorem swap_mul_pow (hab : ¬ f.SameCycle a b) {n : Nat} (hn : ∀ k, 0 < k → k < n → (f ^ k) a ≠ a) {k : Nat} (hk : k < n) :
    ((swap a b * f) ^ k) a = (f ^ k) a := by
  induction k with
  | zero => rfl
  | succ k ih =>
    have h1 : (f ^ (k + 1)) a ≠ a := hn (k + 1) (by omega) hk
    have h2 : (f ^ (k + 1)) a ≠ b := fun h => hab ⟨(k + 1 : Nat), by rw [zpow_natCast]; exact h⟩
    rw [pow_succ', Perm.mul_apply, ih (by omega), Perm.mul_apply, ← Perm.mul_apply f, ← pow_succ', swap_apply_of_ne_of_ne h1 h2]

theorem swap_mul_joins (hab : ¬ f.SameCycle a b) {n : Nat} (hn0 : 0 < n) (hna : (f ^ n) a = a)
    (hn : ∀ k, 0 < k → k < n → (f ^ k) a ≠ a) : ((swap a b * f) ^ n) a = b := by
  obtain ⟨k, rfl⟩ : ∃ k, n = k + 1 := ⟨n - 1, by omega⟩
  rw [pow_succ', Perm.mul_apply, swap_mul_pow hab hn (by omega), Perm.mul_apply, ← Perm.mul_apply f, ← pow_succ', hna, swap_apply_left]

theorem exists_return (hf : ∃ n, 0 < n ∧ (f ^ n) a = a) : ∃ n, 0 < n ∧ (f ^ n) a = a ∧ ∀ k, 0 < k → k < n → (f ^ k) a ≠ a := by
  classical
  refine ⟨Nat.find hf, (Nat.find_spec hf).1, (Nat.find_spec hf).2, ?_⟩
  intro k h0 hk h
  exact Nat.find_min hf hk ⟨h0, h⟩

theorem sameCycle_of_step {β : Type _} {g : Perm β} {r : β → β → Prop} (hr : Equivalence r) (h : ∀ x, r x (g x)) {x y : β}
    (hxy : g.SameCycle x y) : r x y := by
  obtain ⟨i, rfl⟩ := hxy
  have hpos : ∀ (n : Nat) x, r x ((g ^ n) x) := by
    intro n
    induction n with
    | zero => intro x; exact hr.refl _
    | succ n ih => intro x; rw [pow_succ', Perm.mul_apply]; exact hr.trans (ih x) (h _)
  cases i with
  | ofNat n => simpa using hpos n x
  | negSucc n =>
    have := hpos (n + 1) ((g ^ Int.negSucc n) x)
    rw [← Perm.mul_apply, zpow_negSucc, mul_inv_cancel] at this
    rw [zpow_negSucc]
    exact hr.symm this

theorem sameCycle_step {β : Type _} (g : Perm β) (x : β) : g.SameCycle x (g x) := ⟨1, by simp⟩

/-- composing with a transposition of points on different cycles merges the two cycles -/
theorem sameCycle_swap_mul (hab : ¬ f.SameCycle a b) (hf : ∃ n, 0 < n ∧ (f ^ n) a = a) {x y : α} :
    (swap a b * f).SameCycle x y ↔ f.SameCycle x y ∨ (f.SameCycle x a ∧ f.SameCycle b y) ∨ (f.SameCycle x b ∧ f.SameCycle a y) := by
  obtain ⟨n, h0, h1, h2⟩ := exists_return hf
  have hg : (swap a b * f).SameCycle a b := ⟨n, by rw [zpow_natCast]; exact swap_mul_joins hab h0 h1 h2⟩
  have mono : ∀ {x y}, f.SameCycle x y → (swap a b * f).SameCycle x y := by
    intro x y h
    refine sameCycle_of_step ⟨fun _ => .refl _ _, fun h => h.symm, fun h h' => h.trans h'⟩ ?_ h
    intro x
    have hs := sameCycle_step (swap a b * f) x
    rw [Perm.mul_apply] at hs
    by_cases ha : f x = a
    · rw [ha, swap_apply_left] at hs; rw [ha]; exact hs.trans hg.symm
    · by_cases hb : f x = b
      · rw [hb, swap_apply_right] at hs; rw [hb]; exact hs.trans hg
      · rwa [swap_apply_of_ne_of_ne ha hb] at hs
  constructor
  · intro h
    have hr : Equivalence (fun x y => f.SameCycle x y ∨ (f.SameCycle x a ∧ f.SameCycle b y) ∨ (f.SameCycle x b ∧ f.SameCycle a y)) := by
      constructor
      · intro x; exact .inl (.refl _ _)
      · rintro x y (h | ⟨h, k⟩ | ⟨h, k⟩)
        · exact .inl h.symm
        · exact .inr (.inr ⟨k.symm, h.symm⟩)
        · exact .inr (.inl ⟨k.symm, h.symm⟩)
      · rintro x y z (h | ⟨h, k⟩ | ⟨h, k⟩) (h' | ⟨h', k'⟩ | ⟨h', k'⟩)
        · exact .inl (h.trans h')
        · exact .inr (.inl ⟨h.trans h', k'⟩)
        · exact .inr (.inr ⟨h.trans h', k'⟩)
        · exact .inr (.inl ⟨h, k.trans h'⟩)
        · exact .inr (.inl ⟨h, k'⟩)
        · exact .inl (h.trans k')
        · exact .inr (.inr ⟨h, k.trans h'⟩)
        · exact .inl (h.trans k')
        · exact .inr (.inr ⟨h, k'⟩)
    refine sameCycle_of_step hr ?_ h
    intro x
    have hs := sameCycle_step f x
    rw [Perm.mul_apply]
    by_cases ha : f x = a
    · rw [ha, swap_apply_left]; rw [ha] at hs; exact .inr (.inl ⟨hs, .refl _ _⟩)
    · by_cases hb : f x = b
      · rw [hb, swap_apply_right]; rw [hb] at hs; exact .inr (.inr ⟨hs, .refl _ _⟩)
      · rw [swap_apply_of_ne_of_ne ha hb]; exact .inl hs
  · rintro (h | ⟨h, k⟩ | ⟨h, k⟩)
    · exact mono h
    · exact (mono h).trans (hg.trans (mono k))
    · exact (mono h).trans (hg.symm.trans (mono k))

end Curver
