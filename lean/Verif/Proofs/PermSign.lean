import Verif.Proofs.Permutation
import Mathlib.Order.Interval.Finset.Fin
import Mathlib.LinearAlgebra.Matrix.Permutation
import Mathlib.Algebra.BigOperators.Fin

namespace Curver
namespace Permutation
open Finset

theorem combinations2_prod {n : Nat} (f : Fin n → Nat) (g : Nat × Nat → ℤˣ) :
    ((combinations2 (List.ofFn f)).map g).prod = ∏ i, ∏ j ∈ Ioi i, g (f i, f j) := by
  induction n with
  | zero => simp [combinations2]
  | succ n ih =>
    rw [List.ofFn_succ]
    simp only [combinations2, List.map_append, List.prod_append, List.map_map]
    rw [ih, Fin.prod_univ_succ, Fin.prod_Ioi_zero]
    congr 1
    · rw [List.map_ofFn, List.prod_ofFn]
      rfl
    · apply Finset.prod_congr rfl
      intro i _
      rw [Fin.prod_Ioi_succ]

theorem inversions_parity (l : List (Nat × Nat)) :
    (l.map (fun ab => if ab.1 > ab.2 then (-1 : ℤˣ) else 1)).prod =
      (-1) ^ ((l.filter (fun ab => decide (ab.1 > ab.2))).map (fun ab => if ab.1 > ab.2 then 1 else 0)).sum := by
  induction l with
  | nil => simp
  | cons a l ih =>
    by_cases h : a.1 > a.2
    · simp only [List.map_cons, List.prod_cons, h, if_true, ih, List.filter_cons_of_pos, decide_true,
        List.sum_cons, pow_add, pow_one]
    · rw [List.map_cons, List.prod_cons, if_neg h, one_mul, ih, List.filter_cons_of_neg (by simpa using h)]

theorem neg_one_pow_parity (k : Nat) : k % 2 = 0 ↔ (-1 : ℤˣ) ^ k = 1 := by
  constructor
  · intro hk; exact (Nat.even_iff.2 hk).neg_one_pow
  · intro hk
    by_contra hc
    have hodd : Odd k := Nat.odd_iff.2 (by omega)
    rw [hodd.neg_one_pow] at hk
    exact absurd hk (by decide)

theorem isEven_iff_sign {p : Permutation} {n : Nat} {σ : Equiv.Perm (Fin n)} (h : p.Represents σ) :
    p.isEven = true ↔ σ.sign = 1 := by
  have h1 : σ.sign = (-1) ^ (((combinations2 p.perm).filter (fun ab => decide (ab.1 > ab.2))).map
      (fun ab => if ab.1 > ab.2 then 1 else 0)).sum := by
    rw [← inversions_parity]
    unfold Represents at h
    rw [h, combinations2_prod, σ.sign_eq_prod_prod_Ioi]
    apply Finset.prod_congr rfl
    intro i _
    apply Finset.prod_congr rfl
    intro j hj
    have hij : i < j := by simpa using hj
    have hne : σ i ≠ σ j := fun e => hij.ne (σ.injective e)
    rcases lt_or_gt_of_ne hne with h | h
    · rw [if_pos h, if_neg (by simpa using h.le)]
    · rw [if_neg (not_lt.2 h.le), if_pos (by simpa using h)]
  unfold isEven
  rw [h1, beq_iff_eq]
  exact neg_one_pow_parity _

theorem matrix_entries {p : Permutation} {n : Nat} {σ : Equiv.Perm (Fin n)} (h : p.Represents σ) (i j : Fin n) :
    ∃ row, p.matrix[i.val]? = some row ∧ row[j.val]? = some (if i = σ j then 1 else 0) ∧ row.length = n := by
  unfold matrix
  rw [h.len]
  unfold Represents at h
  rw [h]
  refine ⟨_, by rw [List.getElem?_map, List.getElem?_range i.isLt]; rfl, ?_, by simp⟩
  simp [Fin.ext_iff]

end Permutation
end Curver
