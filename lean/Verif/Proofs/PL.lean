import Verif.Spec.PL
import Verif.Proofs.Encoding
import Verif.Proofs.DualWeights
import Mathlib.Algebra.BigOperators.Ring.Finset
import Mathlib.Algebra.Order.BigOperators.Group.Finset

namespace Curver
open Triangulation

namespace Mat
variable {R : Type} [CommRing R]

theorem dot_eq {n : Nat} {row : List Int} {x : List R} (h1 : row.length = n) (h2 : x.length = n) :
    dot row x = ∑ i ∈ Finset.range n, (row.getD i 0 : R) * x.getD i 0 := by
  induction n generalizing row x with
  | zero =>
    rw [List.length_eq_zero_iff] at h1 h2
    subst h1; subst h2; simp [dot]
  | succ n ih =>
    match row, x, h1, h2 with
    | a :: row, b :: x, h1, h2 =>
      have := ih (row := row) (x := x) (by simpa using h1) (by simpa using h2)
      rw [Finset.sum_range_succ']
      simp only [List.getD_cons_succ, List.getD_cons_zero]
      rw [← this]
      simp [dot, add_comm]

theorem image_eq (A : Mat) (x : List R) : A.image x = A.map (fun row => dot row x) := rfl

theorem length_image (A : Mat) (x : List R) : (A.image x).length = A.length := by simp [image]

theorem image_getD (A : Mat) (x : List R) {i : Nat} : (A.image x).getD i 0 = dot (A.getD i []) x := by
  rw [image_eq]
  by_cases h : i < A.length
  · simp [List.getD, h]
  · simp [List.getD, List.getElem?_eq_none (Nat.le_of_not_lt h), dot]

theorem HasShape.row {A : Mat} {m n : Nat} (h : A.HasShape m n) {i : Nat} (hi : i < m) : (A.getD i []).length = n := by
  have : i < A.length := by rw [h.1]; exact hi
  simp only [List.getD, List.getElem?_eq_getElem this, Option.getD_some]
  exact h.2.2 _ (List.getElem_mem _)

theorem HasShape.cols {A : Mat} {m n : Nat} (h : A.HasShape m n) : A.cols = n := by
  match A, h with
  | row :: A, h => simp [Mat.cols, h.2.2 row (by simp)]
  | [], h => have := h.1; have := h.2.1; simp at *; omega

theorem HasShape.not_empty {A : Mat} {m n : Nat} (h : A.HasShape m n) : A.isEmpty = false := by
  match A, h with
  | row :: A, h => rfl
  | [], h => have := h.1; have := h.2.1; simp at *; omega

theorem HasShape.any_ne {A : Mat} {m n : Nat} (h : A.HasShape m n) : A.any (fun row => row.length != n) = false := by
  rw [List.any_eq_false]
  intro row hr
  simp [h.2.2 row hr]

theorem dotVec_eq {A : Mat} {m n : Nat} (h : A.HasShape m n) {x : List R} (hx : x.length = n) : A.dotVec x = .ok (A.image x) := by
  unfold dotVec
  rw [hx, h.not_empty, h.any_ne]; rfl

theorem length_rowMul {row : List Int} {B : Mat} {m n : Nat} (h : B.HasShape m n) : (rowMul row B).length = n := by
  simp [rowMul, h.cols]

theorem dot_rowMul {row : List Int} {B : Mat} {m n : Nat} (h : B.HasShape m n) (hr : row.length = m) {x : List R} (hx : x.length = n) :
    dot (rowMul row B) x = dot row (B.image x) := by
  rw [dot_eq (length_rowMul h) hx, dot_eq hr (by rw [length_image, h.1])]
  have h1 : ∀ j ∈ Finset.range n, (((rowMul row B).getD j 0 : Int) : R) * x.getD j 0 =
      ∑ i ∈ Finset.range m, (row.getD i 0 : R) * (((B.getD i []).getD j 0 : Int) : R) * x.getD j 0 := by
    intro j hj
    have hj' : j < n := Finset.mem_range.1 hj
    have : (rowMul row B).getD j 0 = dot row (B.map (fun r => r.getD j 0)) := by
      unfold rowMul
      simp [List.getD, h.cols, hj']
    rw [this, dot_eq hr (by simp [h.1])]
    rw [Int.cast_sum, Finset.sum_mul]
    apply Finset.sum_congr rfl
    intro i hi
    have hi' : i < B.length := by rw [h.1]; exact Finset.mem_range.1 hi
    push_cast
    congr 2
    simp [List.getD, hi']
  rw [Finset.sum_congr rfl h1, Finset.sum_comm]
  apply Finset.sum_congr rfl
  intro i hi
  rw [image_getD, dot_eq (h.row (Finset.mem_range.1 hi)) hx, Finset.mul_sum]
  apply Finset.sum_congr rfl
  intro j _
  ring

theorem dotMat_eq {A B : Mat} {k m n : Nat} (hA : A.HasShape k m) (hB : B.HasShape m n) : ∃ C, A.dotMat B = .ok C ∧ C.HasShape k n ∧
    ∀ (R : Type) [CommRing R] (x : List R), x.length = n → C.image x = A.image (B.image x) := by
  refine ⟨A.map (fun row => rowMul row B), ?_, ⟨by simp [hA.1], hA.2.1, ?_⟩, ?_⟩
  · unfold dotMat
    rw [hB.1, hA.any_ne, hA.not_empty, hB.not_empty]; rfl
  · intro row hr
    rw [List.mem_map] at hr
    obtain ⟨r, _, rfl⟩ := hr
    exact length_rowMul hB
  · intro R _ x hx
    rw [image_eq, image_eq, List.map_map]
    apply List.map_congr_left
    intro row hr
    exact dot_rowMul hB (hA.2.2 _ hr) hx

theorem concatenate_eq {A B : Mat} {k m n : Nat} (hA : A.HasShape k n) (hB : B.HasShape m n) : A.concatenate B = .ok (A ++ B) ∧ (A ++ B).HasShape (k + m) n := by
  constructor
  · unfold concatenate
    rw [hA.not_empty, hB.not_empty, hA.cols, hB.cols]; simp
  · refine ⟨by simp [hA.1, hB.1], by have := hA.2.1; omega, ?_⟩
    intro row hr
    rw [List.mem_append] at hr
    exact hr.elim (hA.2.2 _) (hB.2.2 _)

theorem image_append (A B : Mat) (x : List R) : (A ++ B).image x = A.image x ++ B.image x := by simp [image]

/-- the constructor does nothing when no row but the first is zero -/
theorem keepRows_eq {A : Mat} (h : ∀ i, 0 < i → i < A.length → ∃ a ∈ A.getD i [], a ≠ 0) : A.keepRows = A := by
  match A, h with
  | [], _ => rfl
  | row :: rows, h =>
    simp only [keepRows, List.cons.injEq, true_and, List.filter_eq_self]
    intro r hr
    rw [List.mem_iff_getElem] at hr
    obtain ⟨i, hi, rfl⟩ := hr
    obtain ⟨a, h1, h2⟩ := h (i + 1) (by omega) (by simpa using hi)
    rw [List.any_eq_true]
    refine ⟨a, ?_, by simpa using h2⟩
    simpa [List.getD, hi] using h1

theorem HasShape.keepRows {A : Mat} {m n : Nat} (h : A.HasShape m n) : ∃ k, A.keepRows.HasShape k n := by
  match A, h with
  | [], h => have := h.1; have := h.2.1; simp at *; omega
  | row :: rows, h =>
    refine ⟨_, rfl, by simp [Mat.keepRows], ?_⟩
    intro r hr
    simp only [Mat.keepRows, List.mem_cons, List.mem_filter] at hr
    rcases hr with rfl | ⟨hr, _⟩
    · exact h.2.2 _ (by simp)
    · exact h.2.2 _ (by simp [hr])

theorem dot_of_zero {row : List Int} (h : ∀ a ∈ row, a = 0) (x : List R) : dot row x = 0 := by
  induction row generalizing x with
  | nil => simp [dot]
  | cons a row ih =>
    match x with
    | [] => simp [dot]
    | b :: x =>
      have := ih (fun a ha => h a (by simp [ha])) x
      simp only [dot] at this
      simp [dot, this, h a (by simp)]

/-- the dropped conditions always hold -/
theorem keepRows_nonneg [LinearOrder R] {A : Mat} {x : List R} : (∀ y ∈ A.keepRows.image x, 0 ≤ y) ↔ ∀ y ∈ A.image x, 0 ≤ y := by
  match A with
  | [] => rfl
  | row :: rows =>
    rw [image_eq, image_eq]
    simp only [Mat.keepRows, List.map_cons, List.forall_mem_cons, List.forall_mem_map, List.mem_filter]
    refine and_congr_right (fun _ => ⟨fun h r hr => ?_, fun h r hr => h r hr.1⟩)
    by_cases hz : r.any (· != 0)
    · exact h r ⟨hr, hz⟩
    · rw [dot_of_zero]
      intro a ha
      by_contra h'
      exact hz (List.any_eq_true.2 ⟨a, ha, by simpa using h'⟩)

end Mat

namespace PLF
variable {R : Type} [CommRing R] [LinearOrder R]

theorem contains_eq {F : PLF} {m n : Nat} (h : F.Types m n) {x : List R} (hx : x.length = n) : ∃ b, F.contains x = .ok b ∧ (b = true ↔ F.Domain x) := by
  obtain ⟨k, hk⟩ := h.condition
  refine ⟨_, by unfold contains; rw [Mat.dotVec_eq hk hx]; rfl, ?_⟩
  rw [List.all_eq_true]
  simp [Domain]

theorem call_eq {F : PLF} {m n : Nat} (h : F.Types m n) {x : List R} (hx : x.length = n) : (F.Domain x → F.call x = .ok (F.action.image x)) ∧
    (¬ F.Domain x → F.call x = .error .valueError) := by
  obtain ⟨b, h1, h2⟩ := contains_eq h hx
  unfold call
  rw [h1, py_bind_ok]
  constructor
  · intro hd
    rw [h2.2 hd]; simp [Mat.dotVec_eq h.action hx]
  · intro hd
    have : b = false := by
      cases b with
      | false => rfl
      | true => exact absurd (h2.1 rfl) hd
    rw [this]; rfl

theorem mul_eq {F G : PLF} {k m n : Nat} (hF : F.Types k m) (hG : G.Types m n) : ∃ (H : PLF) (A : Mat), F.mul (some G) = .ok H ∧ A.HasShape k n ∧ H.action = A.keepRows ∧
    (∃ k', H.condition.HasShape k' n) ∧ (∀ (R : Type) [CommRing R] (x : List R), x.length = n → A.image x = F.action.image (G.action.image x)) ∧
    ∀ (R : Type) [CommRing R] [LinearOrder R] (x : List R), x.length = n → (H.Domain x ↔ G.Domain x ∧ F.Domain (G.action.image x)) := by
  obtain ⟨kf, hf⟩ := hF.condition
  obtain ⟨kg, hg⟩ := hG.condition
  obtain ⟨A, a1, a2, a3⟩ := Mat.dotMat_eq hF.action hG.action
  obtain ⟨C, c1, c2, c3⟩ := Mat.dotMat_eq hf hG.action
  obtain ⟨d1, d2⟩ := Mat.concatenate_eq hg c2
  refine ⟨PLF.create A (G.condition ++ C), A, ?_, a2, rfl, d2.keepRows, a3, ?_⟩
  · simp only [mul, a1, c1, d1, py_bind_ok, py_pure]
  · intro R _ _ x hx
    unfold Domain create
    simp only
    rw [Mat.keepRows_nonneg, Mat.image_append, c3 R x hx]
    simp only [List.mem_append]
    constructor
    · exact fun h => ⟨fun y hy => h y (.inl hy), fun y hy => h y (.inr hy)⟩
    · exact fun h y hy => hy.elim (h.1 y) (h.2 y)

/-- `F` is given by a square matrix which takes the integer vectors onto the integer vectors -/
structure Onto (F : PLF) (n : Nat) : Prop where
  types : F.Types n n
  onto : ∀ y : List Int, y.length = n → ∃ x : List Int, x.length = n ∧ F.action.image x = y

theorem keepRows_of_onto {A : Mat} {n : Nat} (h : A.HasShape n n) (ho : ∀ y : List Int, y.length = n → ∃ x : List Int, x.length = n ∧ A.image x = y) :
    A.keepRows = A := by
  apply Mat.keepRows_eq
  intro i _ hi
  by_contra hz
  push Not at hz
  obtain ⟨x, _, hx⟩ := ho ((List.range n).map (fun _ => 1)) (by simp)
  have := Mat.image_getD A x (i := i)
  rw [hx, Mat.dot_of_zero hz] at this
  rw [h.1] at hi
  simp [List.getD, hi] at this

theorem Onto.mul {F G : PLF} {n : Nat} (hF : F.Onto n) (hG : G.Onto n) : ∃ H, F.mul (some G) = .ok H ∧ H.Onto n ∧
    (∀ (R : Type) [CommRing R] (x : List R), x.length = n → H.action.image x = F.action.image (G.action.image x)) ∧
    ∀ (R : Type) [CommRing R] [LinearOrder R] (x : List R), x.length = n → (H.Domain x ↔ G.Domain x ∧ F.Domain (G.action.image x)) := by
  obtain ⟨H, A, h1, h2, h3, h4, h5, h6⟩ := mul_eq hF.types hG.types
  have ho : ∀ y : List Int, y.length = n → ∃ x : List Int, x.length = n ∧ A.image x = y := by
    intro y hy
    obtain ⟨z, hz, rfl⟩ := hF.onto y hy
    obtain ⟨x, hx, rfl⟩ := hG.onto z hz
    exact ⟨x, hx, h5 Int x hx⟩
  rw [keepRows_of_onto h2 ho] at h3
  refine ⟨H, h1, ⟨⟨h3 ▸ h2, h4⟩, by rw [h3]; exact ho⟩, by rw [h3]; exact h5, h6⟩

end PLF
end Curver
