import Verif.Py

/-!
# Specification: a call returns
-/

namespace Curver

/-- The model of a method with loops or recursion takes a number that bounds them, and raises `outOfFuel` when this is used up.  `Returns f r` says that the Python method, which has no bound,
stops and returns `r`: the number of steps is finite, and every bound that is large enough gives `r`. -/
def Returns {α : Type} (f : Nat → Py α) (r : α) : Prop := ∃ N, ∀ n, N ≤ n → f n = .ok r

/-- There is only one result. -/
theorem Returns.unique {α : Type} {f : Nat → Py α} {r r' : α} (h : Returns f r) (h' : Returns f r') : r = r' := by
  obtain ⟨N, h⟩ := h
  obtain ⟨N', h'⟩ := h'
  have := (h (max N N') (by omega)).symm.trans (h' (max N N') (by omega))
  injection this

end Curver
