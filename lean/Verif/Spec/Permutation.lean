import Verif.Model.Permutation
import Mathlib.Logic.Equiv.Defs
import Mathlib.GroupTheory.Perm.Basic

/-!
# Specification for permutations

A `Permutation` object *represents* a mathematical permutation `σ` of `{0, …, n-1}` when its list is
`σ(0), …, σ(n-1)`.
-/

namespace Curver

/-- the list held by `p` is `σ 0, σ 1, …, σ (n-1)` -/
def Permutation.Represents (p : Permutation) {n : Nat} (σ : Equiv.Perm (Fin n)) : Prop :=
  p.perm = List.ofFn (fun i => (σ i : Nat))

end Curver
