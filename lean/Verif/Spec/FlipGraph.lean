import Verif.Spec.MultiArc

/-!
# Specification: the flip graph

Its vertices are the triangulations of the surface, seen as multiarcs, and two of them are joined when one arc of the first can be replaced by another one to get the second.
-/

namespace Curver
namespace Lam

/-- `Y` and `Z` are triangulations, and exchanging one arc of `Y` for another one gives `Z`. -/
def FlipOf (Y Z : Lam Int) : Prop :=
  (Y.Consistent ∧ Y.IsTriangulation) ∧ (Z.Consistent ∧ Z.IsTriangulation) ∧
  ∃ X X' C : Lam Int, X.Connected ∧ X'.Connected ∧ X.eqv X' = false ∧ Y.IsUnion X C ∧ Z.IsUnion X' C

/-- From `Y` one gets to `Z` by at most `n` such exchanges. -/
inductive WithinFlips : Nat → Lam Int → Lam Int → Prop
  | here {n Y Z} : Y.eqv Z = true → WithinFlips n Y Z
  | step {n Y Z W} : Y.FlipOf Z → WithinFlips n Z W → WithinFlips (n + 1) Y W

end Lam
end Curver
