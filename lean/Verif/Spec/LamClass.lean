import Verif.Spec.LamComponents

/-!
# Specification: the class of a lamination
-/

namespace Curver
namespace Lam

/-- `X` is one of the connected laminations that `L` consists of. -/
def HasPart (L X : Lam Int) : Prop := X.Connected ∧ ∃ N, L.IsUnion X N

/-- What the classes of integral laminations say about them: curves are closed and arcs are not; the empty lamination and those with components of both types are just `IntegralLamination`s. -/
def Describes (L : Lam Int) : LamClass → Prop
  | .curve => L.Connected ∧ L.NoArcs
  | .arc => L.Connected ∧ ¬ L.NoArcs
  | .multicurve => ¬ L.Blank ∧ ¬ L.Connected ∧ ∀ X, L.HasPart X → X.NoArcs
  | .multiarc => ¬ L.Blank ∧ ¬ L.Connected ∧ ∀ X, L.HasPart X → ¬ X.NoArcs
  | .integral => L.Blank ∨ (∃ X, L.HasPart X ∧ X.NoArcs) ∧ ∃ X, L.HasPart X ∧ ¬ X.NoArcs
  | .lamination => False

end Lam
end Curver
