import Verif.Spec.Filling
import Verif.Spec.LamClass

/-!
# Specification: crushing along multicurves
-/

namespace Curver
namespace Lam

/-- `X` is one of the essential components of `c`. -/
def EssentialPart (c X : Lam Int) : Prop := c.HasPart X ∧ ¬ X.Peripheral

/-- `E` lists the essential components of `c`, each of them once. -/
def ListsEssential (c : Lam Int) (E : List (Lam Int)) : Prop := (∀ X : Lam Int, c.EssentialPart X ↔ X.tri = c.tri ∧ ∃ Y ∈ E, Y.geometric = X.geometric) ∧ (E.map Lam.geometric).Nodup ∧ ∀ Y ∈ E, Y.tri = c.tri

/-- `L` does not cross the essential components of `c`. -/
def Avoids (L c : Lam Int) : Prop := L.Consistent ∧ L.tri = c.tri ∧ ∀ X, c.EssentialPart X → L.DisjointFrom X

end Lam
end Curver
