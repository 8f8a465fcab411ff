import Verif.Spec.Triangulation
import Mathlib.Logic.Relation

/-!
# Specification vocabulary for the components of a triangulation
-/

namespace Curver
namespace Triangulation

/-- One can step from the oriented edge `e` to `f` by reversing it or by turning inside the triangle to its left. -/
def Adjacent (T : Triangulation) (e f : Int) : Prop := f = inv e ∨ ∃ c, T.Glues e f c

/-- One can walk from `e` to `f`. -/
def Joined (T : Triangulation) : Int → Int → Prop := Relation.ReflTransGen T.Adjacent

end Triangulation
end Curver
