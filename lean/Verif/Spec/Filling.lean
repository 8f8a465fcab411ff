import Verif.Spec.MultiArc
import Verif.Spec.Peripheral
import Verif.Spec.Components

/-!
# Specification: filling laminations
-/

namespace Curver
namespace Lam

/-- `L` consists of curves around vertices. -/
def Peripheral (L : Lam Int) : Prop := ∃ m : List Int → Int, (∀ v, 0 ≤ m v) ∧ L.IsLinks m

/-- `L` meets every essential closed curve: those that can be drawn without crossing `L` only go round vertices. -/
def Fills (L : Lam Int) : Prop := ∀ M : Lam Int, M.NoArcs → M.DisjointFrom L → M.Peripheral

end Lam

namespace Triangulation

/-- One can walk from every edge to every other edge, and there is one. -/
def ConnectedSurface (T : Triangulation) : Prop := T.triangles ≠ [] ∧ ∀ e f, T.IsLabel e → T.IsLabel f → T.Joined e f

/-- The sphere with three punctures (a connected surface is one when it has three vertices and three edges). -/
def ThreePunctures (T : Triangulation) : Prop := T.ConnectedSurface ∧ T.zeta = 3 ∧ ∃ vs, T.vertices = .ok vs ∧ vs.length = 3

end Triangulation
end Curver
