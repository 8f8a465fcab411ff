import Verif.Spec.Triangulation
import Mathlib.Logic.Relation

/-!
# Specification vocabulary for the dual graph of a triangulation
-/

namespace Curver
namespace Triangulation

/-- One can walk from the triangle `s` to the triangle `t` crossing only edges whose index satisfies `S`. -/
def DualConnected (T : Triangulation) (S : Int → Prop) : Tri → Tri → Prop :=
  Relation.EqvGen (fun s t => s ∈ T.triangles ∧ t ∈ T.triangles ∧ ∃ i, 0 ≤ i ∧ S i ∧ i ∈ s.labels ∧ inv i ∈ t.labels)

end Triangulation
end Curver
