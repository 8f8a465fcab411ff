import Verif.Model.Peripheral
import Verif.Spec.Flip

/-!
# Specification vocabulary for peripheral components
-/

namespace Curver.Lam
variable {R : Type} [CommRing R] [LinearOrder R] [Halvable R]

/-- `m` is the least of the left weights of the edges leaving the vertex `v`, or 0 if that is negative. -/
def Multiplicity (L : Lam R) (v : List Int) (m : R) : Prop :=
  (∃ e ∈ v, ∃ x, L.leftWeight e = .ok x ∧ m = max x 0) ∧ ∀ e ∈ v, ∀ x, L.leftWeight e = .ok x → m ≤ max x 0

/-- `L` consists of `m v` curves around each vertex `v`: an edge from `u` to `v` meets `m u + m v` of them. -/
def IsLinks (L : Lam R) (m : List Int → R) : Prop :=
  ∀ e u v, L.tri.IsLabel e → L.tri.vertexOf e = .ok u → L.tri.vertexOf (inv e) = .ok v → L.w e = m u + m v

end Curver.Lam
