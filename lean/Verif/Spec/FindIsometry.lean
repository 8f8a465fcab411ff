import Verif.Spec.Isometry
import Verif.Spec.Components

/-!
# Specification vocabulary for `find_isometry`
-/

namespace Curver
namespace Triangulation

/-- `f` is an isometry from `S` to `T` that extends the map `d` and is the identity on the components of `S` that `d`
does not meet. -/
structure ExtendsTo (S T : Triangulation) (d : PyDict Int Int) (f : Int → Int) : Prop where
  isometry : S.IsIsometry T f
  extends_map : ∀ e v, (e, v) ∈ d → f e = v
  identity : ∀ e, S.IsLabel e → (∀ k ∈ d.keys, ¬ S.Joined k e) → f e = e

end Triangulation
end Curver
