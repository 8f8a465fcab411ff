import Verif.Model.Simplify
import Verif.Spec.MappingEq

/-!
# Specification vocabulary for `simplify`
-/

namespace Curver
namespace Enc

/-- `c` is equal (as a mapping) to `h` followed by `g`. -/
def AgreesWith (c g h : Enc) : Prop := ∃ k : Enc, k.Legal ∧ k.IsComposite g h ∧ c.Agree k

/-- `c` is the encoding of an isometry from `S` to `T`. -/
def IsIsometryFrom (c : Enc) (S T : Triangulation) : Prop := ∃ (m : LMove) (f : Int → Int), m.Legal ∧ m.IsIsometryMove S T f ∧ m.encode = .ok c

end Enc
end Curver
