import Verif.Model.MultiCrush
import Verif.Model.MultiArc

/-!
# Model of `MultiCurve.boundary_union` and `MultiCurve.fills_with`
-/

namespace Curver
namespace Lam

/-- curve.py:83 and 93 `assert isinstance(other, IntegralLamination)`: every class but `Lamination`. -/
def assertIntegral (other : Lam Int) : Py Unit := pyAssert (other.cls != .lamination)

/-- `crush` according to the class: curve.py:192-236 and 65-79; other laminations have no such method. -/
def crushOf (P : Lam Int → Py LamClass) (dflt : Int → Int → Bool) (fuel : Nat) (c : Lam Int) : Py CrushEnc :=
  match c.cls with
  | .curve => c.crush P dflt fuel
  | .multicurve => c.crushAll P dflt fuel
  | _ => .error .attributeError

/-- curve.py:81-89 `boundary_union`. -/
def boundaryUnion (P : Lam Int → Py LamClass) (dflt : Int → Int → Bool) (fuel : Nat) (c other : Lam Int) : Py (Lam Int) := do
  assertIntegral other
  let crush ← c.crushOf P dflt fuel
  let lift ← crush.inverse
  let other' ← crush.applyLam P other
  let m' ← other'.boundary P dflt fuel
  lift.applyLam P m'

/-- curve.py:91-99 `fills_with`. -/
def fillsWith (P : Lam Int → Py LamClass) (dflt : Int → Int → Bool) (fuel : Nat) (c other : Lam Int) : Py Bool := do
  assertIntegral other
  let components ← c.componentsAll P dflt fuel
  let misses ← pyAnyM (fun p => do
    let x ← p.1.intersectionAll P dflt fuel other
    return x == 0) components
  if misses then return false
  else do
    let crush ← c.crushOf P dflt fuel
    let other' ← crush.applyLam P other
    other'.isFilling P dflt fuel

end Lam
end Curver
