import Verif.Model.MultiArc
import Verif.Model.LamParts

/-!
# Model of curver/kernel/arc.py: end points and half twists of multiarcs
-/

namespace Curver
namespace Lam
variable (P : Lam Int → Py LamClass) (dflt : Int → Int → Bool) (fuel : Nat)

/-- arc.py:21-25 `MultiArc.has_distinct_endpoints`. -/
def hasDistinctEndpoints (L : Lam Int) : Py Bool := do
  let vs ← L.arcVertices
  let n ← L.numComponents P dflt fuel
  return decide ((vs.length : Int) = 2 * n)

/-- twist.py:241 and twist.py:243: `arc.boundary().encode_twist(power)`, which the constructor of half twists calls for the larger powers. -/
def boundaryTwist (arc : Lam Int) (power : Int) : Py Enc := do
  let b ← arc.boundary P dflt fuel
  b.encodeTwist P dflt fuel power

/-- arc.py:27-48 `MultiArc.encode_halftwist`.  In Python each factor is the encoding of a single move, `HalfTwist`; here it is the mapping that the move performs (twist.py:256-260). -/
def encodeHalftwist (L : Lam Int) (power : Int) : Py Enc := do
  let distinct ← L.hasDistinctEndpoints P dflt fuel
  if distinct = false then .error .valueError
  else if power = 0 then L.tri.idEncoding
  else do
    let (short, conjugator) ← L.shortenAll P dflt fuel dflt
    let components ← short.componentsAll P dflt fuel
    let hs ← components.mapM (fun p => do
      let t ← HalfTwist.create (boundaryTwist P dflt fuel) p.1 power
      return t.encodingPower)
    let start ← short.tri.idEncoding
    let h ← encProduct start hs
    h.conjugateBy conjugator

end Lam
end Curver
