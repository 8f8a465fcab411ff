import Verif.Model.AllEncodings
import Verif.Model.MultiArc

/-!
# Model of `MultiArc.explore_ball`
-/

namespace Curver
namespace Lam

/-- `s.add(L)` for a set of laminations, which are compared by `__eq__` (lamination.py:50-52). -/
def addTo (s : List (Lam Int)) (L : Lam Int) : List (Lam Int) := if s.any (fun K => K.eqv L) then s else s ++ [L]

/-- arc.py:98-113 `explore_ball`. -/
def exploreBall (P : Lam Int → Py LamClass) (dflt : Int → Int → Bool) (fuel : Nat) (L : Lam Int) (radius : Nat) : Py (List (Lam Int)) := do
  let f ← L.isFilling P dflt fuel
  if f then do
    let (short, conjugator) ← L.shortenAll P dflt fuel dflt
    let encodings ← short.tri.allEncodings radius
    encodings.foldlM (fun triangulations encoding => do
      let T := encoding.target.asLamination
      let ci ← conjugator.inverse
      let ei ← encoding.inverse
      let A ← ei.applyLam T
      let B ← ci.applyLam A
      return addTo triangulations B) []
  else .error .assertionError

end Lam
end Curver
