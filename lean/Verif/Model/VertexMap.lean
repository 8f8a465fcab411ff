import Verif.Model.Encoding
import Verif.Model.Peripheral
import Verif.Model.Permutation

/-!
# Model of the action on vertices (curver/kernel/encoding.py)
-/

namespace Curver

/-- `d[L]` for a dictionary whose keys are laminations, compared by `__eq__` (lamination.py:50-52). -/
def Lam.getComponent {R α : Type} [CommRing R] [LinearOrder R] [Halvable R] [IntTest R] : List (Lam R × α) → Lam R → Py α
  | [], _ => .error .keyError
  | (K, u) :: d, L => if K.eqv L then .ok u else getComponent d L

namespace Enc

/-- encoding.py:186-195 `vertex_map`. -/
def vertexMap (h : Enc) : Py (PyDict (List Int) (List Int)) := do
  let vs ← h.source.vertices
  let ws ← h.target.vertices
  let inverse := ws.foldl (fun d w => Lam.setComponent d (h.target.curveFromCutSequence w : Lam Int) w) []
  vs.mapM (fun v => do
    let L ← h.applyLam (h.source.curveFromCutSequence v : Lam Int)
    let w ← Lam.getComponent inverse L
    return (v, w))

/-- Comparison of tuples of edges (triangulation.py:47-53 `Edge.__lt__`, Python's order on tuples). -/
def tupleLe (v w : List Int) : Prop := v ≤ w

instance : DecidableRel tupleLe := fun v w => inferInstanceAs (Decidable (v ≤ w))

/-- encoding.py:313-317 `vertex_permutation`. -/
def vertexPermutation (h : Enc) : Py Permutation := do
  let vm ← h.vertexMap
  Permutation.fromDict vm (some (vm.keys.insertionSort tupleLe))

end Enc
end Curver
