import Verif.Model.Peripheral

/-!
# Model of `MultiCurve.vertex_cycles`
-/

namespace Curver

/-- triangulation.py:535-538 `lamination_from_cut_sequence`. -/
def Triangulation.laminationFromCutSequence (P : Lam Int → Py LamClass) (T : Triangulation) (sequence : List Int) : Py (Lam Int) := T.lamination P (T.cutSequenceIntersections sequence)

namespace Lam

/-- curve.py:45-49 `connected_to`, with the tests evaluated at once. -/
def connectedTo (L : Lam Int) (edge : Int) : Py (List Int) := do
  let corner ← L.tri.corner edge
  let l ← L.leftWeight edge
  let r ← L.rightWeight edge
  return (if l ≠ 0 then [inv corner.z] else []) ++ (if r ≠ 0 then [inv corner.y] else [])

/-- curve.py:52: the edges of the directed graph. -/
def cycleGraph (L : Lam Int) : Py (List (Int × Int)) := do
  let edges ← L.tri.labels.mapM (fun edge => do
    let es ← L.connectedTo edge
    return es.map (fun edgy => (edge, edgy)))
  return edges.flatten

/-- curve.py:39-58 `vertex_cycles`.  `cycles` stands for `networkx.simple_cycles`; the list is that of all the curves that the generator yields. -/
def vertexCycles (cycles : List (Int × Int) → List (List Int)) (P : Lam Int → Py LamClass) (L : Lam Int) : Py (List (Lam Int)) := do
  let edges ← L.cycleGraph
  let curves ← (cycles edges).mapM (fun cycle => L.tri.laminationFromCutSequence P cycle)
  return curves.filter (fun K => K.cls == .curve)

/-- curve.py:60-63 `next(iter(…))`: the generator stops at the first curve.  -/
def firstCurve (P : Lam Int → Py LamClass) (T : Triangulation) : List (List Int) → Py (Lam Int)
  | [] => .error .stopIteration
  | cycle :: cycles => do
    let K ← T.laminationFromCutSequence P cycle
    if K.cls == .curve then return K else firstCurve P T cycles

/-- curve.py:60-63 `vertex_cycle`. -/
def vertexCycle (cycles : List (Int × Int) → List (List Int)) (P : Lam Int → Py LamClass) (L : Lam Int) : Py (Lam Int) := do
  let edges ← L.cycleGraph
  firstCurve P L.tri (cycles edges)

end Lam
end Curver
