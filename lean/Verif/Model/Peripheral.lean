import Verif.Model.LamArith

/-!
# Model of the peripheral part of a lamination (curver/kernel/lamination.py, curver/kernel/triangulation.py)
-/

namespace Curver
namespace Triangulation
variable {R : Type} [CommRing R]

/-- triangulation.py:529-533 `cut_sequence_intersections`: how often the sequence crosses each edge. -/
def cutSequenceIntersections (T : Triangulation) (sequence : List Int) : List R :=
  (List.range T.zeta).map (fun (i : Nat) => ((sequence.count (i : Int) + sequence.count (inv (i : Int)) : Nat) : R))

/-- triangulation.py:540-545 `curve_from_cut_sequence`. -/
def curveFromCutSequence (T : Triangulation) (sequence : List Int) : Lam R := ⟨T, T.cutSequenceIntersections sequence, .curve⟩

end Triangulation

namespace Lam
variable {R : Type} [CommRing R] [LinearOrder R] [Halvable R] [IntTest R]

/-- `components[component] = value` for a dictionary whose keys are laminations, compared by `__eq__` (lamination.py:50-52). -/
def setComponent {α : Type} : List (Lam R × α) → Lam R → α → List (Lam R × α)
  | [], L, v => [(L, v)]
  | (K, u) :: d, L, v => if K.eqv L then (K, v) :: d else (K, u) :: setComponent d L v

/-- lamination.py:248: the multiplicity of the curve around a vertex.  The generator is evaluated completely, which only matters
when the weights are inconsistent. -/
def vertexMultiplicity (L : Lam R) (vertex : List Int) : Py R := do
  let lefts ← vertex.mapM L.leftWeight
  maximin [[0], lefts]

/-- lamination.py:246-251: the loop of `peripheral_components`. -/
def peripheralFrom (L : Lam R) : List (List Int) → List (Lam R × (R × List Int)) → Py (List (Lam R × (R × List Int)))
  | [], components => .ok components
  | vertex :: vs, components => do
    let multiplicity ← L.vertexMultiplicity vertex
    if 0 < multiplicity then
      peripheralFrom L vs (setComponent components (L.tri.curveFromCutSequence vertex) (multiplicity, vertex))
    else peripheralFrom L vs components

/-- lamination.py:242-253 `peripheral_components`.  The vertices are a set in Python: their order is unspecified. -/
def peripheralComponents (L : Lam R) : Py (List (Lam R × (R × List Int))) := do
  let vs ← L.tri.vertices
  L.peripheralFrom vs []

/-- lamination.py:170-173 `peripheral`. -/
def peripheral (P : Lam R → Py LamClass) (L : Lam R) : Py (Lam R) := do
  let components ← L.peripheralComponents
  L.tri.disjointSumDict P (components.map (fun p => (p.1, p.2.1)))

/-- lamination.py:164-168 `is_peripheral`. -/
def isPeripheral (P : Lam R → Py LamClass) (L : Lam R) : Py Bool := do
  let p ← L.peripheral P
  return p.eqv L

/-- lamination.py:175-179 `is_non_peripheral`. -/
def isNonPeripheral (P : Lam R → Py LamClass) (L : Lam R) : Py Bool := do
  let p ← L.peripheral P
  return p.isEmpty

/-- lamination.py:181-186 `non_peripheral`. -/
def nonPeripheral (P : Lam R → Py LamClass) (L : Lam R) (promote : Bool := true) : Py (Lam R) := do
  let p ← L.peripheral P
  L.tri.lamination P (List.zipWith (· - ·) L.geometric p.geometric) promote

end Lam
end Curver
