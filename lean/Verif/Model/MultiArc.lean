import Verif.Model.LamParts
import Verif.Model.HalfTwist
import Verif.Model.MappingEq

/-!
# Model of curver/kernel/arc.py: multiarcs, and of the boundary of laminations (curver/kernel/lamination.py)
-/

namespace Curver
namespace Triangulation

/-- arc.py:61 (and 69): `sum(1 for edge in triangle if edge in used)`. -/
def usedSides (used : List Int) (t : Tri) : Nat := (t.labels.filter (fun e => decide (e ∈ used))).length

/-- arc.py:62-71: the loop that adds the third side of the triangles that have two sides in `used`.  `toCheck` is the Python list with its last entry first.  `outOfFuel` when the loop has not
stopped after `fuel` rounds. -/
def closeUsed (T : Triangulation) : Nat → List Tri → List Int → Py (List Int)
  | _, [], used => .ok used
  | 0, _ :: _, _ => .error .outOfFuel
  | fuel + 1, t :: toCheck, used =>
    match t.labels.find? (fun e => decide (e ∉ used)) with
    | none => T.closeUsed fuel toCheck used
    | some edge => do
      let used := inv edge :: edge :: used
      let neighbour ← T.triangle (inv edge)
      if usedSides used neighbour = 2 then T.closeUsed fuel (neighbour :: toCheck) used
      else T.closeUsed fuel toCheck used

/-- arc.py:57-71: `used`, given the edges that the short multiarc runs along.  The loop gets one round for each triangle and each oriented edge; C80 shows that it never needs more. -/
def neighbourhood (T : Triangulation) (used : List Int) : Py (List Int) :=
  T.closeUsed (T.triangles.length + 2 * T.zeta) (T.triangles.filter (fun t => decide (usedSides used t = 2))).reverse used

/-- arc.py:79-86: the inner loop: walk around the outside of the used edges until an edge that was passed before.  `passed` lists the oriented edges that were passed, `geometric` counts them.
`outOfFuel` when it has not stopped after `fuel` steps. -/
def walk (T : Triangulation) (used : List Int) : Nat → List Int × List Int → Int → Py (List Int × List Int)
  | fuel, (geometric, passed), edge =>
    if edge ∈ passed then .ok (geometric, passed)
    else match fuel with
      | 0 => .error .outOfFuel
      | fuel + 1 => do
        let x ← pyGet geometric (norm edge).toNat
        let geometric := geometric.set (norm edge).toNat (x + 1)
        let c ← T.corner edge
        T.walk used fuel (geometric, edge :: passed) (if inv c.z ∉ used then inv c.z else inv c.y)

/-- arc.py:73-86: the weights of the curves around the used edges.  The inner loop gets one step for each oriented edge; C80 shows that it never needs more. -/
def boundaryWeights (T : Triangulation) (used : List Int) : Py (List Int) := do
  let (geometric, _) ← T.labels.foldlM (fun (st : List Int × List Int) edge => do
    let c ← T.corner edge
    if edge ∉ st.2 ∧ edge ∉ used ∧ c.z ∈ used then T.walk used (2 * T.zeta) st edge
    else return st) (List.replicate T.zeta 0, [])
  return geometric

end Triangulation

namespace Lam

/-- The edges of a list on which the weight is negative (arc.py:57 for the oriented edges, lamination.py:417 for the indices). -/
def negativeOn (L : Lam Int) (l : List Int) : Py (List Int) := do
  let ws ← l.mapM (fun e => L.wt e)
  return ((l.zip ws).filter (fun p => decide (p.2 < 0))).map Prod.fst

section
variable (P : Lam Int → Py LamClass) (dflt : Int → Int → Bool) (fuel : Nat)

/-- arc.py:91-96 `is_triangulation`. -/
def isTriangulation (L : Lam Int) : Py Bool := do
  let (short, _) ← L.shortenAll P dflt fuel dflt
  return short.geometric.all (fun weight => decide (weight = -1))

/-- lamination.py:408-420 `is_polygonalisation`; the comparison of sets is spelt out. -/
def isPolygonalisation (L : Lam Int) : Py Bool := do
  let components ← L.componentsAll P dflt fuel
  if components.any (fun p => p.1.cls == .curve) then return false
  else do
    let (short, _) ← L.shortenAll P dflt fuel dflt
    let avoid ← short.negativeOn short.tri.indices
    let tree ← short.tri.dualTree avoid
    return (tree ++ avoid).all (fun i => decide (i ∈ short.tri.indices)) && short.tri.indices.all (fun i => decide (i ∈ tree ∨ i ∈ avoid))

/-- arc.py:50-89 `MultiArc.boundary`. -/
def arcBoundary (L : Lam Int) : Py (Lam Int) := do
  let (short, conjugator) ← L.shortenAll P dflt fuel dflt
  let used ← short.negativeOn short.tri.labels
  let used ← short.tri.neighbourhood used
  let geometric ← short.tri.boundaryWeights used
  let boundary ← short.tri.lamination P geometric
  let i ← conjugator.inverse
  i.applyLam boundary

/-- `boundary` according to the class: arc.py:50-89, curve.py:15-16 and, for other integral laminations, lamination.py:379-385, where `parts` stands for the calls to `boundary()` of `multiarc()` and
`multicurve()`. -/
def boundaryWith (parts : Lam Int → Py (Lam Int)) (L : Lam Int) : Py (Lam Int) :=
  if L.cls.isMultiArc then L.arcBoundary P dflt fuel
  else if L.cls.isMultiCurve then L.mul P 2
  else if L.isEmpty then .ok L
  else do
    let a ← L.multiarc P dflt fuel
    let a ← parts a
    let c ← L.multicurve P dflt fuel
    let c ← parts c
    L.tri.disjointSumList P [a, c]

/-- `boundary`: the classes of `multiarc()` and `multicurve()` are never those for which `boundary` has to separate arcs from curves again, so the recursion stops. -/
def boundary (L : Lam Int) : Py (Lam Int) :=
  L.boundaryWith P dflt fuel (boundaryWith P dflt fuel (fun _ => .error .outOfFuel))

/-- lamination.py:401-405: whether the lamination avoids a component of the surface (other than a sphere with three punctures): all its weights there are zero. -/
def missesComponent (L : Lam Int) (vs : List (List Int)) (component : List Int) : Py Bool :=
  if (vs.filter (fun vertex => vertex.head?.any (· ∈ component))).length = 3 ∧ component.length / 2 = 3 then .ok false
  else pyAllM (fun edge => do
    let x ← L.wt edge
    return x == 0) component

/-- lamination.py:387-406 `is_filling`, and curve.py:17-18 for multicurves. -/
def isFilling (L : Lam Int) : Py Bool :=
  if L.cls.isMultiCurve then .ok false
  else do
    let components ← L.componentsAll P dflt fuel
    let curves ← pyAnyM (fun p => if p.1.cls == .curve then do
      let b ← p.1.isPeripheral P
      return !b
      else .ok false) components
    if curves then return false
    else do
      let cs ← L.tri.components
      let vs ← L.tri.vertices
      let missed ← pyAnyM (L.missesComponent vs) cs
      if missed then return false
      else do
        let b ← L.boundary P dflt fuel
        b.isPeripheral P

end
end Lam
end Curver
