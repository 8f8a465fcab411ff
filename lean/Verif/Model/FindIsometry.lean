import Verif.Model.Moves

/-!
# Model of `Triangulation.find_isometry` and `Triangulation.isometries_to` (triangulation.py)
-/

namespace Curver
namespace Triangulation

/-- triangulation.py:431-432 `source_orders`, `target_orders`: the valence of the tail of each edge. -/
def orders (T : Triangulation) : Py (PyDict Int Nat) := do
  let vs ← T.vertices
  return PyDict.ofList (vs.flatMap (fun v => v.map (fun e => (e, v.length))))

/-- triangulation.py:445-454, the body of the loop over the neighbours; the state is `label_map` and the stack
`to_process`, whose top is the head of the list. -/
def visit (so ta : PyDict Int Nat) (st : PyDict Int Int × List (Int × Int)) (p : Int × Int) :
    Py (PyDict Int Int × List (Int × Int)) :=
  match st.1.get? p.1 with
  | some v => if p.2 ≠ v then .error .valueError else .ok st
  | none => do
    let x ← so.get p.1
    let y ← ta.get p.2
    if x ≠ y then .error .valueError
    else return (st.1.set p.1 p.2, p :: st.2)

/-- triangulation.py:437-454, the loop `while to_process`.  Each round removes a pair from the stack, and pairs are added
only when `label_map` grows, so the number of initial pairs plus the number of labels bounds the number of rounds. -/
def extendMap (S T : Triangulation) (so ta : PyDict Int Nat) : Nat → PyDict Int Int → List (Int × Int) → Py (PyDict Int Int)
  | _, d, [] => .ok d
  | 0, _, _ :: _ => .error .outOfFuel
  | fuel + 1, d, (a, b) :: stack => do
    let ca ← S.corner a
    let cb ← T.corner b
    let st ← visit so ta (d, stack) (inv a, inv b)
    let st ← visit so ta st (ca.y, cb.y)
    extendMap S T so ta fuel st.1 st.2

/-- triangulation.py:459-463: the map is the identity on the edges that are not used; the body of the loop. -/
def fillIdentity (S T : Triangulation) (used : List Int) (d : PyDict Int Int) (e : Int) : Py (PyDict Int Int) :=
  if e ∉ used then do
    let c ← S.corner e
    let c' ← T.corner e
    if c ≠ c' then .error .valueError
    else return d.set e e
  else return d

/-- triangulation.py:416-473 `find_isometry`.  The sets compared at lines 466 and 470 are compared by membership. -/
def findIsometry (S T : Triangulation) (labelMap : PyDict Int Int) : Py LMove := do
  let d := PyDict.ofList labelMap
  let so ← S.orders
  let ta ← T.orders
  let d ← S.extendMap T so ta (d.length + S.labels.length + 1) d d.reverse
  let used := d.keys ++ d.values
  let d ← S.labels.foldlM (S.fillIdentity T used) d
  if !(d.keys.all (· ∈ S.labels) && S.labels.all (· ∈ d.keys)) then .error .valueError
  else if d.values.length ≠ d.values.dedup.length then .error .valueError
  else if !(d.values.all (· ∈ T.labels) && T.labels.all (· ∈ d.values)) then .error .valueError
  else LMove.isometry S T d

/-- triangulation.py:489-492 the key of an edge: the valence of its tail and the number of edges from `~e` round to `e`
at its head (`len(cyclic_slice(...))`). -/
def edgeKey (T : Triangulation) (e : Int) : Py (Nat × Nat) := do
  let v ← T.vertexOf e
  let w ← T.vertexOf (inv e)
  let l ← cyclicSlice w (inv e) (some e)
  return (v.length, l.length)

/-- Order of pairs, used by `max` (triangulation.py:493). -/
def keyLt (a b : Nat × Nat) : Bool := a.1 < b.1 || (a.1 == b.1 && a.2 < b.2)

/-- triangulation.py:493 `max(component, key=k(self))`: the first edge whose key is maximal. -/
def maxByKey (T : Triangulation) : List Int → Py Int
  | [] => .error .valueError
  | e :: es => do
    let k ← T.edgeKey e
    let (best, _) ← es.foldlM (fun (b : Int × (Nat × Nat)) e' => do
      let k' ← T.edgeKey e'
      return if keyLt b.2 k' then (e', k') else b) (e, k)
    return best

/-- `itertools.product(*lists)`: the rightmost list changes fastest. -/
def pyProduct {α : Type} : List (List α) → List (List α)
  | [] => [[]]
  | l :: ls => l.flatMap (fun x => (pyProduct ls).map (x :: ·))

/-- triangulation.py:498-501: the isometry, or nothing when `ValueError` is raised. -/
def tryFindIsometry (S T : Triangulation) (labelMap : PyDict Int Int) : Py (Option LMove) :=
  match S.findIsometry T labelMap with
  | .ok m => .ok (some m)
  | .error .valueError => .ok none
  | .error err => .error err

/-- The triples `(g, p, chi)` of `self.surface().values()` are compared as tuples when sorted (triangulation.py:483). -/
def surfaceLe (a b : Int × Int × Int) : Prop := a.1 < b.1 ∨ (a.1 = b.1 ∧ (a.2.1 < b.2.1 ∨ (a.2.1 = b.2.1 ∧ a.2.2 ≤ b.2.2)))

instance (a b : Int × Int × Int) : Decidable (surfaceLe a b) := by unfold surfaceLe; infer_instance

/-- triangulation.py:475-501 `isometries_to`: the list of the isometries that are yielded. -/
def isometriesTo (S T : Triangulation) : Py (List LMove) := do
  if S.zeta ≠ T.zeta then return []
  let s ← S.surface
  let t ← T.surface
  if (s.map Prod.snd).insertionSort surfaceLe ≠ (t.map Prod.snd).insertionSort surfaceLe then return []
  let cs ← S.components
  let sources ← cs.mapM S.maxByKey
  let values ← sources.mapM S.edgeKey
  let targets ← values.mapM (fun value => do
    let keys ← T.labels.mapM (fun e => do
      let k ← T.edgeKey e
      return (e, k))
    return (keys.filter (fun p => p.2 == value)).map Prod.fst)
  let found ← (pyProduct targets).mapM (fun chosen => S.tryFindIsometry T (sources.zip chosen))
  return found.filterMap id

/-- triangulation.py:503-506 `self_isometries`. -/
def selfIsometries (T : Triangulation) : Py (List LMove) := T.isometriesTo T

/-- triangulation.py:508-513 `is_isometric_to`: whether `isometries_to` yields anything. -/
def isIsometricTo (S T : Triangulation) : Py Bool := do
  let l ← S.isometriesTo T
  return !l.isEmpty

end Triangulation
end Curver
