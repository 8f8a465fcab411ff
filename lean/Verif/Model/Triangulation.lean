import Verif.Model.Utilities
import Verif.Model.Permutation
import Verif.Model.UnionFind
import Mathlib.Data.List.Sort

/-!
# Model of curver/kernel/triangulation.py: edges, triangles, triangulations

`Edge` objects are compared, ordered and hashed by their label (triangulation.py:41-56), and dictionaries keyed by
edges are also accessed by labels; the model identifies an edge with its label, an integer.
-/

namespace Curver

/-- triangulation.py:58-61 `Edge.__invert__`: Python's `~x`. -/
def inv (x : Int) : Int := -1 - x

/-- triangulation.py:11-16 `norm`, which is also `Edge.index` (line 33). -/
def norm (x : Int) : Int := max x (inv x)

/-- triangulation.py:63-66 `Edge.sign`. -/
def sign (x : Int) : Int := if x = norm x then 1 else -1

/-- triangulation.py:68-71 `Edge.set_sign`. -/
def setSign (x s : Int) : Int := if sign x = s then x else inv x

/-- triangulation.py:73-95 `Triangle`: the three edges in order (`labels` and `indices` are computed from them).
With `rotate=None` the constructor is `Tri.create`; with `rotate` given it is a rotation of the edges. -/
structure Tri where
  x : Int
  y : Int
  z : Int
  deriving DecidableEq, Repr

namespace Tri

/-- `edges[1:] + edges[:1]` (triangulation.py:92). -/
def rot (t : Tri) : Tri := ⟨t.y, t.z, t.x⟩

/-- triangulation.py:87-92 with `rotate=None`: `min(range(3), key=...)` is the first position of the least label. -/
def create (a b c : Int) : Tri :=
  if a ≤ b ∧ a ≤ c then ⟨a, b, c⟩ else if b ≤ c then ⟨b, c, a⟩ else ⟨c, a, b⟩

/-- triangulation.py:93 `self.labels`. -/
def labels (t : Tri) : List Int := [t.x, t.y, t.z]

/-- The order of `t.labels` (lists are compared lexicographically), the key of the sort at triangulation.py:133. -/
def le (s t : Tri) : Prop := s.x < t.x ∨ (s.x = t.x ∧ (s.y < t.y ∨ (s.y = t.y ∧ s.z ≤ t.z)))

instance (s t : Tri) : Decidable (s.le t) := by unfold le; infer_instance

end Tri

/-- triangulation.py:126-168 `Triangulation`: the sorted list of triangles; the other attributes are computed from it
by the functions below.  The constructor is `Triangulation.create`. -/
structure Triangulation where
  triangles : List Tri
  deriving DecidableEq, Repr

namespace Triangulation

/-- triangulation.py:135 `self.zeta = self.num_triangles * 3 // 2`. -/
def zeta (T : Triangulation) : Nat := T.triangles.length * 3 / 2

/-- triangulation.py:136 `self.indices` (as labels), also line 139 `self.positive_edges`. -/
def indices (T : Triangulation) : List Int := (List.range T.zeta).map Int.ofNat

/-- triangulation.py:137-138 `self.labels`, `self.edges`: `range(-zeta, zeta)`. -/
def labels (T : Triangulation) : List Int := (List.range (2 * T.zeta)).map (fun (i : Nat) => (i : Int) - T.zeta)

/-- triangulation.py:168 `self.signature`. -/
def signature (T : Triangulation) : List Int := T.triangles.flatMap Tri.labels

/-- triangulation.py:141 `self.triangle_lookup`. -/
def triangleLookup (T : Triangulation) : PyDict Int Tri :=
  PyDict.ofList (T.triangles.flatMap (fun t => [(t.x, t), (t.y, t), (t.z, t)]))

/-- The corners `Triangle(triangle.edges, rotate=index)` in the order of triangulation.py:142. -/
def corners (T : Triangulation) : List Tri := T.triangles.flatMap (fun t => [t, t.rot, t.rot.rot])

/-- triangulation.py:142 `self.corner_lookup`. -/
def cornerLookup (T : Triangulation) : PyDict Int Tri := PyDict.ofList (T.corners.map (fun c => (c.x, c)))

/-- `self.corner_lookup[edge]`, `KeyError` when absent. -/
def corner (T : Triangulation) (e : Int) : Py Tri := T.cornerLookup.get e

/-- `self.triangle_lookup[edge]`, `KeyError` when absent. -/
def triangle (T : Triangulation) (e : Int) : Py Tri := T.triangleLookup.get e

/-- triangulation.py:151-157, the inner loop building a vertex: the edges appended after `e` and the remaining
`unused`.  Each round removes an element of `unused`, so `unused.length + 1` rounds suffice. -/
def rotateFrom (T : Triangulation) : Nat → List Int → Int → Py (List Int × List Int)
  | 0, _, _ => .error .outOfFuel
  | fuel + 1, unused, e => do
    let c ← T.corner e
    let neighbour := inv c.z
    if neighbour ∈ unused then
      let (vs, rest) ← rotateFrom T fuel (unused.erase neighbour) neighbour
      return (neighbour :: vs, rest)
    else return ([], unused)

/-- triangulation.py:148-159, the outer loop.  `unused` is kept in increasing order, so its head is `min(unused)`. -/
def verticesFrom (T : Triangulation) : Nat → List Int → Py (List (List Int))
  | _, [] => .ok []
  | 0, _ :: _ => .error .outOfFuel
  | fuel + 1, e :: unused => do
    let (vs, rest) ← T.rotateFrom (unused.length + 1) unused e
    let others ← verticesFrom T fuel rest
    return (e :: vs) :: others

/-- triangulation.py:144-159 `self.vertices`.  In Python this is a set of tuples, so its order of iteration is
unspecified; the model lists it in the order of construction. -/
def vertices (T : Triangulation) : Py (List (List Int)) := T.verticesFrom T.labels.length T.labels

/-- triangulation.py:161 `self.vertex_lookup[edge]`. -/
def vertexOf (T : Triangulation) (e : Int) : Py (List Int) := do
  let vs ← T.vertices
  (PyDict.ofList (vs.flatMap (fun v => v.map (fun e => (e, v))))).get e

/-- triangulation.py:130-168 `Triangulation(triangles)`: sort the triangles, then compute the vertices (which fails
with `KeyError` when an edge is missing). -/
def create (triangles : List Tri) : Py Triangulation := do
  let T : Triangulation := ⟨triangles.insertionSort Tri.le⟩
  let _ ← T.vertices
  return T

/-- triangulation.py:163 `self.num_vertices`. -/
def numVertices (T : Triangulation) : Py Nat := do
  let vs ← T.vertices
  return vs.length

/-- triangulation.py:165 `self.euler_characteristic = -self.zeta // 3` (floor division of `-zeta`). -/
def eulerCharacteristic (T : Triangulation) : Int := Int.fdiv (-(T.zeta : Int)) 3

/-- `Triangle([Edge(label) for label in labels])` for a list of three labels (triangulation.py:207, 83-85). -/
def triOfLabels : List Int → Py Tri
  | [a, b, c] => .ok (Tri.create a b c)
  | _ => .error .assertionError

/-- triangulation.py:199-205, the loop of `from_tuple` looking for missing labels. -/
def checkLabels (flattened : List Int) : List Nat → Py Unit
  | [] => .ok ()
  | i :: is =>
    if (i : Int) ∉ flattened then .error .typeError
    else if inv i ∉ flattened then .error .typeError
    else checkLabels flattened is

/-- triangulation.py:170-207 `from_tuple`, given the list of lists of labels. -/
def fromTuple (ls : List (List Int)) : Py Triangulation := do
  pyAssert (ls.all (fun l => l.length == 3))
  pyAssert (!ls.isEmpty)
  let zeta := ls.length * 3 / 2
  let flattened := ls.flatten
  checkLabels flattened (List.range zeta)
  let ts ← ls.mapM triOfLabels
  create ts

/-- `sig.split('_')`: the parts between underscores. -/
def splitUnderscore : List Char → List (List Char)
  | [] => [[]]
  | c :: cs =>
    if c = '_' then [] :: splitUnderscore cs
    else match splitUnderscore cs with
      | [] => [[c]]
      | p :: ps => (c :: p) :: ps

/-- `(perm[i] - zeta, perm[i+1] - zeta, perm[i+2] - zeta) for i in range(0, 2*zeta, 3)` (triangulation.py:215):
`IndexError` when the last triple is incomplete. -/
def triples (zeta : Nat) : List Nat → Py (List (List Int))
  | [] => .ok []
  | a :: b :: c :: l => do
    let rest ← triples zeta l
    return [(a : Int) - zeta, (b : Int) - zeta, (c : Int) - zeta] :: rest
  | _ => .error .indexError

/-- triangulation.py:209-216 `from_sig`.  The unpacking `zeta, index = ...` raises `ValueError` unless there are
exactly two parts. -/
def fromSig (sig : List Char) : Py Triangulation := do
  let parts ← (splitUnderscore sig).mapM b64decode
  match parts with
  | [zeta, index] => do
    let perm ← Permutation.fromIndex (2 * zeta) index
    let tuples ← triples zeta perm.perm
    fromTuple tuples
  | _ => .error .valueError

/-- triangulation.py:226-228 `package`. -/
def package (T : Triangulation) : List (List Int) := T.triangles.map Tri.labels

/-- triangulation.py:229-231, 873-876: pickling and unpickling. -/
def unpickle (T : Triangulation) : Py Triangulation := fromTuple T.package

/-- triangulation.py:232-233 `__eq__`. -/
def eq (S T : Triangulation) : Bool := S.signature == T.signature

/-- triangulation.py:239-243 `sig`. -/
def sig (T : Triangulation) : Py (List Char) := do
  let perm ← Permutation.create (T.signature.map (· + (T.zeta : Int)))
  return b64encode T.zeta ++ '_' :: b64encode perm.index

/-- triangulation.py:295-305 `components`: `sorted(cls)` for each class. -/
def components (T : Triangulation) : Py (List (List Int)) := do
  let mut s := UnionFind.create T.labels
  s ← T.labels.foldlM (fun s e => s.unionMany [e, inv e]) s
  s ← T.triangles.foldlM (fun s t => s.unionMany t.labels) s
  let (classes, _) ← s.groups
  return classes.map (·.insertionSort (· ≤ ·))

/-- triangulation.py:307-310 `is_connected`. -/
def isConnected (T : Triangulation) : Py Bool := do
  let cs ← T.components
  return cs.length == 1

/-- triangulation.py:245-253 `surface`: for each component its genus, number of punctures and Euler characteristic.
`vertex[0] in component` selects the vertices of a component. -/
def surface (T : Triangulation) : Py (List (List Int × (Int × Int × Int))) := do
  let vs ← T.vertices
  let cs ← T.components
  return cs.map (fun comp =>
    let v : Int := ((vs.filter (fun vertex => vertex.head?.any (· ∈ comp))).length : Nat)
    let e : Int := comp.length / 2
    (comp, ((2 - v + e / 3) / 2, v, Int.fdiv (-e) 3)))

/-- triangulation.py:325-330, the loop of `dual_tree`: the classes and the tree after processing some indices. -/
def dualTreeStep (T : Triangulation) (avoid : List Int) (st : UnionFind Tri × List Int) (i : Int) :
    Py (UnionFind Tri × List Int) := do
  let (s, tree) := st
  if i ∉ avoid then
    let a ← T.triangle i
    let b ← T.triangle (inv i)
    let (ra, s) ← s.find a
    let (rb, s) ← s.find b
    if ra ≠ rb then
      let s ← s.unionMany [a, b]
      return (s, tree ++ [i])
    else return (s, tree)
  else return (s, tree)

/-- triangulation.py:312-332 `dual_tree(avoid)`; the set is listed in increasing order. -/
def dualTree (T : Triangulation) (avoid : List Int) : Py (List Int) := do
  let (_, tree) ← T.indices.foldlM (T.dualTreeStep avoid) (UnionFind.create T.triangles, [])
  return tree

/-- triangulation.py:364-371 `is_flippable`. -/
def isFlippable (T : Triangulation) (e : Int) : Py Bool := do
  let s ← T.triangle e
  let t ← T.triangle (inv e)
  return s != t

/-- The list returned by `square`. -/
structure Square where
  a : Int
  b : Int
  c : Int
  d : Int
  e : Int
  deriving DecidableEq, Repr

/-- triangulation.py:373-401 `square`. -/
def square (T : Triangulation) (e : Int) : Py Square := do
  pyAssert (← T.isFlippable e)
  let A ← T.corner e
  let B ← T.corner (inv e)
  return ⟨A.y, A.z, B.y, B.z, e⟩

end Triangulation
end Curver
