import Verif.Model.Lamination

/-!
# Model of curver/kernel/moves.py and curver/kernel/create.py: isometries, flips and multiflips

Python sets of edges are modelled by duplicate free lists; the order of the list stands for the (unspecified) order in
which Python iterates over the set.
-/

namespace Curver

/-- moves.py:69-97 `Isometry`: the dictionaries `label_map`, `index_map`, `inverse_label_map`, `inverse_index_map`. -/
structure Isometry where
  source : Triangulation
  target : Triangulation
  labelMap : PyDict Int Int
  indexMap : PyDict Int Int
  inverseLabelMap : PyDict Int Int
  inverseIndexMap : PyDict Int Int
  deriving DecidableEq, Repr

namespace Isometry

/-- moves.py:74-96 `Isometry.__init__`. -/
def create (source target : Triangulation) (labelMap : PyDict Int Int) : Py Isometry := do
  let labelMap := PyDict.ofList labelMap
  pyAssert (source.labels.all (labelMap.contains ·))
  let pairs ← source.indices.mapM (fun i => do
    let v ← labelMap.get i
    return (i, norm v))
  let indexMap := PyDict.ofList pairs
  return {
    source, target, labelMap, indexMap
    inverseLabelMap := PyDict.ofList (labelMap.map (fun p => (p.2, p.1)))
    inverseIndexMap := PyDict.ofList (indexMap.map (fun p => (p.2, p.1))) }

/-- moves.py:120-123 `is_identity`. -/
def isIdentity (m : Isometry) : Bool := m.labelMap.all (fun p => p.1 == p.2)

/-- moves.py:109-111 `apply_lamination`. -/
def applyLam {R : Type} (m : Isometry) (L : Lam R) : Py (Lam R) := do
  let geometric ← m.target.indices.mapM (fun i => do
    let j ← m.inverseIndexMap.get i
    L.wt j)
  return ⟨m.target, geometric, L.cls⟩

/-- moves.py:113-115 `apply_homology`. -/
def applyHom (m : Isometry) (h : Hom) : Py Hom := do
  let algebraic ← m.target.indices.mapM (fun i => do
    let j ← m.inverseLabelMap.get i
    h.val j)
  Hom.create m.target algebraic

end Isometry

section
variable {R : Type} [CommRing R] [LinearOrder R] [Halvable R]

/-- moves.py:162-179 (and, repeated, 249-266): the new weight of the flipped edge.  The arguments are
`ai0, bi0, ci0, di0, ei`. -/
def flipWeight (a b c d e : R) : Py R :=
  if e ≥ a + b ∧ a ≥ d ∧ b ≥ c then .ok (a + b - e)
  else if e ≥ c + d ∧ d ≥ a ∧ c ≥ b then .ok (c + d - e)
  else if e ≤ 0 ∧ a ≥ b ∧ d ≥ c then .ok (a + d - e)
  else if e ≤ 0 ∧ b ≥ a ∧ c ≥ d then .ok (b + c - e)
  else if e ≥ 0 ∧ a ≥ b + e ∧ d ≥ c + e then .ok (a + d - 2 * e)
  else if e ≥ 0 ∧ b ≥ a + e ∧ c ≥ d + e then .ok (b + c - 2 * e)
  else if a + b ≥ e ∧ b + e ≥ 2 * c + a ∧ a + e ≥ 2 * d + b then half (a + b - e)
  else if c + d ≥ e ∧ d + e ≥ 2 * a + c ∧ c + e ≥ 2 * b + d then half (c + d - e)
  else .ok (max (a + c) (b + d) - e)

end

/-- moves.py:130-140 `EdgeFlip`: the flipped edge and its square in the source. -/
structure EdgeFlip where
  source : Triangulation
  target : Triangulation
  edge : Int
  square : Triangulation.Square
  deriving DecidableEq, Repr

/-- moves.py:156-157 (and 247-248) with the update of the weight of `edge` in `geometric`; the weights are read from
the lamination `L`. -/
def flipStep {R : Type} [CommRing R] [LinearOrder R] [Halvable R] (L : Lam R) (edge : Int) (s : Triangulation.Square)
    (geometric : List R) : Py (List R) := do
  let ei ← L.wt edge
  let ai0 ← L.wt0 s.a
  let bi0 ← L.wt0 s.b
  let ci0 ← L.wt0 s.c
  let di0 ← L.wt0 s.d
  let _ ← L.wt0 s.e
  let w ← flipWeight ai0 bi0 ci0 di0 ei
  pySet geometric (norm edge).toNat w

/-- `algebraic[edge.index] -= edge.sign() * x`. -/
def subAt (algebraic : List Int) (edge : Int) (x : Int) : Py (List Int) := do
  let y ← pyGet algebraic (norm edge).toNat
  pySet algebraic (norm edge).toNat (y - sign edge * x)

/-- moves.py:184-190 (and 276-281): move the homology on `e` onto `a` and `b`; the value at `e` is read from `h`. -/
def flipHomStep (h : Hom) (s : Triangulation.Square) (algebraic : List Int) : Py (List Int) := do
  let x ← h.val s.e
  let algebraic ← subAt algebraic s.a x
  let algebraic ← subAt algebraic s.b x
  pySet algebraic (norm s.e).toNat 0

namespace EdgeFlip

/-- moves.py:132-140 `EdgeFlip.__init__`. -/
def create (source target : Triangulation) (edge : Int) : Py EdgeFlip := do
  pyAssert (← source.isFlippable edge)
  let square ← source.square edge
  return { source, target, edge, square }

/-- moves.py:153-181 `apply_lamination`. -/
def applyLam {R : Type} [CommRing R] [LinearOrder R] [Halvable R] (m : EdgeFlip) (L : Lam R) : Py (Lam R) := do
  let geometric ← flipStep L m.edge m.square L.geometric
  return ⟨m.target, geometric, L.cls⟩

/-- moves.py:183-192 `apply_homology`. -/
def applyHom (m : EdgeFlip) (h : Hom) : Py Hom := do
  let algebraic ← flipHomStep h m.square h.algebraic
  Hom.create m.target algebraic

end EdgeFlip

namespace Triangulation

/-- triangulation.py:707 and moves.py:227 `set(self.triangle_lookup[e] for edge in edges for e in [edge, ~edge])`. -/
def support (T : Triangulation) (edges : List Int) : Py (List Tri) := do
  let ts ← (edges.flatMap (fun e => [e, inv e])).mapM T.triangle
  return ts.dedup

end Triangulation

/-- moves.py:219-229 `MultiEdgeFlip`: the flipped edges with their squares in the source. -/
structure MultiFlip where
  source : Triangulation
  target : Triangulation
  edges : List Int
  squares : PyDict Int Triangulation.Square
  deriving DecidableEq, Repr

namespace MultiFlip

/-- moves.py:221-229 `MultiEdgeFlip.__init__`.  `edges` is a set, or a list built from one by inverting every edge. -/
def create (source target : Triangulation) (edges : List Int) : Py MultiFlip := do
  let es := edges.dedup
  let pairs ← es.mapM (fun e => do
    let s ← source.square e
    return (e, s))
  let support ← source.support edges
  pyAssert (support.length == 2 * edges.length)
  return { source, target, edges := es, squares := PyDict.ofList pairs }

/-- moves.py:242-268 `apply_lamination`. -/
def applyLam {R : Type} [CommRing R] [LinearOrder R] [Halvable R] (m : MultiFlip) (L : Lam R) : Py (Lam R) := do
  let geometric ← m.edges.foldlM (fun geometric edge => do
    let s ← m.squares.get edge
    flipStep L edge s geometric) L.geometric
  return ⟨m.target, geometric, L.cls⟩

/-- moves.py:272-283 `apply_homology`. -/
def applyHom (m : MultiFlip) (h : Hom) : Py Hom := do
  let algebraic ← m.edges.foldlM (fun algebraic edge => do
    let s ← m.squares.get edge
    flipHomStep h s algebraic) h.algebraic
  Hom.create m.target algebraic

end MultiFlip

/-- The moves between triangulations that are modelled by their data (moves.py). -/
inductive Move where
  | isometry (m : Isometry)
  | flip (m : EdgeFlip)
  | multiflip (m : MultiFlip)
  deriving DecidableEq, Repr

namespace Move

/-- moves.py:16 `source_triangulation`. -/
def source : Move → Triangulation
  | .isometry m => m.source
  | .flip m => m.source
  | .multiflip m => m.source

/-- moves.py:17 `target_triangulation`. -/
def target : Move → Triangulation
  | .isometry m => m.target
  | .flip m => m.target
  | .multiflip m => m.target

/-- moves.py:109, 153, 242: dispatch of `apply_lamination`. -/
def applyLam {R : Type} [CommRing R] [LinearOrder R] [Halvable R] : Move → Lam R → Py (Lam R)
  | .isometry m, L => m.applyLam L
  | .flip m, L => m.applyLam L
  | .multiflip m, L => m.applyLam L

/-- moves.py:113, 183, 272: dispatch of `apply_homology`. -/
def applyHom : Move → Hom → Py Hom
  | .isometry m, h => m.applyHom h
  | .flip m, h => m.applyHom h
  | .multiflip m, h => m.applyHom h

/-- `isinstance(item, Isometry) and item.is_identity()` (encoding.py:24). -/
def isIdentityIsometry : Move → Bool
  | .isometry m => m.isIdentity
  | _ => false

end Move

/-- create.py:6-10 `link(move, inverse_move)`: a move together with its `_inverse`, whose own `_inverse` is the move. -/
structure LMove where
  move : Move
  inverseMove : Move
  deriving DecidableEq, Repr

namespace LMove

/-- moves.py:42-45 `inverse`. -/
def inverse (m : LMove) : LMove := ⟨m.inverseMove, m.move⟩

/-- create.py:12-18 `isometry`. -/
def isometry (source target : Triangulation) (labelMap : PyDict Int Int) : Py LMove := do
  let inverseLabelMap := PyDict.ofList (labelMap.map (fun p => (p.2, p.1)))
  let m ← Isometry.create source target labelMap
  let m' ← Isometry.create target source inverseLabelMap
  return ⟨.isometry m, .isometry m'⟩

/-- create.py:20-25 `edgeflip`. -/
def edgeflip (source target : Triangulation) (edge : Int) : Py LMove := do
  let m ← EdgeFlip.create source target edge
  let m' ← EdgeFlip.create target source (inv edge)
  return ⟨.flip m, .flip m'⟩

/-- create.py:27-32 `multiedgeflip`. -/
def multiedgeflip (source target : Triangulation) (edges : List Int) : Py LMove := do
  let m ← MultiFlip.create source target edges
  let m' ← MultiFlip.create target source (edges.map inv)
  return ⟨.multiflip m, .multiflip m'⟩

end LMove

namespace Triangulation

/-- triangulation.py:682-685 `id_isometry`. -/
def idIsometry (T : Triangulation) : Py LMove := LMove.isometry T T (T.labels.map (fun i => (i, i)))

/-- triangulation.py:732-739: the two new triangles of the flip of `edge`.  (`edge_map`, line 726, sends each edge to
an equal edge.) -/
def flippedTriangles (T : Triangulation) (edge : Int) : Py (List Tri) := do
  let s ← T.square edge
  if sign edge = 1 then return [Tri.create s.e s.d s.a, Tri.create (inv s.e) s.b s.c]
  else return [Tri.create (inv s.e) s.d s.a, Tri.create s.e s.b s.c]

/-- triangulation.py:707-742 `encode_multiflip`: the target triangulation, for a set of edges. -/
def multiflipTarget (T : Triangulation) (edges : List Int) : Py Triangulation := do
  let support ← T.support edges
  pyAssert (support.length == 2 * edges.length)
  let kept := (T.triangles.filter (fun t => t ∉ support)).map (fun t => Tri.create t.x t.y t.z)
  let new ← edges.mapM T.flippedTriangles
  create (kept ++ new.flatten)

/-- triangulation.py:700-743 `encode_multiflip`, the move inside the encoding. -/
def encodeMultiflip (T : Triangulation) (edges : List Int) : Py LMove := do
  let edges := edges.dedup
  let T' ← T.multiflipTarget edges
  LMove.multiedgeflip T T' edges

/-- triangulation.py:692-698 `encode_flip`, the move inside the encoding. -/
def encodeFlip (T : Triangulation) (edge : Int) : Py LMove := do
  let move ← T.encodeMultiflip [edge]
  LMove.edgeflip move.move.source move.move.target edge

/-- triangulation.py:757-765, the loop of `encode_relabel_edges` completing the map. -/
def completeMap : PyDict Int Int → List Int → Py (PyDict Int Int)
  | m, [] => .ok m
  | m, i :: is =>
    match m.get? i, m.get? (inv i) with
    | some _, some _ => completeMap m is
    | none, some v => completeMap (m.set i (inv v)) is
    | some v, none => completeMap (m.set (inv i) (inv v)) is
    | none, none => .error .valueError

/-- triangulation.py:745-770 `encode_relabel_edges`, for a dictionary. -/
def encodeRelabel (T : Triangulation) (labelMap : PyDict Int Int) : Py LMove := do
  let m ← completeMap (PyDict.ofList labelMap) T.indices
  let ts ← T.triangles.mapM (fun t => do
    let x ← m.get t.x
    let y ← m.get t.y
    let z ← m.get t.z
    return Tri.create x y z)
  let T' ← create ts
  LMove.isometry T T' m

/-- triangulation.py:750-751: a list or tuple given to `encode_relabel_edges` stands for `dict(enumerate(l))`. -/
def enumerate (l : List Int) : PyDict Int Int := l.mapIdx (fun i v => ((i : Int), v))

end Triangulation
end Curver
