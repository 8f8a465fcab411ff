import Verif.Model.LamArith
import Verif.Model.PL

/-!
# Model of `Triangulation.encode_pachner_1_3` and of `LinearTransformation`

curver/kernel/triangulation.py:772-809, curver/kernel/crush.py:137-163, curver/kernel/create.py:55-60.
-/

namespace Curver

/-- An entry of a matrix: an integer or the object `half` of utilities.py:132-151. -/
inductive HEntry where
  | int (k : Int)
  | half
  deriving DecidableEq, Repr

/-- `entry * x`. -/
def HEntry.mul {R : Type} [CommRing R] [Halvable R] : HEntry → R → Py R
  | .int k, x => .ok ((k : R) * x)
  | .half, x => Curver.half x

/-- A numpy array with such entries, by rows. -/
abbrev HMat := List (List HEntry)

/-- `matrix.shape == (m, n)`.  (`np.stack([])` raises an error and `np.array([])` has shape `(0,)`, so that there is at least one row.) -/
def HMat.hasShape (A : HMat) (m n : Nat) : Bool := A.length == m && !A.isEmpty && A.all (fun row => row.length == n)

/-- One entry of `matrix.dot(x)`. -/
def HMat.dotRow {R : Type} [CommRing R] [Halvable R] (row : List HEntry) (x : List R) : Py R := do
  let ps ← (List.zip row x).mapM (fun p => p.1.mul p.2)
  return ps.sum

/-- `matrix.dot(x)`: numpy raises a `ValueError` unless the rows are as long as the vector. -/
def HMat.dotVec {R : Type} [CommRing R] [Halvable R] (A : HMat) (x : List R) : Py (List R) :=
  if A.any (fun row => row.length != x.length) then .error .valueError else A.mapM (fun row => dotRow row x)

/-- crush.py:137-143 `LinearTransformation` (and moves.py:12-20). -/
structure LinTrans where
  source : Triangulation
  target : Triangulation
  matrix : HMat
  deriving DecidableEq, Repr

namespace LinTrans

/-- crush.py:139-143 `LinearTransformation.__init__`. -/
def create (source target : Triangulation) (matrix : HMat) : Py LinTrans := do
  pyAssert (matrix.hasShape target.zeta source.zeta)
  return ⟨source, target, matrix⟩

/-- crush.py:160-161 `apply_lamination`; the class given by `promote()` is the parameter `P` (see `Lam.promote`). -/
def applyLam {R : Type} [CommRing R] [LinearOrder R] [Halvable R] [IntTest R] (P : Lam R → Py LamClass) (m : LinTrans) (L : Lam R) : Py (Lam R) := do
  let geometric ← m.matrix.dotVec L.geometric
  m.target.lamination P geometric

end LinTrans

/-- create.py:6-10 `link`, create.py:55-60 `lineartransformation`: a transformation and its inverse. -/
structure LinMove where
  move : LinTrans
  inverseMove : LinTrans
  deriving DecidableEq, Repr

/-- create.py:55-60 `lineartransformation`. -/
def LinMove.create (source target : Triangulation) (matrix inverseMatrix : HMat) : Py LinMove := do
  let m ← LinTrans.create source target matrix
  let i ← LinTrans.create target source inverseMatrix
  return ⟨m, i⟩

/-- moves.py:41-44 `inverse`. -/
def LinMove.inverse (m : LinMove) : LinMove := ⟨m.inverseMove, m.move⟩

/-- encoding.py:14-33 `Encoding`, for a sequence of linear transformations (no isometry, so that none is dropped). -/
structure LinEnc where
  sequence : List LinMove
  source : Triangulation
  target : Triangulation
  deriving DecidableEq, Repr

namespace LinEnc

/-- encoding.py:18-32 `Encoding.__init__`. -/
def create (sequence : List LinMove) : Py LinEnc :=
  match sequence.getLast?, sequence.head? with
  | some last, some first => .ok ⟨sequence, last.move.source, first.move.target⟩
  | _, _ => .error .assertionError

/-- encoding.py:123-127 `inverse`. -/
def inverse (h : LinEnc) : Py LinEnc := create (h.sequence.reverse.map LinMove.inverse)

/-- encoding.py:89-96, 103 `__call__` on a lamination. -/
def applyLam {R : Type} [CommRing R] [LinearOrder R] [Halvable R] [IntTest R] (P : Lam R → Py LamClass) (h : LinEnc) (L : Lam R) : Py (Lam R) :=
  if !(h.source.eq L.tri) then .error .valueError
  else h.sequence.reverse.foldlM (fun L m => m.move.applyLam P L) L

end LinEnc

namespace Triangulation

/-- The state of the loop triangulation.py:787-800: the new triangles, the rows of the matrix and the number of edges so far. -/
structure PachnerState where
  triangles : List Tri
  rows : Mat
  zeta : Nat

/-- triangulation.py:788-800, the body of the loop; `z` is `self.zeta`. -/
def pachnerStep (z : Nat) (triangles : List Tri) (st : PachnerState) (t : Tri) : PachnerState :=
  let a := t.x
  let b := t.y
  let c := t.z
  let E := fun (x : Int) => Mat.V z (norm x).toNat
  let plus := List.zipWith (fun x y : Int => x + y)
  let minus := List.zipWith (fun x y : Int => x - y)
  if t ∈ triangles then
    let s : Int := (st.zeta : Int)
    let t' : Int := (st.zeta : Int) + 1
    let u : Int := (st.zeta : Int) + 2
    { triangles := st.triangles ++ [Tri.create a (inv u) t', Tri.create b (inv s) u, Tri.create c (inv t') s]
      rows := st.rows ++ [minus (plus (E b) (E c)) (E a), minus (plus (E c) (E a)) (E b), minus (plus (E a) (E b)) (E c)]
      zeta := st.zeta + 3 }
  else { st with triangles := st.triangles ++ [Tri.create a b c] }

/-- A diagonal matrix with `m` rows and `n` columns (triangulation.py:804-807). -/
def diagonal (v : HEntry) (m n : Nat) : HMat :=
  (List.range m).map (fun j => (List.range n).map (fun i => if i = j then v else .int 0))

/-- triangulation.py:772-812 `encode_pachner_1_3(triangles)`. -/
def encodePachner13 (T : Triangulation) (triangles : Option (List Tri)) : Py LinEnc := do
  let triangles := triangles.getD T.triangles
  let start : PachnerState := ⟨[], (List.range T.zeta).map (fun i => (Mat.V T.zeta i).map (2 * ·)), T.zeta⟩
  let st := T.triangles.foldl (pachnerStep T.zeta triangles) start
  let newTriangulation ← create st.triangles
  let matrix : HMat := st.rows.map (fun row => row.map HEntry.int)
  let inverseMatrix := diagonal .half T.zeta st.zeta
  let halfMatrix := diagonal .half st.zeta st.zeta
  let inverseHalfMatrix := diagonal (.int 2) st.zeta st.zeta
  let m ← LinMove.create newTriangulation newTriangulation halfMatrix inverseHalfMatrix
  let m' ← LinMove.create T newTriangulation matrix inverseMatrix
  LinEnc.create [m, m']

end Triangulation
end Curver
