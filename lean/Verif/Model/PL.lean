import Verif.Model.Encoding
import Verif.Model.LamArith

/-!
# Model of curver/kernel/PL.py and of `pl_action` (curver/kernel/moves.py, curver/kernel/encoding.py)

A two dimensional numpy array of Python integers is the list of its rows; `np.array([])` is the empty list.  The vectors that
the functions are applied to have entries in any ring (integers, fractions, real algebraic numbers).
-/

namespace Curver

/-- A numpy array of integers, by rows. -/
abbrev Mat := List (List Int)

namespace Mat

/-- One entry of `A.dot(x)`. -/
def dot {R : Type} [CommRing R] (row : List Int) (x : List R) : R := (List.zipWith (fun (a : Int) b => (a : R) * b) row x).sum

/-- `A.dot(x)` for a vector: numpy raises a `ValueError` unless the rows are as long as the vector.  `np.array([])` is one
dimensional and cannot be multiplied by a non-empty vector (the case of an empty vector, where numpy gives 0, is not modelled). -/
def dotVec {R : Type} [CommRing R] (A : Mat) (x : List R) : Py (List R) :=
  if A.isEmpty || A.any (fun row => row.length != x.length) then .error .valueError else .ok (A.map (fun row => dot row x))

/-- Number of columns. -/
def cols (A : Mat) : Nat := (A.head?.map List.length).getD 0

/-- One row of `A.dot(B)`. -/
def rowMul (row : List Int) (B : Mat) : List Int := (List.range B.cols).map (fun j => dot row (B.map (fun r => r.getD j 0)))

/-- `A.dot(B)` for two arrays: numpy raises a `ValueError` unless the rows of `A` are as long as `B` has rows. -/
def dotMat (A B : Mat) : Py Mat :=
  if A.isEmpty || B.isEmpty || A.any (fun row => row.length != B.length) then .error .valueError
  else .ok (A.map (fun row => rowMul row B))

/-- `np.concatenate([A, B])`: numpy raises a `ValueError` unless both are two dimensional with equally long rows. -/
def concatenate (A B : Mat) : Py Mat :=
  if A.isEmpty != B.isEmpty || A.cols != B.cols then .error .valueError else .ok (A ++ B)

/-- `A + B`. -/
def add (A B : Mat) : Mat := List.zipWith (List.zipWith (· + ·)) A B

/-- `A - B`. -/
def sub (A B : Mat) : Mat := List.zipWith (List.zipWith (· - ·)) A B

/-- `k * A`. -/
def smul (k : Int) (A : Mat) : Mat := A.map (fun row => row.map (k * ·))

/-- moves.py:200-202 (and 292-294) `V(x)`: the vector of length `zeta` which has a 1 at `x`. -/
def V (zeta x : Nat) : List Int := (List.range zeta).map (fun i => if i = x then 1 else 0)

/-- moves.py:204-206 (and 296-298) `E(x, y)`: a 1 in row `y`, column `x`. -/
def E (zeta x y : Nat) : Mat := (List.range zeta).map (fun j => if j = y then V zeta x else List.replicate zeta 0)

/-- `np.identity(zeta, dtype=object)`. -/
def identity (zeta : Nat) : Mat := (List.range zeta).map (fun j => V zeta j)

/-- PL.py:12-13: the rows that the constructor keeps: the first one and those with a non-zero entry. -/
def keepRows : Mat → Mat
  | [] => []
  | row :: rows => row :: rows.filter (fun r => r.any (· != 0))

end Mat

/-- PL.py:7-13 `PartialLinearFunction`. -/
structure PLF where
  action : Mat
  condition : Mat
  deriving DecidableEq, Repr

namespace PLF

/-- PL.py:9-13 `PartialLinearFunction.__init__`. -/
def create (action condition : Mat) : PLF := ⟨action.keepRows, condition.keepRows⟩

/-- PL.py:24-25 `__contains__`. -/
def contains {R : Type} [CommRing R] [LinearOrder R] (F : PLF) (x : List R) : Py Bool := do
  let y ← F.condition.dotVec x
  return y.all (fun v => decide (v ≥ 0))

/-- PL.py:27-31 `__call__`. -/
def call {R : Type} [CommRing R] [LinearOrder R] (F : PLF) (x : List R) : Py (List R) := do
  let b ← F.contains x
  if !b then .error .valueError else F.action.dotVec x

/-- PL.py:33-39 `__mul__`. -/
def mul (F : PLF) : Option PLF → Py PLF
  | none => .ok F
  | some G => do
    let action ← F.action.dotMat G.action
    let pulled ← F.condition.dotMat G.action
    let condition ← G.condition.concatenate pulled
    return create action condition

/-- PL.py:41-52 `eigenvector`, where `candidates` is what `realalg.eigenvectors(self.action)` yields. -/
def eigenvector {R : Type} [CommRing R] [LinearOrder R] (F : PLF) : List (R × List R) → Py (R × List R)
  | [] => .error .valueError
  | (eigenvalue, vector) :: candidates => do
    if ← F.contains vector then return (eigenvalue, vector) else F.eigenvector candidates

end PLF

/-- moves.py:125-128 `Isometry.pl_action`. -/
def Isometry.plAction (m : Isometry) (_multicurve : Lam Int) : Py PLF := do
  let zeta := m.source.zeta
  let images ← (List.range zeta).mapM (fun (i : Nat) => m.indexMap.get (i : Int))
  let action : Mat := (List.range zeta).map (fun (j : Nat) => images.map (fun (v : Int) => if (j : Int) = v then 1 else 0))
  return PLF.create action [List.replicate zeta 0]

/-- moves.py:208-215 (and 302-309): what a flipped edge with square `s` adds to the action and to the conditions. -/
def plStep (zeta : Nat) (multicurve : Lam Int) (s : Triangulation.Square) (st : Mat × Mat) : Py (Mat × Mat) := do
  let ai := (norm s.a).toNat
  let bi := (norm s.b).toNat
  let ci := (norm s.c).toNat
  let di := (norm s.d).toNat
  let ei := (norm s.e).toNat
  let ai0 ← multicurve.wt0 s.a
  let bi0 ← multicurve.wt0 s.b
  let ci0 ← multicurve.wt0 s.c
  let di0 ← multicurve.wt0 s.d
  let _ ← multicurve.wt0 s.e
  let V := Mat.V zeta
  let E := Mat.E zeta
  let plus := List.zipWith (fun x y : Int => x + y)
  let minus := List.zipWith (fun x y : Int => x - y)
  if ai0 + ci0 - bi0 - di0 ≥ 0 then
    return ((((st.1.add (E ai ei)).add (E ci ei)).sub ((E ei ei).smul 2)), st.2 ++ [minus (minus (plus (V ai) (V ci)) (V bi)) (V di)])
  else
    return ((((st.1.add (E bi ei)).add (E di ei)).sub ((E ei ei).smul 2)), st.2 ++ [minus (minus (plus (V bi) (V di)) (V ai)) (V ci)])

/-- moves.py:197-217 `EdgeFlip.pl_action`. -/
def EdgeFlip.plAction (m : EdgeFlip) (multicurve : Lam Int) : Py PLF := do
  let zeta := m.source.zeta
  let (action, condition) ← plStep zeta multicurve m.square (Mat.identity zeta, [])
  return PLF.create action condition

/-- moves.py:288-311 `MultiEdgeFlip.pl_action`. -/
def MultiFlip.plAction (m : MultiFlip) (multicurve : Lam Int) : Py PLF := do
  let zeta := m.source.zeta
  let (action, conditions) ← m.edges.foldlM (fun st edge => do
    let s ← m.squares.get edge
    plStep zeta multicurve s st) (Mat.identity zeta, [])
  return PLF.create action conditions

/-- moves.py:65-67, 125, 197, 288: dispatch of `pl_action`. -/
def Move.plAction : Move → Lam Int → Py PLF
  | .isometry m, c => m.plAction c
  | .flip m, c => m.plAction c
  | .multiflip m, c => m.plAction c

namespace Enc

/-- encoding.py:222-233 `Mapping.pl_action`.  A bare `Encoding` has no such method. -/
def plAction (h : Enc) (multicurve : Lam Int) : Py (Option PLF) := do
  if !h.kind.isMapping then .error .attributeError else
  let _ ← pyAssert multicurve.cls.isMultiCurve
  let (current, _) ← h.sequence.reverse.foldlM (fun (st : Option PLF × Lam Int) m => do
    let F ← m.move.plAction st.2
    let current ← F.mul st.1
    let multicurve ← m.move.applyLam st.2
    return (some current, multicurve)) (none, multicurve)
  return current

end Enc
end Curver
