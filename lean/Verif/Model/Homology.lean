import Verif.Model.Moves

/-!
# Model of curver/kernel/homology.py and of `Triangulation.homology_matrix`
-/

namespace Curver
namespace Triangulation

/-- triangulation.py:345-352, the loop computing a row of the matrix.  `row[edge.index] -= edge.sign()` is
`subAt row edge 1`. -/
def homologyRowLoop (T : Triangulation) (tree : List Int) (index : Int) : Nat → Int → List Int → Py (List Int)
  | 0, _, _ => .error .outOfFuel
  | fuel + 1, edge, row => do
    let corner ← T.corner edge
    let edge := corner.z
    if norm edge ∉ tree then
      let row ← subAt row edge 1
      if edge = inv index then return row else homologyRowLoop T tree index fuel edge row
    else
      let edge := inv edge
      if edge = inv index then return row else homologyRowLoop T tree index fuel edge row

/-- triangulation.py:341-354: one row. -/
def homologyRow (T : Triangulation) (tree : List Int) (index : Int) : Py (List Int) :=
  let row := List.replicate T.zeta (0 : Int)
  if index ∈ tree then T.homologyRowLoop tree index (2 * T.zeta + 1) index row
  else pySet row index.toNat 1

/-- triangulation.py:334-356 `homology_matrix`, before the transposition of the last line. -/
def homologyRows (T : Triangulation) : Py (List (List Int)) := do
  let tree ← T.dualTree []
  T.indices.mapM (T.homologyRow tree)

end Triangulation

namespace Hom

/-- `M.transpose().dot(v)` for the list of rows of `M`: entry `r` is the sum of `M[c][r] * v[c]`. -/
def transposeDot (rows : List (List Int)) (n : Nat) (v : List Int) : List Int :=
  (List.range n).map (fun r => ((rows.zip v).map (fun p => (p.1[r]?).getD 0 * p.2)).sum)

/-- homology.py:49-54 `canonical`. -/
def canonical (h : Hom) : Py Hom := do
  let rows ← h.tri.homologyRows
  Hom.create h.tri (transposeDot rows h.tri.zeta h.algebraic)

/-- homology.py:56-61 `is_canonical`. -/
def isCanonical (h : Hom) : Py Bool := do
  let c ← h.canonical
  return c.algebraic == h.algebraic

/-- homology.py:27-28 `__eq__`. -/
def eq (h h' : Hom) : Py Bool :=
  if h.tri.eq h'.tri then do
    let c ← h.canonical
    let c' ← h'.canonical
    return c.algebraic == c'.algebraic
  else return false

/-- homology.py:29-30 `__hash__`: the tuple that is hashed. -/
def hashKey (h : Hom) : Py (List Int) := do
  let c ← h.canonical
  return c.algebraic

/-- homology.py:31-40 `__add__` of two classes. -/
def add (h h' : Hom) : Py Hom :=
  if !(h'.tri.eq h.tri) then .error .valueError
  else Hom.create h.tri (List.zipWith (· + ·) h.algebraic h'.algebraic)

/-- homology.py:44-46 `__neg__`. -/
def neg (h : Hom) : Py Hom := Hom.create h.tri (h.algebraic.map (- ·))

/-- homology.py:47-48 `__sub__`. -/
def sub (h h' : Hom) : Py Hom := do
  let m ← h'.neg
  h.add m

end Hom
end Curver
