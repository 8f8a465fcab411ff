import Verif.Model.Encoding
import Verif.Model.Homology

/-!
# Model of the images that identify a mapping (encoding.py, triangulation.py): `self_image`, `homology_matrix`, `==`, `order`

Matrices are lists of rows.  A homology basis is never empty (a triangulation has more edges than its dual tree), so the shape of
the arrays is given by their rows.
-/

namespace Curver
namespace Triangulation

/-- triangulation.py:552-555 `as_lamination`. -/
def asLamination (T : Triangulation) : Lam Int := ⟨T, List.replicate T.zeta (-1), .multiarc⟩

/-- triangulation.py:668-673 `edge_homology`. -/
def edgeHomology (T : Triangulation) (e : Int) : Py Hom :=
  Hom.create T ((List.range T.zeta).map (fun (i : Nat) => if (i : Int) ≠ norm e then 0 else sign e))

/-- triangulation.py:675-679 `edge_homologies`. -/
def edgeHomologies (T : Triangulation) : Py (List Hom) := T.indices.mapM T.edgeHomology

/-- triangulation.py:358-361 `homology_basis`. -/
def homologyBasis (T : Triangulation) : Py (List Hom) := do
  let hcs ← T.edgeHomologies
  let flags ← hcs.mapM Hom.isCanonical
  return ((hcs.zip flags).filter (·.2)).map (·.1)

/-- Python's `n.bit_length()` (triangulation.py:263, 266). -/
def bitLength (n : Nat) : Nat := if n = 0 then 0 else n.log2 + 1

/-- triangulation.py:258-272 `landau(a)`, the bits of `c` (`new_c**2 <= b` keeps the bit). -/
def landauRoot (b : Nat) : Nat :=
  (List.range (bitLength b / 2)).reverse.foldl (fun c i => if (c + 2 ^ i) ^ 2 ≤ b then c + 2 ^ i else c) 0

/-- triangulation.py:258-273 `landau(a)`. -/
def landau (a : Nat) : Nat :=
  let b := a * (bitLength a - 1)
  let c := landauRoot b
  let c := if c ^ 2 < b then c + 1 else c
  let d := c + c / 18
  3 ^ d

/-- triangulation.py:277-286 `order(g, v)`. -/
def componentOrder (g v : Int) : Int :=
  if g > 1 then 4 * g + 2 else if g = 1 then max v 6 else v

/-- triangulation.py:255-293 `max_order`. -/
def maxOrder (T : Triangulation) : Py Int := do
  let cs ← T.components
  let s ← T.surface
  let orders := (s.map (fun p => componentOrder p.2.1 p.2.2.1)).dedup
  return orders.foldl (· * ·) (landau cs.length : Int)

end Triangulation

/-- `sum(x * y for x, y in zip(u, v))`. -/
def pyDot (u v : List Int) : Int := (List.zipWith (· * ·) u v).sum

/-- `np.identity(n, dtype=object)`. -/
def identityMatrix (n : Nat) : List (List Int) := (List.range n).map (fun i => (List.range n).map (fun j => if i = j then 1 else 0))

/-- `M.dot(N)` for two matrices given by rows; `n` is the number of columns of `N`. -/
def matDot (M N : List (List Int)) (n : Nat) : List (List Int) :=
  M.map (fun row => (List.range n).map (fun j => pyDot row (N.map (fun r => (r[j]?).getD 0))))

namespace Lam

/-- lamination.py:49-51 `__eq__` between laminations: the class is not compared. -/
def eq {R : Type} [DecidableEq R] (L L' : Lam R) : Bool := L.tri.eq L'.tri && decide (L.geometric = L'.geometric)

/-- lamination.py:52-53 `__hash__`: the tuple that is hashed. -/
def hashKey {R : Type} (L : Lam R) : List R := L.geometric

end Lam

namespace Enc

/-- encoding.py:146-149 `self_image`. -/
def selfImage (h : Enc) : Py (Lam Int) := h.applyLam h.source.asLamination

/-- encoding.py:160-171 `homology_matrix`. -/
def homologyMatrix (h : Enc) : Py (List (List Int)) := do
  let sourceBasis ← h.source.homologyBasis
  let targetBasis ← h.target.homologyBasis
  let sourceImages ← sourceBasis.mapM (fun hc => do
    let y ← h.applyHom hc
    y.canonical)
  return targetBasis.map (fun hc2 => sourceImages.map (fun hc => pyDot hc.algebraic hc2.algebraic))

/-- encoding.py:173-180 `Mapping.__eq__` between mappings. -/
def eq (h k : Enc) : Py Bool :=
  if !(h.source.eq k.source) || !(h.target.eq k.target) then return false
  else do
    let L ← h.selfImage
    let L' ← k.selfImage
    if L.eq L' then
      let M ← h.homologyMatrix
      let M' ← k.homologyMatrix
      return M == M'
    else return false

/-- encoding.py:182-184 `Mapping.__hash__`: what is hashed. -/
def hashKey (h : Enc) : Py (List Int) := do
  let L ← h.selfImage
  return L.hashKey

/-- encoding.py:276-280 `is_in_torelli`. -/
def isInTorelli (h : Enc) : Py Bool := do
  let M ← h.homologyMatrix
  return M == identityMatrix M.length

/-- The state of the loop of `order`: the image of the identity matrix with its power, the image of the triangulation with its
power (encoding.py:297-301). -/
structure OrderState where
  matrix : List (List Int)
  matrixPower : Nat
  lam : Lam Int
  lamPower : Nat

/-- encoding.py:303-310: one value of `power` (`repeatM` is the inner loop `while powers[i] < power`): whether both images are the originals, and the new state.  The lamination is only
brought up to date when the matrix is the identity. -/
def orderStep (h : Enc) (M : List (List Int)) (power : Nat) (st : OrderState) : Py (Bool × OrderState) := do
  let m ← repeatM (fun N => .ok (matDot M N M.length)) (power - st.matrixPower) st.matrix
  let st := { st with matrix := m, matrixPower := max st.matrixPower power }
  if m == identityMatrix M.length then do
    let L ← repeatM h.applyLam (power - st.lamPower) st.lam
    let st := { st with lam := L, lamPower := max st.lamPower power }
    return (L.eq h.source.asLamination, st)
  else return (false, st)

/-- encoding.py:302-312: the powers still to be tried. -/
def orderLoop (h : Enc) (M : List (List Int)) : List Nat → OrderState → Py Nat
  | [], _ => .ok 0
  | power :: powers, st => do
    let (found, st) ← h.orderStep M power st
    if found then return power else orderLoop h M powers st

/-- encoding.py:282-312 `order`. -/
def order (h : Enc) : Py Nat := do
  let M ← h.homologyMatrix
  let n ← h.source.maxOrder
  h.orderLoop M ((List.range n.toNat).map (· + 1)) ⟨identityMatrix M.length, 0, h.source.asLamination, 0⟩

/-- encoding.py:319-322 `is_identity`. -/
def isIdentity (h : Enc) : Py Bool := do
  let n ← h.order
  return n == 1

/-- encoding.py:324-327 `is_periodic`. -/
def isPeriodic (h : Enc) : Py Bool := do
  let n ← h.order
  return decide (n > 0)

end Enc
end Curver
