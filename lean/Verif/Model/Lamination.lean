import Verif.Model.Triangulation

/-!
# Model of curver/kernel/lamination.py and curver/kernel/homology.py: weights, dual weights, homology classes
-/

namespace Curver

/-- The Python class of a lamination: `Lamination`, `IntegralLamination` (lamination.py:23, 281), `MultiCurve`, `Curve`
(curve.py:13, 110), `MultiArc`, `Arc` (arc.py:11, 177). -/
inductive LamClass where
  | lamination
  | integral
  | multicurve
  | curve
  | multiarc
  | arc
  deriving DecidableEq, Repr

/-- lamination.py:27-32 `Lamination(triangulation, geometric)`, together with its class. -/
structure Lam (R : Type) where
  tri : Triangulation
  geometric : List R
  cls : LamClass
  deriving DecidableEq, Repr

/-- `L[i] = v` for a non-negative `i`: `IndexError` when out of range. -/
def pySet {α : Type _} (l : List α) (i : Nat) (v : α) : Py (List α) :=
  if i < l.length then .ok (l.set i v) else .error .indexError

namespace Lam
variable {R : Type}

/-- lamination.py:40-44 `__call__(edge)`: `self.geometric[edge.index]`. -/
def wt (L : Lam R) (e : Int) : Py R := pyGet L.geometric (norm e).toNat

variable [CommRing R] [LinearOrder R]

/-- `max(self(edge), 0)`, used throughout. -/
def wt0 (L : Lam R) (e : Int) : Py R := do
  let x ← L.wt e
  return max x 0

/-- lamination.py:103-106: `dual_weight(edge, double=True)` from the three weights of the corner. -/
def dual2 (a b c : R) : R :=
  let af := max a 0
  let bf := max b 0
  let cf := max c 0
  let correction := min (min (min (af + bf - cf) (bf + cf - af)) (cf + af - bf)) 0
  bf + cf - af + correction

/-- lamination.py:96-107 `dual_weight(edge, double=True)`. -/
def dualWeight2 (L : Lam R) (e : Int) : Py R := do
  let t ← L.tri.corner e
  let a ← L.wt t.x
  let b ← L.wt t.y
  let c ← L.wt t.z
  return dual2 a b c

variable [Halvable R]

/-- lamination.py:96-112 `dual_weight(edge)`. -/
def dualWeight (L : Lam R) (e : Int) : Py R := do
  let d ← L.dualWeight2 e
  half d

/-- lamination.py:115-123 `left_weight(edge)`. -/
def leftWeight (L : Lam R) (e : Int) : Py R := do
  let t ← L.tri.corner e
  L.dualWeight t.y

/-- lamination.py:125-133 `right_weight(edge)`. -/
def rightWeight (L : Lam R) (e : Int) : Py R := do
  let t ← L.tri.corner e
  L.dualWeight t.z

end Lam

/-- homology.py:8-14 `HomologyClass(triangulation, algebraic)`; the constructor asserts the length. -/
structure Hom where
  tri : Triangulation
  algebraic : List Int
  deriving DecidableEq, Repr

namespace Hom

/-- homology.py:8-14 `HomologyClass.__init__`. -/
def create (T : Triangulation) (algebraic : List Int) : Py Hom := do
  pyAssert (algebraic.length == T.zeta)
  return ⟨T, algebraic⟩

/-- homology.py:22-26 `__call__(edge)`: `self.algebraic[edge.index] * edge.sign()`. -/
def val (h : Hom) (e : Int) : Py Int := do
  let x ← pyGet h.algebraic (norm e).toNat
  return x * sign e

end Hom
end Curver
