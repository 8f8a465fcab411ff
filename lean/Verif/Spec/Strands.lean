import Mathlib.Algebra.Order.Ring.Defs
import Mathlib.Algebra.Ring.Int.Defs

/-!
# Specification: laminations in a quadrilateral

A lamination meets the quadrilateral with sides `a` (top), `b` (left), `c` (bottom), `d` (right) and diagonals `e` (from
the bottom left to the top right corner) and `e'` (from the top left to the bottom right corner) in arcs.  Up to isotopy
such an arc cuts off a corner, joins opposite sides, joins a side to a corner that is not an end of it, or joins
opposite corners.
-/

namespace Curver

/-- How many arcs of each kind there are. -/
structure Strands (R : Type) where
  /-- arcs cutting off the top left corner (between `a` and `b`) -/
  tl : R
  /-- arcs cutting off the top right corner (between `a` and `d`) -/
  tr : R
  /-- arcs cutting off the bottom left corner (between `b` and `c`) -/
  bl : R
  /-- arcs cutting off the bottom right corner (between `c` and `d`) -/
  br : R
  /-- arcs from `a` to `c` -/
  ac : R
  /-- arcs from `b` to `d` -/
  bd : R
  /-- arcs from a side to a corner -/
  aBL : R
  aBR : R
  bTR : R
  bBR : R
  cTL : R
  cTR : R
  dTL : R
  dBL : R
  /-- arcs from the top right to the bottom left corner, parallel to `e` -/
  along : R
  /-- arcs from the top left to the bottom right corner, parallel to `e'` -/
  across : R

namespace Strands
variable {R : Type} [CommRing R] [LinearOrder R]

/-- The numbers are not negative. -/
structure NonNeg (s : Strands R) : Prop where
  tl : 0 ≤ s.tl
  tr : 0 ≤ s.tr
  bl : 0 ≤ s.bl
  br : 0 ≤ s.br
  ac : 0 ≤ s.ac
  bd : 0 ≤ s.bd
  aBL : 0 ≤ s.aBL
  aBR : 0 ≤ s.aBR
  bTR : 0 ≤ s.bTR
  bBR : 0 ≤ s.bBR
  cTL : 0 ≤ s.cTL
  cTR : 0 ≤ s.cTR
  dTL : 0 ≤ s.dTL
  dBL : 0 ≤ s.dBL
  along : 0 ≤ s.along
  across : 0 ≤ s.across

/-- The arcs of a lamination do not cross: two kinds of arcs that cross do not both occur. -/
structure NonCrossing (s : Strands R) : Prop where
  /-- an arc between opposite sides crosses those between the other sides, both diagonals and the arcs from the other
  sides to opposite corners -/
  ac : s.ac ≠ 0 → s.bd = 0 ∧ s.along = 0 ∧ s.across = 0 ∧ s.bTR = 0 ∧ s.bBR = 0 ∧ s.dTL = 0 ∧ s.dBL = 0
  bd : s.bd ≠ 0 → s.ac = 0 ∧ s.along = 0 ∧ s.across = 0 ∧ s.aBL = 0 ∧ s.aBR = 0 ∧ s.cTL = 0 ∧ s.cTR = 0
  /-- an arc along `e` crosses the other diagonal, the corner arcs at its ends, and arcs that go from one side of `e`
  to the other -/
  along : s.along ≠ 0 → s.across = 0 ∧ s.tr = 0 ∧ s.bl = 0 ∧ s.aBR = 0 ∧ s.bBR = 0 ∧ s.cTL = 0 ∧ s.dTL = 0
  across : s.across ≠ 0 → s.along = 0 ∧ s.tl = 0 ∧ s.br = 0 ∧ s.aBL = 0 ∧ s.bTR = 0 ∧ s.cTR = 0 ∧ s.dBL = 0
  /-- an arc into a corner crosses the corner arcs there, and the arcs from a side to a corner that start on one side of
  it and end on the other -/
  aBL : s.aBL ≠ 0 → s.bl = 0 ∧ s.bTR = 0 ∧ s.bBR = 0 ∧ s.cTL = 0 ∧ s.dTL = 0
  aBR : s.aBR ≠ 0 → s.br = 0 ∧ s.bTR = 0 ∧ s.cTR = 0 ∧ s.dTL = 0 ∧ s.dBL = 0
  bTR : s.bTR ≠ 0 → s.tr = 0 ∧ s.aBL = 0 ∧ s.aBR = 0 ∧ s.cTL = 0 ∧ s.dTL = 0
  bBR : s.bBR ≠ 0 → s.br = 0 ∧ s.aBL = 0 ∧ s.cTL = 0 ∧ s.cTR = 0 ∧ s.dBL = 0
  cTL : s.cTL ≠ 0 → s.tl = 0 ∧ s.aBL = 0 ∧ s.bTR = 0 ∧ s.bBR = 0 ∧ s.dBL = 0
  cTR : s.cTR ≠ 0 → s.tr = 0 ∧ s.aBR = 0 ∧ s.bBR = 0 ∧ s.dTL = 0 ∧ s.dBL = 0
  dTL : s.dTL ≠ 0 → s.tl = 0 ∧ s.aBL = 0 ∧ s.aBR = 0 ∧ s.bTR = 0 ∧ s.cTR = 0
  dBL : s.dBL ≠ 0 → s.bl = 0 ∧ s.aBR = 0 ∧ s.bBR = 0 ∧ s.cTL = 0 ∧ s.cTR = 0

/-- How many arcs meet each side. -/
def a (s : Strands R) : R := s.tl + s.tr + s.ac + s.aBL + s.aBR
def b (s : Strands R) : R := s.tl + s.bl + s.bd + s.bTR + s.bBR
def c (s : Strands R) : R := s.bl + s.br + s.ac + s.cTL + s.cTR
def d (s : Strands R) : R := s.tr + s.br + s.bd + s.dTL + s.dBL

/-- How many arcs cross the diagonal `e`, or minus the number of arcs parallel to it. -/
def e (s : Strands R) : R :=
  s.tr + s.bl + s.ac + s.bd + s.aBR + s.bBR + s.cTL + s.dTL + s.across - s.along

/-- How many arcs cross the diagonal `e'`, or minus the number of arcs parallel to it. -/
def e' (s : Strands R) : R :=
  s.tl + s.br + s.ac + s.bd + s.aBL + s.bTR + s.cTR + s.dBL + s.along - s.across

end Strands
end Curver
