import Mathlib.Data.Nat.Count
import Verif.Spec.Flip

/-!
# Specification: disjoint unions of laminations

A lamination meets an edge `x` of the triangulation in `L.w x` points or, when that number is negative, it has `- L.w x` arcs parallel to `x`.  These points or arcs are numbered `0`, `1`, …
from the tail of `x` to its head (the arcs are numbered in some order across the edge).  In the triangle with the sides `x`, `y`, `z`, strands of the lamination go around the corner between
`z` and `x`, and the one number `t` starts at the point number `t` of `x` and ends at the point number `t` of `z`, counted from that corner.
-/

namespace Curver
namespace Lam

/-- Every point is red or not, and the strands do not change their colour. -/
structure Colouring (L : Lam Int) (red : Int → Nat → Bool) : Prop where
  /-- The points of an edge seen from its other end. -/
  back : ∀ x t, L.tri.IsLabel x → t < (L.w x).natAbs → red (inv x) t = red x ((L.w x).natAbs - 1 - t)
  /-- Two points on a strand around a corner; there are `min x z ((x + z - y) / 2)` of them. -/
  corner : ∀ x y z (t : Nat), L.tri.Glues x y z → (t : Int) + 1 ≤ max (L.w x) 0 → (t : Int) + 1 ≤ max (L.w z) 0 →
    2 * ((t : Int) + 1) ≤ max (L.w x) 0 + max (L.w z) 0 - max (L.w y) 0 → red x t = red (inv z) t

/-- The lamination that consists of the strands of one colour. -/
def IsPart (L : Lam Int) (red : Int → Nat → Bool) (b : Bool) (X : Lam Int) : Prop :=
  X.WellFormed ∧ X.tri = L.tri ∧ ∀ x, L.tri.IsLabel x → X.w x = (L.w x).sign * Nat.count (fun t => red x t = b) (L.w x).natAbs

/-- `L` is the disjoint union of `X` and `Y`: the strands of `L` can be coloured so that `X` consists of the red ones and `Y` of the other ones. -/
def IsUnion (L X Y : Lam Int) : Prop := ∃ red, L.Colouring red ∧ L.IsPart red true X ∧ L.IsPart red false Y

/-- The lamination without strands. -/
def Blank (L : Lam Int) : Prop := ∀ x, L.tri.IsLabel x → L.w x = 0

/-- A lamination that is not the disjoint union of two smaller ones. -/
def Connected (L : Lam Int) : Prop := ¬ L.Blank ∧ ∀ X Y, L.IsUnion X Y → X.Blank ∨ Y.Blank

/-- `L` is the disjoint union of the laminations in the list. -/
inductive Unions : Lam Int → List (Lam Int) → Prop
  | nil {L} : L.Blank → Unions L []
  | cons {L X N Xs} : L.IsUnion X N → Unions N Xs → Unions L (X :: Xs)

end Lam
end Curver
