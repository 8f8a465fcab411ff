import Verif.Spec.Triangulation
import Verif.Spec.Flip

/-!
# Specification: separating curves
-/

namespace Curver
namespace Lam

/-- `side` tells on which side of `c` the vertices are (`side x` is the side of the vertex where the oriented edge `x` starts): an edge crosses `c` an odd number of times exactly if its ends are on different sides. -/
def VertexSides (T : Triangulation) (w : Int → Int) (side : Int → Bool) : Prop :=
  (∀ x y z, T.Glues x y z → side x = side (inv z)) ∧ ∀ x, T.IsLabel x → (side x ≠ side (inv x) ↔ w x % 2 = 1)

/-- The curve `c` has two sides in the surface: the vertices can be divided so that the edges which cross `c` an odd number of times are those between the two sides.  (A path that starts and ends at the same vertex then crosses `c` an even number of times.) -/
def Separates (c : Lam Int) : Prop := ∃ side, VertexSides c.tri c.w side

/-- One can walk along edges from the vertex where `u` starts to the one where `x` starts, and crosses `c` altogether `n` times.  (Two oriented edges start at the same vertex if one follows the other round that vertex.) -/
inductive Walk (c : Lam Int) (u : Int) : Int → Int → Prop where
  | stay : Walk c u u 0
  | turn {x y z n} : Walk c u x n → c.tri.Glues x y z → Walk c u (inv z) n
  | back {x y z n} : Walk c u (inv z) n → c.tri.Glues x y z → Walk c u x n
  | along {x n} : Walk c u x n → c.tri.IsLabel x → Walk c u (inv x) (n + c.w x)

/-- Every closed walk crosses `c` an even number of times: one cannot get from one side of `c` to the other. -/
def CutsApart (c : Lam Int) : Prop := ∀ u n, c.tri.IsLabel u → Walk c u u n → n % 2 = 0

end Lam
end Curver
