import Verif.Spec.Flip
import Verif.Model.HalfTwist

/-!
# Specification vocabulary for half twists
-/

namespace Curver

/-- `c` is the arc that runs along the edge `a` of `T`: its weight is -1 there and 0 on the other edges. -/
structure Lam.IsEdgeArc (c : Lam Int) (T : Triangulation) (a : Int) : Prop where
  tri : c.tri = T
  cls : c.cls = .arc
  length : c.geometric.length = T.zeta
  at_edge : c.w a = -1
  other : ∀ x, T.IsLabel x → x ≠ a → x ≠ inv a → c.w x = 0

end Curver
