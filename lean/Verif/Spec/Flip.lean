import Verif.Model.Moves
import Verif.Spec.Triangulation

/-!
# Specification vocabulary for flips and laminations
-/

namespace Curver
namespace Triangulation

/-- Some triangle has both `e` and `f` as sides. -/
def SameTriangle (T : Triangulation) (e f : Int) : Prop := ∃ t ∈ T.triangles, e ∈ t.labels ∧ f ∈ t.labels

/-- The edge `e` lies in two distinct triangles. -/
def Flippable (T : Triangulation) (e : Int) : Prop := T.IsLabel e ∧ ¬ T.SameTriangle e (inv e)

/-- The (two-sided) edges `es` are edges of `T` and lie in distinct triangles: `2 * es.length` of them. -/
def DisjointSupport (T : Triangulation) (es : List Int) : Prop :=
  (∀ e ∈ es, T.IsLabel e) ∧ (es.flatMap (fun e => [e, inv e])).Pairwise (fun e f => ¬ T.SameTriangle e f)

/-- `T'` is obtained from `T` by replacing, for each `e` of `es`, the two triangles `(e, a, b)` and `(~e, c, d)` by the
two triangles on the other diagonal of the square `a, b, c, d`, which keeps the label of `e`: it is oriented from between
`a` and `b` to between `c` and `d` when `e` is a positive label, and the other way when it is a negative one. -/
structure IsMultiflip (T : Triangulation) (es : List Int) (T' : Triangulation) : Prop where
  valid : T'.Valid
  zeta : T'.zeta = T.zeta
  kept : ∀ x y z, T.Glues x y z → (∀ e ∈ es, ∀ u ∈ [x, y, z], u ≠ e ∧ u ≠ inv e) → T'.Glues x y z
  new : ∀ e ∈ es, ∀ a b c d, T.Glues e a b → T.Glues (inv e) c d →
    (0 ≤ e → T'.Glues e d a ∧ T'.Glues (inv e) b c) ∧ (e < 0 → T'.Glues (inv e) d a ∧ T'.Glues e b c)

end Triangulation

namespace Lam
variable {R : Type} [CommRing R] [LinearOrder R] [Halvable R]

/-- The weight of an edge. -/
def w (L : Lam R) (e : Int) : R := (L.geometric[(norm e).toNat]?).getD 0

/-- One weight for each edge of a valid triangulation. -/
def WellFormed (L : Lam R) : Prop := L.tri.Valid ∧ L.geometric.length = L.tri.zeta

/-- One weight for each edge and the weights of each triangle can be joined up by arcs: all dual weights exist. -/
def Consistent (L : Lam R) : Prop :=
  L.WellFormed ∧ ∀ e, L.tri.IsLabel e → ∃ w, L.dualWeight e = .ok w

/-- `L'` has the class and weights of `L`, except on the flipped edges `es`, whose weights are given by the flip formula
from the weights of their squares. -/
structure FlipsTo (es : List Int) (L L' : Lam R) : Prop where
  cls : L'.cls = L.cls
  length : L'.geometric.length = L.geometric.length
  kept : ∀ u, L.tri.IsLabel u → (∀ e ∈ es, u ≠ e ∧ u ≠ inv e) → L'.w u = L.w u
  new : ∀ e ∈ es, ∀ a b c d, L.tri.Glues e a b → L.tri.Glues (inv e) c d →
    flipWeight (max (L.w a) 0) (max (L.w b) 0) (max (L.w c) 0) (max (L.w d) 0) (L.w e) = .ok (L'.w e)

end Lam

namespace Triangulation

/-- The chain `x` (coefficients of the oriented edges) is a combination of boundaries of triangles: `c` gives, for each
oriented edge, the coefficient of the triangle to its left. -/
def NullHomologous (T : Triangulation) (x : Int → Int) : Prop :=
  ∃ c : Int → Int, (∀ a b d, T.Glues a b d → c a = c b) ∧ ∀ e, T.IsLabel e → x e = c e - c (inv e)

end Triangulation

namespace Hom

/-- The coefficient of an oriented edge. -/
def v (h : Hom) (e : Int) : Int := (h.algebraic[(norm e).toNat]?).getD 0 * sign e

/-- One coefficient for each edge of a valid triangulation. -/
def WellFormed (h : Hom) : Prop := h.tri.Valid ∧ h.algebraic.length = h.tri.zeta

/-- The classes differ by boundaries of triangles. -/
def Homologous (h h' : Hom) : Prop := h.tri = h'.tri ∧ h.tri.NullHomologous (fun e => h.v e - h'.v e)

end Hom
end Curver

namespace Curver

/-- Flip the edges of a list one at a time: the moves, in the order in which they are performed. -/
def flipOneByOne (T : Triangulation) : List Int → Py (List LMove)
  | [] => .ok []
  | e :: es => do
    let m ← T.encodeFlip e
    let ms ← flipOneByOne m.move.target es
    return m :: ms

/-- The triangulation reached by a sequence of moves starting at `T`. -/
def endOf (T : Triangulation) : List LMove → Triangulation
  | [] => T
  | m :: ms => endOf m.move.target ms

/-- Apply a sequence of moves to a lamination, the first move first. -/
def performLam {R : Type} [CommRing R] [LinearOrder R] [Halvable R] : List LMove → Lam R → Py (Lam R)
  | [], L => .ok L
  | m :: ms, L => do
    let L' ← m.move.applyLam L
    performLam ms L'

/-- Apply a sequence of moves to a homology class, the first move first. -/
def performHom : List LMove → Hom → Py Hom
  | [], h => .ok h
  | m :: ms, h => do
    let h' ← m.move.applyHom h
    performHom ms h'

end Curver
