import Verif.Model.Triangulation

/-!
# Specification vocabulary for triangulations
-/

namespace Curver
namespace Triangulation

/-- `e` is one of `0, ..., zeta-1, ~0, ..., ~(zeta-1)`. -/
def IsLabel (T : Triangulation) (e : Int) : Prop := -(T.zeta : Int) ≤ e ∧ e < T.zeta

instance (T : Triangulation) (e : Int) : Decidable (T.IsLabel e) := by unfold IsLabel; infer_instance

/-- The triangles of `T` include one with sides `a`, `b`, `c` in this cyclic order. -/
def Glues (T : Triangulation) (a b c : Int) : Prop :=
  ⟨a, b, c⟩ ∈ T.triangles ∨ ⟨b, c, a⟩ ∈ T.triangles ∨ ⟨c, a, b⟩ ∈ T.triangles

/-- A well formed triangulation: each oriented edge is a side of exactly one triangle (once), each triangle is listed
from its least side on and the triangles are listed in increasing order. -/
structure Valid (T : Triangulation) : Prop where
  complete : T.signature.Perm T.labels
  canonical : ∀ t ∈ T.triangles, t.x ≤ t.y ∧ t.x ≤ t.z
  sorted : T.triangles.Pairwise Tri.le

/-- `f` is the edge after `e` when rotating anticlockwise about the tail of `e`: the triangle to the left of `e` is
`(e, b, ~f)`. -/
def RotatesTo (T : Triangulation) (e f : Int) : Prop := ∃ b, T.Glues e b (inv f)

/-- `ls` gives each of `0, ..., zeta-1, ~0, ..., ~(zeta-1)` exactly once, in triples, where `2 * zeta` is the number
of labels given. -/
def CompleteLabelling (ls : List (List Int)) : Prop :=
  (∀ l ∈ ls, l.length = 3) ∧ ∃ zeta : Nat, ls.flatten.length = 2 * zeta ∧
    ∀ i : Nat, i < zeta → ls.flatten.count (i : Int) = 1 ∧ ls.flatten.count (inv i) = 1

end Triangulation
end Curver
