import Verif.Spec.MultiArc
import Verif.Model.Peripheral

/-!
# Specification: the vertices that arcs end at
-/

namespace Curver
namespace Lam

/-- Some strand of `L` ends at the vertex `v` (the list of the oriented edges that start there): the curve that goes round `v` crosses `L`, however it is drawn. -/
def Reaches (L : Lam Int) (v : List Int) : Prop := ¬ (L.tri.curveFromCutSequence v : Lam Int).DisjointFrom L

/-- `X` ends at exactly two vertices. -/
def TwoEnds (X : Lam Int) : Prop :=
  ∃ vs v u, X.tri.vertices = .ok vs ∧ v ∈ vs ∧ u ∈ vs ∧ v ≠ u ∧ ∀ t ∈ vs, X.Reaches t ↔ t = v ∨ t = u

/-- `X` and `Y` do not end at the same vertex. -/
def EndApart (X Y : Lam Int) : Prop := ∀ vs, X.tri.vertices = .ok vs → ∀ v ∈ vs, ¬ (X.Reaches v ∧ Y.Reaches v)

/-- The components of `L` all run between two different vertices, and no two of them have an end in common. -/
def DistinctEnds (L : Lam Int) : Prop := ∃ D, L.Unions D ∧ (∀ X ∈ D, X.Connected ∧ X.TwoEnds) ∧ D.Pairwise EndApart

end Lam
end Curver
