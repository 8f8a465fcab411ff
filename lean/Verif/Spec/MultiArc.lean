import Verif.Spec.LamClass
import Verif.Model.MappingEq

/-!
# Specification: multiarcs and the curves around them
-/

namespace Curver
namespace Lam

/-- `X` and `Y` can be drawn without crossings: together they form a lamination. -/
def DisjointFrom (X Y : Lam Int) : Prop := ∃ S : Lam Int, S.Consistent ∧ S.IsUnion X Y

/-- `L` consists of arcs. -/
def OnlyHasArcs (L : Lam Int) : Prop := ∀ X, L.HasPart X → ¬ X.NoArcs

/-- The components of `L` are the edges of a triangulation of the surface: there are as many of them as edges in any other triangulation, all of them are arcs, and no two are parallel. -/
def IsTriangulation (L : Lam Int) : Prop :=
  ∃ D, L.Unions D ∧ (∀ X ∈ D, X.Connected ∧ ¬ X.NoArcs) ∧ D.Pairwise (fun X Y => X.eqv Y = false) ∧ D.length = L.tri.zeta

/-- `L` cuts the surface into polygons: each closed curve that does not cross `L`, even one that just goes round a vertex, is trivial. -/
def CutsIntoPolygons (L : Lam Int) : Prop := ∀ X : Lam Int, X.NoArcs → X.DisjointFrom L → X.Blank

/-- An arc of `s`, which runs along edges, ends at the vertex where the oriented edge `x` starts. -/
def EndsAt (s : Lam Int) (x : Int) : Prop := ∃ v, s.tri.vertexOf x = .ok v ∧ ∃ y ∈ v, s.w y < 0

/-- No closed curve that does not cross `s` crosses the edge `x`: the edge can be moved into the union of a neighbourhood of `s` and of discs. -/
def Sheltered (s : Lam Int) (x : Int) : Prop := ∀ M : Lam Int, M.NoArcs → M.DisjointFrom s → M.w x = 0

open Classical in
/-- `B` is the boundary of a neighbourhood of `s`, a multiarc that runs along edges: where an edge cannot be moved into the neighbourhood (and discs), `B` crosses it once near each end that the
neighbourhood contains. -/
structure IsOutline (B s : Lam Int) : Prop where
  tri : B.tri = s.tri
  sheltered : ∀ x, s.tri.IsLabel x → s.Sheltered x → B.w x = 0
  outside : ∀ x, s.tri.IsLabel x → ¬ s.Sheltered x → B.w x = (if s.EndsAt x then 1 else 0) + (if s.EndsAt (inv x) then 1 else 0)

end Lam
end Curver
