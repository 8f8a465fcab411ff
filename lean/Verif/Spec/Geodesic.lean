import Verif.Model.CurveGraph
import Verif.Spec.LamClass
import Verif.Spec.MultiArc

/-!
# Specification: walks in the curve complex
-/

namespace Curver
namespace CurveGraph

/-- a multicurve on `T` (closed curves, not empty), whose class is right -/
def MultiCurveOn (T : Triangulation) (M : Lam Int) : Prop := M.tri = T ∧ M.Consistent ∧ M.cls.isMultiCurve = true ∧ M.Describes M.cls

/-- There is an edge of the complex of multicurves: they can be drawn without crossings, and no component is in both. -/
def Adjacent (M N : Lam Int) : Prop := M.DisjointFrom N ∧ ¬ ∃ X, M.HasPart X ∧ N.HasPart X

/-- a walk from `a` to `b` in the complex of multicurves -/
def IsWalk (T : Triangulation) (a b : Lam Int) (p : List (Lam Int)) : Prop :=
  (∀ M ∈ p, MultiCurveOn T M) ∧ (∃ x, p.head? = some x ∧ x.eqv a = true) ∧ (∃ z, p.getLast? = some z ∧ z.eqv b = true) ∧ p.IsChain Adjacent

/-- joined by one of the edges -/
def Joined (edges : List (Lam Int × Lam Int)) (u v : Lam Int) : Prop := ∃ e ∈ edges, u.eqv e.1 = true ∧ v.eqv e.2 = true ∨ u.eqv e.2 = true ∧ v.eqv e.1 = true

/-- a walk from `a` to `b` in the graph with these edges -/
def GraphWalk (edges : List (Lam Int × Lam Int)) (a b : Lam Int) (p : List (Lam Int)) : Prop :=
  (∀ x ∈ p, (x = a ∨ x = b) ∨ ∃ e ∈ edges, x = e.1 ∨ x = e.2) ∧ (∃ x, p.head? = some x ∧ x.eqv a = true) ∧ (∃ z, p.getLast? = some z ∧ z.eqv b = true) ∧ p.IsChain (Joined edges)

/-- What `networkx.shortest_path` does: when it returns, `a` and `b` are nodes of the graph and the result is a walk from `a` to `b`, and there is none with fewer nodes. -/
def FindsShortest (shortest : List (Lam Int × Lam Int) → Lam Int → Lam Int → Py (List (Lam Int))) : Prop := ∀ edges a b p, shortest edges a b = .ok p →
  (∃ v, Joined edges a v) ∧ (∃ v, Joined edges b v) ∧ GraphWalk edges a b p ∧ ∀ q, GraphWalk edges a b q → p.length ≤ q.length

end CurveGraph
end Curver
