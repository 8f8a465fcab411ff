import Verif.Model.Load
import Verif.Spec.PL

/-!
# Specification of `load(g, n)`
-/

namespace Curver

/-- The curves: `a_i` and `b_i` for each handle, `c_i` between consecutive handles, `d_i` from the first handles to the `i`-th one and
`p_i` around punctures. -/
def IsCurveName (g n : Int) (x : GenName) : Prop :=
  (x.1 = 'a' ∧ 0 ≤ x.2 ∧ x.2 < g) ∨ (x.1 = 'b' ∧ 0 ≤ x.2 ∧ x.2 < g) ∨ (x.1 = 'c' ∧ 0 ≤ x.2 ∧ x.2 < g - 1) ∨
  (x.1 = 'd' ∧ 1 ≤ x.2 ∧ x.2 < g) ∨ (x.1 = 'p' ∧ 1 ≤ g ∧ 1 ≤ x.2 ∧ x.2 < n)

/-- The arcs `s_i`, when there are at least two punctures. -/
def IsArcName (n : Int) (x : GenName) : Prop := x.1 = 's' ∧ 2 ≤ n ∧ 0 ≤ x.2 ∧ x.2 < n

/-- A curve on the triangulation: no arcs, and not empty. -/
def IsLoadedCurve (T : Triangulation) (L : Lam Int) : Prop := L.tri = T ∧ L.NoArcs ∧ ∃ e, T.IsLabel e ∧ 0 < L.w e

/-- An edge of the triangulation, as an arc, which joins two different vertices. -/
def IsLoadedArc (T : Triangulation) (L : Lam Int) : Prop := L.tri = T ∧ L.geometric.length = T.zeta ∧
  ∃ e, T.IsLabel e ∧ (∀ e', T.IsLabel e' → L.w e' = if norm e' = norm e then -1 else 0) ∧
    ∃ v w, T.vertexOf e = .ok v ∧ T.vertexOf (inv e) = .ok w ∧ v ≠ w

/-- What `load(g, n)` should return: a connected triangulation with `6 g + 3 n - 6` edges of the surface of genus `g` with `n`
punctures, the named curves and the named arcs. -/
structure Loads (g n : Int) (S : Loaded) : Prop where
  valid : S.tri.Valid
  zeta : (S.tri.zeta : Int) = 6 * g + 3 * n - 6
  vertices : S.tri.numVertices = .ok n.toNat
  connected : S.tri.isConnected = .ok true
  surface : S.tri.surface = .ok [(S.tri.labels, (g, n, 2 - 2 * g - n))]
  curveNames : ∀ x, S.curves.contains x = true ↔ IsCurveName g n x
  arcNames : ∀ x, S.arcs.contains x = true ↔ IsArcName n x
  curves : ∀ x L, S.curves.get x = .ok L → IsLoadedCurve S.tri L
  arcs : ∀ x L, S.arcs.get x = .ok L → IsLoadedArc S.tri L

end Curver
