import Verif.Model.Pachner
import Verif.Spec.PL

/-!
# Specification vocabulary for 1-3 Pachner moves
-/

namespace Curver

/-- `T'` arises from `T` by placing a new vertex inside each triangle of `T` that belongs to `chosen` and joining it to the three
corners.  In the triangle with sides `a`, `b`, `c` the new edges `s`, `t`, `u` lie opposite `a`, `b`, `c`: the edge `s` joins
the new vertex to the common end of `b` and `c`. -/
structure Subdivides (T : Triangulation) (chosen : List Tri) (T' : Triangulation) : Prop where
  valid : T'.Valid
  zeta : T'.zeta = T.zeta + 3 * (T.triangles.filter (· ∈ chosen)).length
  kept : ∀ t ∈ T.triangles, t ∉ chosen → T'.Glues t.x t.y t.z
  split : ∀ t ∈ T.triangles, t ∈ chosen → ∃ s t' u : Int, (T.zeta : Int) ≤ s ∧ (T.zeta : Int) ≤ t' ∧ (T.zeta : Int) ≤ u ∧
    T'.Glues t.x (inv u) t' ∧ T'.Glues t.y (inv s) u ∧ T'.Glues t.z (inv t') s

/-- `L'` crosses the old edges as often as `L`, and each new edge as often as `L` has strands around the corner which the new edge
divides. -/
structure CrossesAs {R : Type} [CommRing R] [LinearOrder R] [Halvable R] (L L' : Lam R) : Prop where
  length : L'.geometric.length = L'.tri.zeta
  old : ∀ e, L.tri.IsLabel e → L'.w e = L.w e
  new : ∀ a b c s t u, L.tri.Glues a b c → L'.tri.Glues a (inv u) t → L'.tri.Glues b (inv s) u → L'.tri.Glues c (inv t) s →
    L.dualWeight a = .ok (L'.w s) ∧ L.dualWeight b = .ok (L'.w t) ∧ L.dualWeight c = .ok (L'.w u)

end Curver
