import Verif.Spec.PL
import Verif.Model.Shorten

/-!
# Specification vocabulary for `shorten` and `encode_twist`
-/

namespace Curver
namespace Lam

/-- `s` is put together from components of three kinds, which one can read off the triangulation: `m e` copies of the loop around the vertex that the
oriented edge `e` starts from, arcs along edges, and curves that go round an edge. -/
structure ShortSum (s : Lam Int) (m : Int → Int) (items : List (Lam Int × Int)) : Prop where
  wf : s.WellFormed
  nonneg : ∀ e, s.tri.IsLabel e → 0 ≤ m e
  vertex : ∀ e v, s.tri.IsLabel e → s.tri.vertexOf e = .ok v → ∀ e' ∈ v, m e = m e'
  each : ∀ p ∈ items, 0 < p.2 ∧ ∃ e, s.tri.IsLabel e ∧ (p.1 = s.tri.edgeArcOf e ∨ s.tri.edgeCurve e = .ok p.1)
  distinct : items.Pairwise (fun p q => p.1.eqv q.1 = false)
  sum : ∀ e, s.tri.IsLabel e → s.w e = m e + m (Curver.inv e) + (items.map (fun p => p.2 * p.1.w e)).sum

end Lam
end Curver
