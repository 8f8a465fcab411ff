import Verif.Spec.Union
import Verif.Spec.PL
import Verif.Model.LamArith

/-!
# Specification: the components of a lamination
-/

namespace Curver
namespace Lam

/-- `cs` is the dictionary of the components of `L` and their multiplicities. -/
structure IsComponents (L : Lam Int) (cs : List (Lam Int × Int)) : Prop where
  /-- The lamination is the disjoint union of its components, each taken as often as its multiplicity says. -/
  union : L.Unions (cs.flatMap (fun p => List.replicate p.2.toNat p.1))
  /-- The components are connected. -/
  connected : ∀ p ∈ cs, p.1.Connected
  /-- The multiplicities are positive. -/
  mult : ∀ p ∈ cs, 0 < p.2
  /-- No component is listed twice. -/
  apart : cs.Pairwise (fun p q => p.1.eqv q.1 = false)
  /-- The components are objects of class `Curve` or `Arc`: arcs are those that have an end. -/
  cls : ∀ p ∈ cs, (p.1.cls = .curve ∧ p.1.NoArcs) ∨ (p.1.cls = .arc ∧ ¬ p.1.NoArcs)

/-- An object of class `Curve` or `Arc` is one. -/
def ClassRight (L : Lam Int) : Prop := (L.cls = .curve → L.Connected ∧ L.NoArcs) ∧ (L.cls = .arc → L.Connected ∧ ¬ L.NoArcs)

end Lam
end Curver
