import Verif.Model.Finite
import Verif.Spec.Mcg

/-!
# Specification vocabulary for finite subgroups
-/

namespace Curver

/-- The letters, multiplied with `*` from right to left, give this mapping class. -/
inductive IsProduct (generators : PyDict Str Enc) : List Str → Enc → Prop
  | single (l : Str) (g : Enc) (h : generators.get? l = some g) : IsProduct generators [l] g
  | cons (l : Str) (g : Enc) (ls : List Str) (x y : Enc) (h : generators.get? l = some g) (hx : IsProduct generators ls x)
      (hy : g.mul x = .ok y) : IsProduct generators (l :: ls) y

/-- A dictionary of legal mapping classes of one triangulation. -/
structure GeneratorsOn (T : Triangulation) (generators : PyDict Str Enc) : Prop where
  nonempty : generators ≠ []
  nodup : generators.keys.Nodup
  legal : ∀ name h, generators.get? name = some h → h.Legal ∧ h.kind = .mappingClass ∧ h.source = T

/-- No string is a concatenation of names in two ways. -/
def UniquelySpelled (names : List Str) : Prop :=
  ∀ u v : List Str, (∀ l ∈ u, l ∈ names) → (∀ l ∈ v, l ∈ names) → u.flatten = v.flatten → u = v

/-- Two mapping classes are `==`. -/
def Enc.Equal (h k : Enc) : Prop := h.eq k = .ok true

end Curver
