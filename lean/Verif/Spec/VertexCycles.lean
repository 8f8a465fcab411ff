import Mathlib.Data.List.Rotate
import Verif.Spec.LamClass
import Verif.Model.VertexCycles

/-!
# Specification: vertex cycles
-/

namespace Curver

/-- A closed path in the directed graph with the given edges which visits no node twice. -/
def SimpleCycle (edges : List (Int × Int)) (cycle : List Int) : Prop := cycle ≠ [] ∧ cycle.Nodup ∧ ∀ p ∈ cycle.zip (cycle.rotate 1), p ∈ edges

/-- What `networkx.simple_cycles` does: it lists simple cycles only, and each of them, from one of its nodes on. -/
def ListsCycles (cycles : List (Int × Int) → List (List Int)) : Prop := ∀ edges, (∀ c ∈ cycles edges, SimpleCycle edges c) ∧ ∀ c, SimpleCycle edges c → ∃ d ∈ cycles edges, c.IsRotated d

namespace Lam

/-- The normal arcs that `K` consists of are also in `L`: where there are arcs of `K` in the corner to the left of an edge, there are arcs of `L`. -/
def UsesArcsOf (K L : Lam Int) : Prop := K.tri = L.tri ∧ ∀ x, L.tri.IsLabel x → ∀ l, K.leftWeight x = .ok l → l ≠ 0 → ∃ l', L.leftWeight x = .ok l' ∧ l' ≠ 0

/-- `K` is a vertex cycle of `L`: a curve that only uses the normal arcs of `L` and passes through each edge at most twice. -/
def IsVertexCycle (K L : Lam Int) : Prop := K.Connected ∧ K.NoArcs ∧ K.UsesArcsOf L ∧ ∀ x, L.tri.IsLabel x → K.w x ≤ 2

end Lam
end Curver
