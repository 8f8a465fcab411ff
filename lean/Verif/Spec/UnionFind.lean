import Verif.Model.UnionFind
import Mathlib.Logic.Relation

/-!
# Specification of union-find

Abstractly a union-find object is a set of items with the equivalence relation generated by the unions made so far.
-/

namespace Curver
namespace UnionFind
variable {κ : Type _} [DecidableEq κ]

/-- The operations a user can perform. -/
inductive Op (κ : Type _) where
  | find (x : κ)
  | union2 (x y : κ)
  | union (args : List κ)
  | iterate
  deriving Repr

/-- one operation on the real structure (results dropped) -/
def Op.run (s : UnionFind κ) : Op κ → Py (UnionFind κ)
  | .find x => do let (_, s) ← s.find x; return s
  | .union2 x y => s.union2 x y
  | .union args => s.unionMany args
  | .iterate => do let (_, s) ← s.groups; return s

/-- a history of operations -/
def run (s : UnionFind κ) (ops : List (Op κ)) : Py (UnionFind κ) := ops.foldlM Op.run s

/-- the items mentioned by an operation -/
def Op.items : Op κ → List κ
  | .find x => [x]
  | .union2 x y => [x, y]
  | .union args => args
  | .iterate => []

/-- the pairs an operation declares to be equivalent -/
def Op.pairs : Op κ → List (κ × κ)
  | .find _ => []
  | .union2 x y => [(x, y)]
  | .union [] => []
  | .union (a :: l) => (a :: l).map (fun b => (a, b))
  | .iterate => []

/-- the equivalence relation generated by a history -/
def Connected (ops : List (Op κ)) : κ → κ → Prop :=
  Relation.EqvGen (fun x y => ∃ op ∈ ops, (x, y) ∈ op.pairs)

end UnionFind
end Curver
