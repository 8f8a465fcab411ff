import Verif.Py

/-!
# Model of curver/kernel/structures.py: `UnionFind`
-/

namespace Curver

/-- structures.py:10-15 `UnionFind`: the dictionaries `parent` and `rank`.  (`self.items` is not used by the methods.) -/
structure UnionFind (κ : Type _) where
  parent : PyDict κ κ
  rank : PyDict κ Nat
  deriving DecidableEq

namespace UnionFind
variable {κ : Type _} [DecidableEq κ]

/-- structures.py:12-15 `__init__`. -/
def create (items : List κ) : UnionFind κ where
  parent := PyDict.ofList (items.map fun i => (i, i))
  rank := PyDict.ofList (items.map fun i => (i, 0))

/-- structures.py:31-33, first loop of `__call__`: follow parents up to the root. -/
def findRoot (parent : PyDict κ κ) : Nat → κ → Py κ
  | 0, _ => .error .outOfFuel
  | fuel + 1, root => do
    let p ← parent.get root
    if p ≠ root then findRoot parent fuel p else return root

/-- structures.py:34-35, second loop of `__call__`.  `x, self.parent[x] = self.parent[x], root` evaluates the right
hand side, then assigns `x`, and then assigns `self.parent` *at the new* `x`. -/
def compress : Nat → PyDict κ κ → κ → κ → Py (PyDict κ κ)
  | 0, _, _, _ => .error .outOfFuel
  | fuel + 1, parent, x, root => do
    let p ← parent.get x
    if p ≠ root then compress fuel (parent.set p root) p root else return parent

/-- structures.py:29-36 `__call__(x)`: the root of `x` and the mutated structure. -/
def find (s : UnionFind κ) (x : κ) : Py (κ × UnionFind κ) := do
  let fuel := s.parent.length + 1
  let root ← findRoot s.parent fuel x
  let parent' ← compress fuel s.parent x root
  return (root, { s with parent := parent' })

/-- structures.py:37-46 `union2(x, y)`. -/
def union2 (s : UnionFind κ) (x y : κ) : Py (UnionFind κ) := do
  let (rx, s) ← s.find x
  let (ry, s) ← s.find y
  let kx ← s.rank.get x
  let ky ← s.rank.get y
  if kx > ky then return { s with parent := s.parent.set ry rx }
  else if kx < ky then return { s with parent := s.parent.set rx ry }
  else if rx ≠ ry then
    let k ← s.rank.get rx
    return { parent := s.parent.set ry rx, rank := s.rank.set rx (k + 1) }
  else return s

/-- structures.py:47-50 `union(*args)`. -/
def unionMany (s : UnionFind κ) : List κ → Py (UnionFind κ)
  | [] => .ok s
  | a :: l => (a :: l).foldlM (fun s item => s.union2 a item) s

/-- structures.py:18-20: the loop of `__iter__`, `groups` being a `defaultdict(list)`. -/
def iterLoop : UnionFind κ → PyDict κ (List κ) → List κ → Py (UnionFind κ × PyDict κ (List κ))
  | s, groups, [] => .ok (s, groups)
  | s, groups, item :: rest => do
    let (r, s') ← s.find item
    iterLoop s' (groups.set r ((groups.get? r).getD [] ++ [item])) rest

/-- structures.py:16-21 `__iter__`: the list of groups, and the mutated structure. -/
def groups (s : UnionFind κ) : Py (List (List κ) × UnionFind κ) := do
  let (s', g) ← iterLoop s [] s.parent.keys
  return (g.values, s')

/-- structures.py:22-23 `__len__`. -/
def len (s : UnionFind κ) : Py Nat := do
  let l ← s.parent.keys.mapM (fun item => do
    let p ← s.parent.get item
    return if p = item then 1 else 0)
  return l.sum

end UnionFind
end Curver
