import Verif.Py

/-!
# Model of `StraightLineProgram` (`curver/kernel/structures.py`, lines 52-189)

The constructor of the code guesses from the Python types whether its argument is a list of values
or a graph (lines 56-63); the model has one constructor for each (`ofValues`, `ofGraph`).  Node
numbers are natural numbers: Python's negative indices do not occur in the graphs the class builds.
-/

namespace Curver

/-- An entry of the graph: `Terminal(value)` or the number of another node
(`structures.py` 52, 57-63). -/
inductive Item (α : Type) where
  | term (v : α)
  | node (i : Nat)
  deriving DecidableEq, Repr

/-- `self.graph` before it is wrapped: node `i` is the list of its children
(`structures.py` 65). -/
abbrev SGraph (α : Type) := List (List (Item α))

/-- `StraightLineProgram` objects: the fields `graph`, `indices` and `num_children`
(`structures.py` 65-84). -/
structure SLP (α : Type) where
  graph : SGraph α
  indices : List Nat
  numChildren : List (Option Nat)
  deriving DecidableEq, Repr

namespace SLP
variable {α β : Type}

/-- The nested function `dfs` (`structures.py` 72-79).  State: `self.indices`, which has the same
elements as `used` (both are extended by `v` together, lines 78-79).  The argument `depth` bounds
the recursion depth: Python raises `RecursionError` when the recursion does not end. -/
def dfs (g : SGraph α) : Nat → Nat → List Nat → Py (List Nat)
  | 0, _, _ => .error .outOfFuel
  | depth + 1, v, idx => do
    let children ← pyGet g v
    let idx ← children.foldlM (fun idx c =>
      match c with
      | .term _ => pure idx
      | .node j => if j ∈ idx then pure idx else dfs g depth j idx) idx
    pure (idx ++ [v])

/-- One summand of line 84: `1 if isinstance(item, Terminal) else self.num_children[item]`
(`None` in a sum is a `TypeError`). -/
def itemCount (nc : List (Option Nat)) : Item α → Py Nat
  | .term _ => .ok 1
  | .node j =>
    match nc[j]? with
    | none => .error .indexError
    | some none => .error .typeError
    | some (some n) => .ok n

/-- `sum(... for item in self(index))` (`structures.py` 84). -/
def itemsCount (nc : List (Option Nat)) (items : List (Item α)) : Py Nat := do
  let ns ← items.mapM (itemCount nc)
  pure ns.sum

/-- The loop filling `self.num_children` (`structures.py` 82-84). -/
def fillCounts (g : SGraph α) (indices : List Nat) (nc : List (Option Nat)) :
    Py (List (Option Nat)) :=
  indices.foldlM (fun nc i => do
    let items ← pyGet g i
    let n ← itemsCount nc items
    pure (nc.set i (some n))) nc

/-- The constructor applied to a graph (`structures.py` 56-84). -/
def ofGraph (g : SGraph α) : Py (SLP α) := do
  let indices ← dfs g (g.length + 1) 0 []
  let nc ← fillCounts g indices (List.replicate g.length none)
  pure ⟨g, indices, nc⟩

/-- The constructor applied to a list of values (`structures.py` 59-61). -/
def ofValues (xs : List α) : Py (SLP α) := ofGraph [xs.map Item.term]

/-- `__len__` (`structures.py` 101-102). -/
def len (p : SLP α) : Py Nat :=
  match p.numChildren[0]? with
  | none => .error .indexError
  | some none => .error .typeError
  | some (some n) => .ok n

/-- `size` (`structures.py` 103-106). -/
def size (p : SLP α) : Nat := p.graph.length

/-- The outcome of the `for image in self(index)` loop of `__getitem__`: a returned value, a jump to
another node with the remaining offset, or falling off the end of the children. -/
inductive Step (α : Type) where
  | found (v : α)
  | jump (i : Nat) (value : Nat)
  | ended (value : Nat)

/-- The body of `while True` in `__getitem__` (`structures.py` 118-129). -/
def scan (p : SLP α) : List (Item α) → Nat → Py (Step α)
  | [], value => pure (.ended value)
  | .term v :: items, value => if value = 0 then pure (.found v) else scan p items (value - 1)
  | .node j :: items, value => do
    let n ← itemCount (α := α) p.numChildren (.node j)
    if value < n then pure (.jump j value) else scan p items (value - n)

/-- `while True` of `__getitem__` (`structures.py` 117-129); the first argument bounds the number of
rounds.  When the children are exhausted without a jump the loop starts again at the same node. -/
def descend (p : SLP α) : Nat → Nat → Nat → Py α
  | 0, _, _ => .error .outOfFuel
  | rounds + 1, index, value => do
    let items ← pyGet p.graph index
    match ← scan p items value with
    | .found v => pure v
    | .jump j value => descend p rounds j value
    | .ended value => descend p rounds index value

/-- `__getitem__` for an integer (`structures.py` 108-131). -/
def getItem (p : SLP α) (value : Int) : Py α := do
  let n ← p.len
  if value ≥ n ∨ value < -(n : Int) then .error .indexError
  else descend p (p.graph.length + 1) 0 (if value < 0 then n + value else value).toNat

/-- The loop of `__iter__` (`structures.py` 133-140): the stack is kept with its top first, so that
`todo.extend(reversed(self(v)))` prepends the children in order.  The first argument bounds the
number of rounds. -/
def iterLoop (g : SGraph α) : Nat → List (Item α) → Py (List α)
  | _, [] => .ok []
  | 0, _ :: _ => .error .outOfFuel
  | rounds + 1, .term v :: todo => do
    let rest ← iterLoop g rounds todo
    pure (v :: rest)
  | rounds + 1, .node j :: todo => do
    let children ← pyGet g j
    iterLoop g rounds (children ++ todo)

/-- `list(self)` when iteration stops within the given number of rounds (`structures.py` 133-140). -/
def toList (p : SLP α) (rounds : Nat) : Py (List α) := iterLoop p.graph rounds [.node 0]

/-- Shifting one entry (`structures.py` 153). -/
def shiftItem (k : Nat) : Item α → Item α
  | .term v => .term v
  | .node i => .node (i + k)

/-- `__lshift__` (`structures.py` 152-153). -/
def shift (g : SGraph α) (k : Nat) : SGraph α := g.map (·.map (shiftItem k))

/-- `np.cumsum([1] + sizes)` started at `s` (`structures.py` 149). -/
def starts : Nat → List Nat → List Nat
  | s, [] => [s]
  | s, n :: ns => s :: starts (s + n) ns

/-- `StraightLineProgram.sum` (`structures.py` 142-150). -/
def sum (ps : List (SLP α)) : Py (SLP α) :=
  match ps with
  | [p] => pure p
  | _ =>
    let ss := starts 1 (ps.map size)
    ofGraph ([ss.dropLast.map Item.node] ++
      (ps.zip ss).flatMap (fun q => shift q.1.graph q.2))

/-- `__add__` (`structures.py` 157-158). -/
def add (p q : SLP α) : Py (SLP α) :=
  ofGraph ([[.node 1, .node (p.size + 1)]] ++ shift p.graph 1 ++ shift q.graph (p.size + 1))

/-- `[bool(int(x)) for x in bin(other)[2:]]` for positive numbers: binary digits, most significant
first (`structures.py` 167). -/
def binary (n : Nat) : List Bool := (go n n).reverse
where
  /-- least significant digit first; the first argument bounds the number of digits -/
  go : Nat → Nat → List Bool
    | 0, _ => []
    | _ + 1, 0 => []
    | k + 1, m + 1 => ((m + 1) % 2 == 1) :: go k ((m + 1) / 2)

/-- `[i+1 for i, b in enumerate(binary) if b]` counted from `s` (`structures.py` 169). -/
def expansion : Nat → List Bool → List (Item α)
  | _, [] => []
  | s, b :: bs => if b then .node (s + 1) :: expansion (s + 1) bs else expansion (s + 1) bs

/-- `__mul__` / `__rmul__` (`structures.py` 162-173). -/
def mul (p : SLP α) (other : Int) : Py (SLP α) := do
  pyAssert (other ≥ 0)
  if other = 0 then ofValues []
  else if other = 1 then pure p
  else
    let bits := binary other.toNat
    let binaryGraph : SGraph α :=
      (List.range (bits.length - 1)).map (fun i => [.node (i + 2), .node (i + 2)])
    ofGraph ([expansion 0 bits] ++ binaryGraph ++ shift p.graph (binaryGraph.length + 1))

/-- `reverse` (`structures.py` 180-183). -/
def reverse (p : SLP α) : Py (SLP α) := ofGraph (p.graph.map List.reverse)

/-- Applying a function to the value of a `Terminal` (`structures.py` 190). -/
def mapItem (f : α → β) : Item α → Item β
  | .term v => .term (f v)
  | .node i => .node i

/-- `map` (`structures.py` 187-190). -/
def map (f : α → β) (p : SLP α) : Py (SLP β) := ofGraph (p.graph.map (·.map (mapItem f)))

end SLP
end Curver
