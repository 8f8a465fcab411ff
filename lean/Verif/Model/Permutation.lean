import Verif.Py
import Mathlib.Data.List.Sort
import Mathlib.Data.Nat.Factorial.Basic

/-!
# Model of curver/kernel/permutation.py
-/

namespace Curver

/-- permutation.py:9-13 `class Permutation`: the list `self.perm`.  The constructor's assertion (line 13) is in
`Permutation.create`; after it all the entries are natural numbers. -/
structure Permutation where
  perm : List Nat
  deriving DecidableEq, Repr

namespace Permutation

/-- permutation.py:11-13 `__init__`: `assert set(self) == set(range(len(self)))`. -/
def create (l : List Int) : Py Permutation := do
  pyAssert ((l.all fun x => decide (x ∈ (List.range l.length).map Int.ofNat)) &&
    ((List.range l.length).all fun i => decide (Int.ofNat i ∈ l)))
  return ⟨l.map Int.toNat⟩

/-- `create` on natural number entries. -/
def createNat (l : List Nat) : Py Permutation := create (l.map Int.ofNat)

/-- permutation.py:25-26 `__len__`. -/
def len (p : Permutation) : Nat := p.perm.length

/-- permutation.py:19-22 `__getitem__`, `__call__` at a non-negative position. -/
def call (p : Permutation) (i : Nat) : Py Nat := pyGet p.perm i

/-- `Permutation(list(range(n)))` as used at permutation.py:59 and 80. -/
def identity (n : Nat) : Py Permutation := createNat (List.range n)

/-- permutation.py:27-34 `__eq__` between permutations: `ValueError` on different sizes. -/
def eq (p q : Permutation) : Py Bool :=
  if p.len ≠ q.len then .error .valueError else .ok (p.perm == q.perm)

/-- permutation.py:38-43 `inverse`: `Permutation(sorted(range(len(self)), key=self))`.
`sorted` is stable, `List.insertionSort` is a stable sort. -/
def inverse (p : Permutation) : Py Permutation :=
  createNat ((List.range p.len).insertionSort (fun i j => p.perm[i]?.getD 0 ≤ p.perm[j]?.getD 0))

/-- permutation.py:45-54 `from_dict(dictionary, ordering)`; `ordering=None` means the insertion order of the keys. -/
def fromDict {κ : Type _} [DecidableEq κ] (d : PyDict κ κ) (ordering : Option (List κ)) : Py Permutation := do
  let ordering := ordering.getD d.keys
  let lookup := PyDict.ofList (ordering.zipIdx)
  let l ← ordering.mapM (fun item => do
    let v ← d.get item
    lookup.get v)
  createNat l

/-- permutation.py:69-76 `__mul__` between permutations. -/
def mul (p q : Permutation) : Py Permutation := do
  if p.len ≠ q.len then .error .valueError
  else
    let l ← (List.range p.len).mapM (fun i => do
      let j ← q.call i
      p.call j)
    createNat l

/-- permutation.py:62-66, the `while True` loop of `order` (`fuel` iterations; `none` when they do not suffice). -/
def orderLoop (p ident : Permutation) : Nat → Permutation → Nat → Py (Option Nat)
  | 0, _, _ => .ok none
  | fuel + 1, power, i => do
    if ← power.eq ident then return some i
    else
      let power' ← power.mul p
      orderLoop p ident fuel power' (i + 1)

/-- permutation.py:56-68 `order`, with a bound on the number of iterations. -/
def order (p : Permutation) (fuel : Nat) : Py (Option Nat) := do
  let ident ← identity p.len
  orderLoop p ident fuel p 1

/-- permutation.py:83-88, the `while n` loop of `__pow__`. -/
def powLoop (perm result : Permutation) (n : Nat) : Py Permutation :=
  if h : n = 0 then .ok result
  else do
    let result' ← if n % 2 = 1 then result.mul perm else .ok result
    let perm' ← perm.mul perm
    powLoop perm' result' (n / 2)
termination_by n
decreasing_by omega

/-- permutation.py:78-89 `__pow__`. -/
def pow (p : Permutation) (n : Int) : Py Permutation :=
  if n < 0 then do
    let q ← p.inverse
    let one ← identity q.len
    powLoop q one (-n).toNat
  else do
    let one ← identity p.len
    powLoop p one n.toNat

/-- permutation.py:98-102, the loop of `from_index` on the remaining symbols (`fuel` = number of symbols). -/
def fromIndexLoop : Nat → Nat → Nat → List Nat → Py (List Nat)
  | 0, _, _, _ => .ok []
  | fuel + 1, f, index, symbols => do
    let f' := f / symbols.length
    let i := index / f'
    let index' := index % f'
    let s ← pyGet symbols i
    let rest ← fromIndexLoop fuel f' index' (symbols.take i ++ symbols.drop (i + 1))
    return s :: rest

/-- permutation.py:91-103 `from_index(N, index)` for `index >= 0`; `IndexError` when `index >= N!`. -/
def fromIndex (N index : Nat) : Py Permutation := do
  let l ← fromIndexLoop N N.factorial index (List.range N)
  createNat l

/-- `bisect.bisect(symbols, p)`: number of leading items `<= p` of a sorted list. -/
def bisect (symbols : List Nat) (p : Nat) : Nat := (symbols.takeWhile (fun x => decide (x ≤ p))).length

/-- permutation.py:110-113, the loop of `index`.  (`bisect(...) - 1` is never negative because `p` is one of the symbols.) -/
def indexLoop : Nat → List Nat → List Nat → Nat
  | index, _, [] => index
  | index, symbols, p :: ps =>
    let i := bisect symbols p - 1
    indexLoop (index * symbols.length + i) (symbols.take i ++ symbols.drop (i + 1)) ps

/-- permutation.py:105-114 `index`. -/
def index (p : Permutation) : Nat := indexLoop 0 (p.perm.insertionSort (· ≤ ·)) p.perm

/-- permutation.py:116-121 `matrix`: rows `i`, columns indexed by the items `j` of `self`. -/
def matrix (p : Permutation) : List (List Int) :=
  (List.range p.len).map fun i => p.perm.map fun j => if i = j then 1 else 0

/-- The pairs of `itertools.combinations(l, r=2)`. -/
def combinations2 : List Nat → List (Nat × Nat)
  | [] => []
  | a :: l => l.map (fun b => (a, b)) ++ combinations2 l

/-- permutation.py:123-126 `is_even`. -/
def isEven (p : Permutation) : Bool :=
  (((combinations2 p.perm).filter (fun ab => decide (ab.1 > ab.2))).map
    (fun ab => if ab.1 > ab.2 then 1 else 0)).sum % 2 == 0

/-- permutation.py:140-145, the inner `for j in range(1, N+1)` loop of `cycle_lengths`: `js` are the remaining
values of `j`; returns the appended length, if any, and the set `seen`. -/
def cycleInner (p : Permutation) (i : Nat) : List Nat → Nat → List Nat → Py (Option Nat × List Nat)
  | [], _, seen => .ok (none, seen)
  | j :: js, image, seen =>
    if image = i then .ok (some j, seen)
    else do
      let image' ← p.call image
      cycleInner p i js image' (image' :: seen)

/-- permutation.py:136-145, the outer loop of `cycle_lengths`. -/
def cycleOuter (p : Permutation) : List Nat → List Nat → List Nat → Py (List Nat)
  | [], lengths, _ => .ok lengths
  | i :: is, lengths, seen =>
    if i ∈ seen then cycleOuter p is lengths seen
    else do
      let image ← p.call i
      let (j, seen') ← cycleInner p i ((List.range p.len).map (· + 1)) image (image :: seen)
      cycleOuter p is (match j with | some j => lengths ++ [j] | none => lengths) seen'

/-- permutation.py:128-147 `cycle_lengths`. -/
def cycleLengths (p : Permutation) : Py (List Nat) := do
  let l ← cycleOuter p (List.range p.len) [] []
  return l.insertionSort (· ≤ ·)

/-- permutation.py:149-158 `is_conjugate_to`. -/
def isConjugateTo (p q : Permutation) : Py Bool :=
  if p.len ≠ q.len then .ok false
  else do
    let a ← p.cycleLengths
    let b ← q.cycleLengths
    return a == b

end Permutation
end Curver
