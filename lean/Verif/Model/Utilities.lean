import Verif.Py
import Mathlib.Order.Defs.LinearOrder
import Mathlib.Algebra.Order.Ring.Int
import Mathlib.Algebra.Order.Field.Rat
import Mathlib.Algebra.Order.Field.Basic
import Mathlib.Tactic.FieldSimp
import Mathlib.Tactic.Ring

/-!
# Model of curver/kernel/utilities.py
-/

namespace Curver

/-- utilities.py:9 `ALPHABET = digits + ascii_lowercase + ascii_uppercase + '+-'`. -/
def alphabet : List Char :=
  ['0','1','2','3','4','5','6','7','8','9',
   'a','b','c','d','e','f','g','h','i','j','k','l','m','n','o','p','q','r','s','t','u','v','w','x','y','z',
   'A','B','C','D','E','F','G','H','I','J','K','L','M','N','O','P','Q','R','S','T','U','V','W','X','Y','Z',
   '+','-']

/-- utilities.py:11-18 `b64encode(n)` for `n >= 0` (for `n < 0` the Python loop does not terminate: `n // 64`
never reaches `0`).  Strings are lists of characters.  `ALPHABET[r]` is total because `r < 64`. -/
def b64encode (n : Nat) : List Char :=
  if h : n = 0 then []
  else (alphabet[n % 64]'(by have : n % 64 < 64 := Nat.mod_lt _ (by decide)
                             simpa [alphabet] using this)) :: b64encode (n / 64)
termination_by n
decreasing_by omega

/-- The loop of `b64decode`: the digit at position `i` contributes `ALPHABET.index(c) * 64**i`. -/
def b64decodeFrom (i : Nat) : List Char → Py Nat
  | [] => .ok 0
  | c :: cs => do
    let d ← pyIndex alphabet c
    let rest ← b64decodeFrom (i + 1) cs
    return d * 64 ^ i + rest

/-- utilities.py:20-23 `b64decode(strn)`; `ValueError` on a character outside the alphabet. -/
def b64decode (s : List Char) : Py Nat := b64decodeFrom 0 s

/-- utilities.py:25-37 `cyclic_slice(L, x, y=None)`. -/
def cyclicSlice {α : Type _} [DecidableEq α] (L : List α) (x : α) (y : Option α) : Py (List α) := do
  let i ← pyIndex L x
  let L' := L.drop i ++ L.take i
  match y with
  | none => return L'
  | some y =>
    match pyIndex L' y with
    | .ok j => return L'.take j
    | .error _ => return L'

section Ordered
variable {α : Type _} [LinearOrder α]

/-- Python's builtin `min(iterable)`: the first least item, `ValueError` when empty. -/
def pyMin : List α → Py α
  | [] => .error .valueError
  | a :: l => .ok (l.foldl (fun best item => if item < best then item else best) a)

/-- utilities.py:58-64, the inner `for item in iterable: ... else` loop of `maximin`: `none` when the loop breaks. -/
def maximinInner (result : α) : α → List α → Option α
  | best, [] => some best
  | best, item :: rest =>
    if item ≤ result then none
    else maximinInner result (if item < best then item else best) rest

/-- utilities.py:50-66, the outer loop of `maximin`. -/
def maximinOuter (result : α) : List (List α) → Py α
  | [] => .ok result
  | [] :: _ => .error .valueError
  | (best :: rest) :: its =>
    if best ≤ result then maximinOuter result its
    else match maximinInner result best rest with
      | none => maximinOuter result its
      | some b => maximinOuter b its

/-- utilities.py:39-68 `maximin(*iterables)`. -/
def maximin : List (List α) → Py α
  | [] => .error .valueError
  | it :: its => do
    let result ← pyMin it
    maximinOuter result its

variable {β : Type _}

/-- Python's builtin `max(iterable, key=key)`: the first item of maximal key, `ValueError` when empty. -/
def pyMaxBy (key : β → α) : List β → Py β
  | [] => .error .valueError
  | a :: l => .ok (l.foldl (fun best item => if key best < key item then item else best) a)

/-- utilities.py:73-77, the generator `helper()` of `maximum`. -/
def maximumHelper (key : β → α) (ub : α) : List β → List β
  | [] => []
  | item :: rest => if ub ≤ key item then [item] else item :: maximumHelper key ub rest

/-- utilities.py:70-79 `maximum(iterable, key, upper_bound)`. -/
def maximum (key : β → α) (ub : Option α) (l : List β) : Py β :=
  match ub with
  | none => pyMaxBy key l
  | some ub => pyMaxBy key (maximumHelper key ub l)

/-- utilities.py:93-101, the loop of `maxes`. -/
def maxesLoop (key : β → α) : α → List β → List β → List β
  | _, ans, [] => ans
  | best, ans, item :: rest =>
    if best < key item then maxesLoop key (key item) [item] rest
    else if key item = best then maxesLoop key best (ans ++ [item]) rest
    else maxesLoop key best ans rest

/-- utilities.py:81-102 `maxes(iterable, key)`. -/
def maxes (key : β → α) : List β → Py (List β)
  | [] => .error .valueError
  | item :: rest => .ok (maxesLoop key (key item) [item] rest)

end Ordered

/-- utilities.py:114-130 `product(iterable, start, left)`. -/
def product {α : Type _} [Mul α] (l : List α) (start : α) (left : Bool := true) : α :=
  match l with
  | [] => start
  | a :: l => l.foldl (fun result item => if left then item * result else result * item) a

/-- Weights that `half` accepts.  utilities.py:134-143 distinguishes `int` (floor division) from other
types (true division) and then checks `2 * result == other`. -/
class Halvable (R : Type _) [Add R] where
  /-- `half * x`, `none` models the `ValueError`. -/
  half? : R → Option R
  half?_eq_some : ∀ x y, half? x = some y ↔ y + y = x

/-- utilities.py:136-137 on `int`: `result = other // 2`, then the sanity check of lines 140-141. -/
def halfInt (x : Int) : Option Int :=
  let result := Int.fdiv x 2
  if 2 * result ≠ x then none else some result

/-- utilities.py:138-139 on a field: `result = other / 2`, then the same sanity check. -/
def halfField {R : Type _} [Field R] [DecidableEq R] (x : R) : Option R :=
  let result := x / 2
  if 2 * result ≠ x then none else some result

instance : Halvable Int where
  half? := halfInt
  half?_eq_some x y := by
    unfold halfInt
    rw [Int.fdiv_eq_ediv_of_nonneg _ (by decide)]
    dsimp only
    split <;> simp <;> omega

instance {R : Type _} [Field R] [LinearOrder R] [IsStrictOrderedRing R] : Halvable R where
  half? := halfField
  half?_eq_some x y := by
    unfold halfField
    have h2 : (2 : R) ≠ 0 := two_ne_zero
    have h : 2 * (x / 2) = x := by field_simp
    simp only [h, ne_eq, not_true_eq_false, if_false, Option.some.injEq]
    constructor
    · rintro rfl; rw [← two_mul, h]
    · rintro rfl; field_simp; ring

/-- `half * x` as a Python computation. -/
def half {R : Type _} [Add R] [Halvable R] (x : R) : Py R :=
  match Halvable.half? x with
  | some y => .ok y
  | none => .error .valueError

end Curver
