/-!
# Python runtime fragments used by the model

Exceptions become values, dictionaries become association lists in insertion order.
-/

namespace Curver

/-- The exception classes raised by the modelled code. -/
inductive PyErr where
  | valueError
  | typeError
  | keyError
  | indexError
  | assertionError
  | zeroDivision
  | attributeError
  | stopIteration
  /-- not a Python exception: the loop did not stop within the fuel given by the model -/
  | outOfFuel
  deriving DecidableEq, Repr

/-- A Python computation: a value or a raised exception. -/
abbrev Py (α : Type _) := Except PyErr α

deriving instance DecidableEq for Except

/-- `assert b`. -/
def pyAssert (b : Bool) : Py Unit :=
  if b then .ok () else .error .assertionError

/-- `L.index(x)`: position of the first occurrence of `x`, `ValueError` when absent. -/
def pyIndex {α : Type _} [DecidableEq α] : List α → α → Py Nat
  | [], _ => .error .valueError
  | a :: l, x => if a = x then .ok 0 else (pyIndex l x).map (· + 1)

/-- `L[i]` for a non-negative `i`: `IndexError` when out of range. -/
def pyGet {α : Type _} (l : List α) (i : Nat) : Py α :=
  match l[i]? with
  | some x => .ok x
  | none => .error .indexError

/-- A Python `dict`: key/value pairs in insertion order (keys are kept distinct by `set`). -/
abbrev PyDict (κ α : Type _) := List (κ × α)

namespace PyDict
variable {κ α : Type _} [DecidableEq κ]

/-- `d.get(k)`. -/
def get? : PyDict κ α → κ → Option α
  | [], _ => none
  | (k', v) :: d, k => if k' = k then some v else get? d k

/-- `d[k]`, `KeyError` when absent. -/
def get (d : PyDict κ α) (k : κ) : Py α :=
  match d.get? k with
  | some v => .ok v
  | none => .error .keyError

/-- `d[k] = v`: replaces the value in place or appends a new entry. -/
def set : PyDict κ α → κ → α → PyDict κ α
  | [], k, v => [(k, v)]
  | (k', v') :: d, k, v => if k' = k then (k', v) :: d else (k', v') :: set d k v

/-- `dict(pairs)`: later pairs overwrite earlier ones. -/
def ofList (l : List (κ × α)) : PyDict κ α :=
  l.foldl (fun d p => d.set p.1 p.2) []

/-- `d.keys()` -/
def keys (d : PyDict κ α) : List κ := d.map Prod.fst

/-- `d.values()` -/
def values (d : PyDict κ α) : List α := d.map Prod.snd

/-- `k in d` -/
def contains (d : PyDict κ α) (k : κ) : Bool := (d.get? k).isSome

end PyDict
end Curver
