import Verif.Py

/-!
# Model of `memoize` and `set_cache` (`curver/kernel/decorators.py`, lines 7-45)

The caches of all objects are put in one dictionary whose keys are (object, method name, arguments)
triples; the code keeps one dictionary per object with keys (method name, arguments).
-/

namespace Curver

/-- What Python code can hand around: an ordinary value or an exception object. -/
inductive PyObj (ρ ε : Type) where
  | value (v : ρ)
  | exc (e : ε)
  deriving DecidableEq, Repr

/-- How a call ends: it returns an object or raises an exception. -/
inductive Outcome (ρ ε : Type) where
  | returned (x : PyObj ρ ε)
  | raised (e : ε)
  deriving DecidableEq, Repr

/-- A family of memoised deterministic methods: for each call (object, method, arguments) its key,
the calls of memoised methods made while evaluating the undecorated method, and the way the
undecorated method ends. -/
structure Methods (ι κ ρ ε : Type) where
  keyOf : ι → κ
  nested : ι → List ι
  body : ι → Outcome ρ ε

/-- The caches and a log of the evaluations of undecorated methods that ran to completion. -/
structure Memo (κ ρ ε : Type) where
  cache : PyDict κ (PyObj ρ ε)
  log : List κ

namespace Memo
variable {ι κ ρ ε : Type} [DecidableEq κ]

/-- The object stored for an outcome (`decorators.py` 18-22): the result or the exception. -/
def stored : Outcome ρ ε → PyObj ρ ε
  | .returned x => x
  | .raised e => .exc e

/-- How the wrapper ends given the stored object (`decorators.py` 24-28). -/
def finish : PyObj ρ ε → Outcome ρ ε
  | .exc e => .raised e
  | .value v => .returned (.value v)

/-- A call of the decorated method (`decorators.py` 7-28).  `depth` bounds the recursion through
nested calls (`none` when it is exceeded). -/
def call (w : Methods ι κ ρ ε) : Nat → ι → Memo κ ρ ε → Option (Memo κ ρ ε × Outcome ρ ε)
  | 0, _, _ => none
  | depth + 1, c, s =>
    match s.cache.get? (w.keyOf c) with
    | some x => some (s, finish x)
    | none => do
      let s ← (w.nested c).foldlM (fun s d => (call w depth d s).map Prod.fst) s
      let x := stored (w.body c)
      pure (⟨s.cache.set (w.keyOf c) x, s.log ++ [w.keyOf c]⟩, finish x)

/-- A call cut short by an exception that `except Exception` does not catch (for example
`KeyboardInterrupt`) after `k` of the nested calls (`decorators.py` 17-22): nothing is stored for
the call itself. -/
def interrupted (w : Methods ι κ ρ ε) (depth : Nat) (c : ι) (k : Nat) (s : Memo κ ρ ε) :
    Option (Memo κ ρ ε) :=
  match s.cache.get? (w.keyOf c) with
  | some _ => some s
  | none => ((w.nested c).take k).foldlM (fun s d => (call w depth d s).map Prod.fst) s

/-- `set_cache` (`decorators.py` 33-42). -/
def setCache (w : Methods ι κ ρ ε) (c : ι) (answer : PyObj ρ ε) (s : Memo κ ρ ε) : Memo κ ρ ε :=
  { s with cache := s.cache.set (w.keyOf c) answer }

end Memo
end Curver
