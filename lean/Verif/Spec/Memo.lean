import Verif.Model.Memo

/-! # Histories of memoised calls -/

namespace Curver.Memo
variable {ι κ ρ ε : Type} [DecidableEq κ]

/-- One event of a history. -/
inductive Op (ι ρ ε : Type) where
  /-- a call of the decorated method -/
  | call (c : ι)
  /-- a call killed after `k` nested calls -/
  | interrupted (c : ι) (k : Nat)
  /-- `set_cache` -/
  | setCache (c : ι) (answer : PyObj ρ ε)

/-- Run a history from empty caches; the result lists the outcomes of its `call` events in order. -/
def runFrom (w : Methods ι κ ρ ε) (depth : Nat) :
    List (Op ι ρ ε) → Memo κ ρ ε → Option (Memo κ ρ ε × List (Outcome ρ ε))
  | [], s => some (s, [])
  | .call c :: ops, s => do
    let (s, o) ← call w depth c s
    let (s, os) ← runFrom w depth ops s
    pure (s, o :: os)
  | .interrupted c k :: ops, s => do
    let s ← interrupted w depth c k s
    runFrom w depth ops s
  | .setCache c a :: ops, s => runFrom w depth ops (setCache w c a s)

/-- What the undecorated methods would have answered. -/
def expected (w : Methods ι κ ρ ε) : List (Op ι ρ ε) → List (Outcome ρ ε)
  | [] => []
  | .call c :: ops => w.body c :: expected w ops
  | _ :: ops => expected w ops

/-- The methods are deterministic functions of (object, name, arguments) as compared by `==`, never
return exception objects and do not call themselves in circles. -/
structure WellBehaved (w : Methods ι κ ρ ε) (rank : κ → Nat) : Prop where
  sameKey : ∀ c d, w.keyOf c = w.keyOf d → w.body c = w.body d
  noExc : ∀ c e, w.body c ≠ .returned (.exc e)
  nested : ∀ c, ∀ d ∈ w.nested c, rank (w.keyOf d) < rank (w.keyOf c)

/-- Each `set_cache` stores the answer the method would give. -/
def TrueAnswers (w : Methods ι κ ρ ε) (ops : List (Op ι ρ ε)) : Prop :=
  ∀ c a, Op.setCache c a ∈ ops → w.body c = .returned a

end Curver.Memo
