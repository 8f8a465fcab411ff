import Verif.Model.Mcg

/-!
# Model of `FiniteSubgroup.from_generators` (curver/kernel/finite.py)
-/

namespace Curver

/-- finite.py:16-22 the fields of a `FiniteSubgroup`. -/
structure FiniteSubgroup where
  mappingClasses : PyDict Str Enc
  generators : List Str
  deriving Repr

/-- `x in seen` for a set of mappings: some element is equal to `x` (finite.py:62). -/
def Enc.inSet (x : Enc) : List Enc → Py Bool
  | [] => .ok false
  | y :: ys => do
    let b ← x.eq y
    if b then return true else x.inSet ys

namespace FiniteSubgroup

/-- The variables of the loop: `mapping_classes`, `seen` and `to_check` (finite.py:48-52). -/
structure State where
  mappingClasses : PyDict Str Enc
  seen : List Enc
  toCheck : List Str

/-- finite.py:57-65: the body of the loop over the letters. -/
def visit (generators : PyDict Str Enc) (word : Str) (current : Enc) (st : State) (letter : Str) : Py State := do
  let generator ← generators.get letter
  if st.mappingClasses.contains (letter ++ word) then return st
  else
    let neighbour ← generator.mul current
    let b ← neighbour.inSet st.seen
    if b then return st
    else return ⟨st.mappingClasses.set (letter ++ word) neighbour, neighbour :: st.seen, st.toCheck ++ [letter ++ word]⟩

/-- finite.py:54-68: the loop; the first argument bounds the number of rounds. -/
def loop (generators : PyDict Str Enc) : Nat → State → Py (PyDict Str Enc)
  | _, ⟨mcs, _, []⟩ => .ok mcs
  | 0, ⟨_, _, _ :: _⟩ => .error .outOfFuel
  | rounds + 1, ⟨mcs, seen, word :: toCheck⟩ => do
    let current ← mcs.get word
    let st ← (sortedKeys generators).foldlM (visit generators word current) ⟨mcs, seen, toCheck⟩
    loop generators rounds st

/-- finite.py:42-69 `from_generators` (with no generators `__init__` raises `IndexError` at line 21). -/
def fromGenerators (rounds : Nat) (generators : PyDict Str Enc) : Py FiniteSubgroup := do
  let mcs ← loop generators rounds ⟨generators, generators.values, sortedKeys generators⟩
  if mcs.isEmpty then .error .indexError else return ⟨mcs, generators.keys⟩

end FiniteSubgroup
end Curver
