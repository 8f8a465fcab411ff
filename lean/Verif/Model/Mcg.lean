import Verif.Model.MappingEq

/-!
# Model of curver/kernel/mappingclassgroup.py: the group object, words given as lists, random words and `cayley`

Names are lists of characters.  The model is for ASCII names: `\w` is a letter, a digit or an underscore.  The mapping classes are
given to the constructor directly; twists and half twists about the `curves` and `arcs` given to it are not modelled.  Strings are
parsed in Model/Parser.lean.
-/

namespace Curver

/-- Python strings, as lists of characters. -/
abbrev Str := List Char

namespace Str

/-- mappingclassgroup.py:11: `[a-z]`. -/
def isLower (c : Char) : Bool := 'a'.toNat ≤ c.toNat && c.toNat ≤ 'z'.toNat

/-- `[A-Z]`. -/
def isUpper (c : Char) : Bool := 'A'.toNat ≤ c.toNat && c.toNat ≤ 'Z'.toNat

/-- `\d`. -/
def isDigit (c : Char) : Bool := '0'.toNat ≤ c.toNat && c.toNat ≤ '9'.toNat

/-- `\w`. -/
def isWord (c : Char) : Bool := isLower c || isUpper c || isDigit c || c = '_'

/-- mappingclassgroup.py:11 `IS_NAME.match(name)` with `[a-z]\w*$` (names that end in a newline, which `$` also accepts, are left
out). -/
def isName : Str → Bool
  | [] => false
  | c :: w => isLower c && w.all isWord

/-- One character of `swapcase`. -/
def swapChar (c : Char) : Char :=
  if isLower c then Char.ofNat (c.toNat - 32) else if isUpper c then Char.ofNat (c.toNat + 32) else c

/-- `str.swapcase`. -/
def swapcase (w : Str) : Str := w.map swapChar

/-- Comparison of strings, which is what `sorted` uses. -/
def le (v w : Str) : Prop := v.map Char.toNat ≤ w.map Char.toNat

instance : DecidableRel le := fun v w => inferInstanceAs (Decidable (v.map Char.toNat ≤ w.map Char.toNat))

end Str

/-- `sorted(d)` for a dictionary with strings as keys. -/
def sortedKeys {α : Type} (d : PyDict Str α) : List Str := d.keys.insertionSort Str.le

/-- mappingclassgroup.py:16-52 the fields of a `MappingClassGroup`. -/
structure Mcg where
  triangulation : Triangulation
  posMappingClasses : PyDict Str Enc
  negMappingClasses : PyDict Str Enc
  mappingClasses : PyDict Str Enc
  deriving Repr

/-- `[choice(letters) for _ in range(length)]` (mappingclassgroup.py:83): `random i` is what the `i`-th draw of the generator gives; `choice` takes
that entry (`IndexError` when there are no letters). -/
def choices (random : Nat → Nat) (letters : List Str) (length : Int) : Py (List Str) :=
  (List.range length.toNat).mapM (fun i => pyGet letters (random i % letters.length))

namespace Mcg

/-- mappingclassgroup.py:23-52 `__init__`, without curves and arcs. -/
def create (pos : PyDict Str Enc) : Py Mcg :=
  match pos with
  | [] => .error .assertionError
  | (_, h) :: _ =>
    if !(pos.all (fun p => Str.isName p.1)) then .error .assertionError
    else if !(pos.all (fun p => decide (p.2.kind = .mappingClass))) then .error .assertionError
    else if !(pos.all (fun p => p.2.source.eq h.source)) then .error .assertionError
    else do
      let neg ← pos.mapM (fun p => do
        let g ← p.2.inverse
        return (Str.swapcase p.1, g))
      let neg := PyDict.ofList neg
      return ⟨h.source, pos, neg, PyDict.ofList (pos ++ neg)⟩

/-- mappingclassgroup.py:64-83 `random_word`; `letters` is the optional argument. -/
def randomWord (S : Mcg) (random : Nat → Nat) (length : Int) (positive negative : Bool) (letters : Option (List Str)) :
    Py (List Str) :=
  match letters with
  | some letters => choices random letters length
  | none =>
    let posKeys := sortedKeys S.posMappingClasses
    let negKeys := sortedKeys S.negMappingClasses
    if positive && negative then choices random (posKeys ++ negKeys) length
    else if positive && !negative then choices random posKeys length
    else if !positive && negative then choices random negKeys length
    else .error .typeError

/-- mappingclassgroup.py:148-149: the mapping class of a sequence of names. -/
def ofLetters (S : Mcg) (letters : List Str) : Py Enc := do
  let moves ← letters.mapM (fun letter => do
    let h ← S.mappingClasses.get letter
    return h.sequence)
  if moves.flatten.isEmpty then S.triangulation.idEncoding else Enc.create .mappingClass moves.flatten

/-- mappingclassgroup.py:85-98, 148-149 `mapping_class` of an integer: a random mapping class. -/
def ofLength (S : Mcg) (random : Nat → Nat) (length : Int) (positive negative : Bool) (letters : Option (List Str)) : Py Enc := do
  let word ← S.randomWord random length positive negative letters
  S.ofLetters word

end Mcg

/-- What `cayley` knows while it explores: the queue, the images met so far (`elements`, whose values are not read) and the words
yielded so far, oldest first (`good` has the same elements) (mappingclassgroup.py:167-178). -/
structure CayleyState (κ X : Type) where
  queue : List (X × List κ)
  elements : List X
  yielded : List (List κ)

section
variable {κ X : Type} [DecidableEq κ]

/-- mappingclassgroup.py:183-197: the body of the loop over the generators.  `step` is lines 189-191, `same` compares the keys made
by `convert`. -/
def cayleyVisit (step : κ → X → Py X) (same : X → X → Bool) (length : Int) (image : X) (word : List κ)
    (st : CayleyState κ X) (generator : κ) : Py (CayleyState κ X) :=
  let nextWord := generator :: word
  if ((List.range nextWord.length).drop 1).any (fun i => !decide (nextWord.take i ∈ st.yielded)) then .ok st
  else do
    let nextImage ← step generator image
    if st.elements.any (same nextImage) then return st
    else return ⟨if (nextWord.length : Int) < length then st.queue ++ [(nextImage, nextWord)] else st.queue,
      nextImage :: st.elements, st.yielded ++ [nextWord]⟩

/-- mappingclassgroup.py:179-197: the loop over the queue; the first argument bounds the number of rounds. -/
def cayleyLoop (step : κ → X → Py X) (same : X → X → Bool) (length : Int) (generators : List κ) :
    Nat → CayleyState κ X → Py (List (List κ))
  | _, ⟨[], _, yielded⟩ => .ok yielded
  | 0, ⟨_ :: _, _, _⟩ => .error .outOfFuel
  | rounds + 1, ⟨(image, word) :: queue, elements, yielded⟩ => do
    let st ← generators.foldlM (cayleyVisit step same length image word) ⟨queue, elements, yielded⟩
    cayleyLoop step same length generators rounds st

end

namespace Mcg

/-- mappingclassgroup.py:189-191: the image under one more generator. -/
def cayleyStep (S : Mcg) (generator : Str) (image : Lam Int × List (List Int)) : Py (Lam Int × List (List Int)) := do
  let action ← S.mappingClasses.get generator
  let L ← action.applyLam image.1
  let M ← action.homologyMatrix
  return (L, matDot M image.2 M.length)

/-- mappingclassgroup.py:169, 192: the keys made by `convert` are equal. -/
def cayleySame (x y : Lam Int × List (List Int)) : Bool := x.1.eq y.1 && x.2.flatten == y.2.flatten

/-- mappingclassgroup.py:165-197 `cayley`: the words in the order in which they are yielded; `rounds` bounds the number of rounds of
the loop. -/
def cayley (S : Mcg) (rounds : Nat) (generators : List Str) (length : Int) : Py (List (List Str)) := do
  let h ← S.ofLetters []
  let M ← h.homologyMatrix
  let start := (h.source.asLamination, M)
  cayleyLoop S.cayleyStep cayleySame length generators rounds ⟨[(start, [])], [start], [[]]⟩

end Mcg
end Curver
