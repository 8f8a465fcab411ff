import Verif.Model.Mcg
import Verif.Model.SLP

/-!
# Model of the part of `MappingClassGroup.mapping_class` that reads strings (curver/kernel/mappingclassgroup.py:99-140, 148-149)

The model is for ASCII strings: `\d`, `\w` and `\s` are the ASCII digits, word characters and white space.  Names contain only word
characters, so they stand for themselves in a regular expression.
-/

namespace Curver

namespace Str

/-- `\s`. -/
def isSpace (c : Char) : Bool := c = ' ' || (9 ≤ c.toNat && c.toNat ≤ 13) || (28 ≤ c.toNat && c.toNat ≤ 31)

/-- `int` of a string of digits. -/
def digitsValue (ds : Str) : Nat := ds.foldl (fun a c => 10 * a + (c.toNat - '0'.toNat)) 0

end Str

/-- The strings matched by `TOKENS` (mappingclassgroup.py:13), by the alternative that matches; for the first alternative we keep
`int(token)`.  `IS_INT.match(token)` (line 12) holds for exactly those tokens: a token matched by the last alternative does not start
with a digit. -/
inductive Token where
  | int (n : Int)
  | caret
  | opening
  | closing
  | word (w : Str)
  deriving DecidableEq, Repr

namespace Parser

/-- `[\w_\.]` (mappingclassgroup.py:13). -/
def isRun (c : Char) : Bool := Str.isWord c || c = '.'

/-- `TOKENS.findall` (mappingclassgroup.py:13, 120): at each position the alternatives are tried in order and a character at which
none matches is skipped.  The first argument is at least the length of the string. -/
def tokensAux : Nat → Str → List Token
  | 0, _ => []
  | _, [] => []
  | fuel + 1, c :: t =>
    if Str.isDigit c then .int (Str.digitsValue ((c :: t).takeWhile Str.isDigit)) :: tokensAux fuel ((c :: t).dropWhile Str.isDigit)
    else if c = '+' && (t.head?.any Str.isDigit) then .int (Str.digitsValue (t.takeWhile Str.isDigit)) :: tokensAux fuel (t.dropWhile Str.isDigit)
    else if c = '-' && (t.head?.any Str.isDigit) then .int (-(Str.digitsValue (t.takeWhile Str.isDigit) : Int)) :: tokensAux fuel (t.dropWhile Str.isDigit)
    else if c = '^' then .caret :: tokensAux fuel t
    else if c = '(' then .opening :: tokensAux fuel t
    else if c = ')' then .closing :: tokensAux fuel t
    else if isRun c then .word ((c :: t).takeWhile isRun) :: tokensAux fuel ((c :: t).dropWhile isRun)
    else tokensAux fuel t

/-- mappingclassgroup.py:101-102, 120: the parentheses are added, white space is removed and the word is broken into tokens. -/
def tokens (data : Str) : List Token :=
  let word := (['('] ++ data ++ [')']).filter (fun c => !Str.isSpace c)
  tokensAux word.length word

/-- mappingclassgroup.py:104: `sorted(self.mapping_classes, key=len, reverse=True)`. -/
def byLength (names : List Str) : List Str := names.insertionSort (fun v w => w.length ≤ v.length)

/-- `MATCH_MCs.findall` (mappingclassgroup.py:104, 109): at each position the names are tried in order and a character at which none
matches is skipped.  The first argument is at least the length of the string. -/
def findNames (names : List Str) : Nat → Str → List Str
  | 0, _ => []
  | _, [] => []
  | fuel + 1, c :: t =>
    match (byLength names).find? (fun n => n.isPrefixOf (c :: t)) with
    | some n => n :: findNames names fuel ((c :: t).drop n.length)
    | none => findNames names fuel t

/-- mappingclassgroup.py:106-119 `decompose`; all ways out of lines 111-118 raise `ValueError`. -/
def decompose (names : List Str) (word : Str) : Py (List Str) :=
  let iterable := (word.splitOn '.').flatMap (fun subword => findNames names subword.length subword)
  if (iterable.map List.length).sum + word.count '.' < word.length then .error .valueError else .ok iterable

/-- mappingclassgroup.py:121-138: the loop over the tokens.  The stack is kept with its top first; the list that is being filled is
the last item of the list below it in the code, here it is not put there until it is complete. -/
def run (names : List Str) : List Token → List (List (SLP Str)) → Py (List (List (SLP Str)))
  | [], stack => .ok stack
  | .int _ :: ts, stack => run names ts stack
  | .caret :: ts, stack =>
    match ts with
    | .int power :: _ =>
      match stack with
      | [] => .error .indexError
      | top :: stack =>
        match top.getLast? with
        | none => .error .indexError
        | some p => do
          let q ← p.mul (power.natAbs : Int)
          if power < 0 then do
            let r ← q.reverse
            let r ← r.map Str.swapcase
            run names ts ((top.dropLast ++ [r]) :: stack)
          else run names ts ((top.dropLast ++ [q]) :: stack)
    | _ => .error .valueError
  | .opening :: ts, stack => run names ts ([] :: stack)
  | .closing :: ts, stack =>
    match stack with
    | top :: below :: stack => do
      let p ← SLP.sum top
      run names ts ((below ++ [p]) :: stack)
    | _ => .error .valueError
  | .word w :: ts, stack =>
    match stack with
    | [] => .error .indexError
    | top :: stack => do
      let letters ← decompose names w
      let p ← SLP.ofValues letters
      run names ts ((top ++ [p]) :: stack)

end Parser

namespace Mcg

/-- mappingclassgroup.py:88-149 `mapping_class` of a string; `rounds` bounds the number of rounds of the iteration over the straight
line program (line 148). -/
def ofString (S : Mcg) (rounds : Nat) (data : Str) : Py Enc := do
  let stack ← Parser.run S.mappingClasses.keys (Parser.tokens data) [[]]
  match stack with
  | [top] =>
    match top.getLast? with
    | none => .error .indexError
    | some p => do
      let sequence ← p.toList rounds
      S.ofLetters sequence
  | _ => .error .valueError

end Mcg
end Curver
