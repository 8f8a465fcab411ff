import Verif.Model.Parser
import Verif.Spec.Mcg
import Mathlib.Data.Nat.Digits.Defs

/-!
# Specification vocabulary for words given as strings
-/

namespace Curver

/-- The string is a row of names and dots: reading from left to right, at each place that is not a dot the longest name that fits is
taken. -/
inductive Cut (names : List Str) : Str → List Str → Prop
  | nil : Cut names [] []
  | dot (s : Str) (ls : List Str) : Cut names s ls → Cut names ('.' :: s) ls
  | name (n s : Str) (ls : List Str) : n ∈ names → n ≠ [] → (∀ m ∈ names, m <+: n ++ s → m.length ≤ n.length) → Cut names s ls → Cut names (n ++ s) (n :: ls)

/-- The letters of the inverse: in the opposite order, each with its case swapped. -/
def invLetters (ls : List Str) : List Str := ls.reverse.map Str.swapcase

/-- The letters of the `n`-th power. -/
def powLetters (ls : List Str) (n : Int) : List Str :=
  if n < 0 then invLetters (List.replicate n.natAbs ls).flatten else (List.replicate n.natAbs ls).flatten

/-- The number written with these decimal digits. -/
def decimal (ds : Str) : Nat := Nat.ofDigits 10 (ds.reverse.map (fun c => c.toNat - '0'.toNat))

/-- The string is a number, perhaps with a sign. -/
inductive IsExponent : Str → Int → Prop
  | plain (ds : Str) : ds ≠ [] → (∀ c ∈ ds, Str.isDigit c = true) → IsExponent ds (decimal ds)
  | plus (ds : Str) : ds ≠ [] → (∀ c ∈ ds, Str.isDigit c = true) → IsExponent ('+' :: ds) (decimal ds)
  | minus (ds : Str) : ds ≠ [] → (∀ c ∈ ds, Str.isDigit c = true) → IsExponent ('-' :: ds) (-(decimal ds : Int))

mutual
/-- What can be written in a word: a row of names and dots (with the names it stands for), something in parentheses, or a power
(with its exponent as it is written and as a number). -/
inductive Factor where
  | row (w : Str) (ls : List Str)
  | group (s : Factors)
  | power (i : Factor) (e : Str) (n : Int)
/-- Several of them, one after the other. -/
inductive Factors where
  | nil
  | cons (i : Factor) (s : Factors)
end

mutual
/-- How it is written. -/
def Factor.render : Factor → Str
  | .row w _ => w
  | .group s => ['('] ++ s.render ++ [')']
  | .power i e _ => i.render ++ ['^'] ++ e
/-- How it is written. -/
def Factors.render : Factors → Str
  | .nil => []
  | .cons i s => i.render ++ s.render
end

mutual
/-- The letters it stands for. -/
def Factor.letters : Factor → List Str
  | .row _ ls => ls
  | .group s => s.letters
  | .power i _ n => powLetters i.letters n
/-- The letters it stands for. -/
def Factors.letters : Factors → List Str
  | .nil => []
  | .cons i s => i.letters ++ s.letters
end

/-- It is a row of names. -/
def Factor.IsRow : Factor → Prop
  | .row _ _ => True
  | .group _ => False
  | .power _ _ _ => False

/-- It starts with a row of names. -/
def Factor.StartsWithRow : Factor → Prop
  | .row _ _ => True
  | .group _ => False
  | .power i _ _ => i.StartsWithRow

/-- The first of them starts with a row of names. -/
def Factors.StartWithRow : Factors → Prop
  | .nil => False
  | .cons i _ => i.StartsWithRow

mutual
/-- Rows are not empty and stand for their names; a row does not follow a row (they would be read as one row). -/
def Factor.Good (names : List Str) : Factor → Prop
  | .row w ls => w ≠ [] ∧ Cut names w ls
  | .group s => s.Good names
  | .power i e n => i.Good names ∧ IsExponent e n
/-- Rows are not empty and stand for their names; a row does not follow a row (they would be read as one row). -/
def Factors.Good (names : List Str) : Factors → Prop
  | .nil => True
  | .cons i s => i.Good names ∧ s.Good names ∧ ¬ (i.IsRow ∧ s.StartWithRow)
end

/-- How the tokens of a string are read: the values of its items.  Numbers that are not exponents are ignored. -/
inductive Reads (names : List Str) : List Token → List (List Str) → Prop
  | nil : Reads names [] []
  | int (ts vs n) : Reads names ts vs → Reads names (ts ++ [.int n]) vs
  | word (ts vs w ls) : Reads names ts vs → Cut names w ls → Reads names (ts ++ [.word w]) (vs ++ [ls])
  | group (ts vs us ws) : Reads names ts vs → Reads names us ws → Reads names (ts ++ [.opening] ++ us ++ [.closing]) (vs ++ [ws.flatten])
  | power (ts vs v n) : Reads names ts (vs ++ [v]) → Reads names (ts ++ [.caret, .int n]) (vs ++ [powLetters v n])

end Curver
