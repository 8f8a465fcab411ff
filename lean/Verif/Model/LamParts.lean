import Verif.Model.Shorten

/-!
# Model of `promote` with the actual `shorten`, and of the methods that are built on `components()` (curver/kernel/lamination.py)
-/

namespace Curver
namespace Lam

/-- lamination.py:146-148: the class that `promote` gives to an integral lamination is that of the result of `shorten()`, which itself calls `promote()`.  The fuel bounds the depth of this recursion;
Python's default `drop` is `dflt`. -/
def classAll (dflt : Int → Int → Bool) : Nat → Lam Int → Py LamClass
  | 0, _ => .error .outOfFuel
  | n + 1, L => do
    let (short, _) ← shortenAll (classAll dflt n) dflt n dflt L
    return short.cls

/-- lamination.py:140-157 `promote`. -/
def promoteAll (dflt : Int → Int → Bool) (fuel : Nat) (L : Lam Int) : Py (Lam Int) := L.promote (classAll dflt fuel)

section
variable (P : Lam Int → Py LamClass) (dflt : Int → Int → Bool) (fuel : Nat)

/-- lamination.py:304-307 `skeleton`. -/
def skeleton (L : Lam Int) : Py (Lam Int) := do
  let components ← L.componentsAll P dflt fuel
  L.tri.disjointSumList P (components.map Prod.fst)

/-- lamination.py:309-312 `peek_component`: `next` of the iterator over the keys. -/
def peekComponent (L : Lam Int) : Py (Lam Int) := do
  let components ← L.componentsAll P dflt fuel
  match components with
  | [] => .error .stopIteration
  | p :: _ => .ok p.1

/-- lamination.py:349-355 `no_common_component`; `in` compares with `__eq__`. -/
def noCommonComponent (L lamination : Lam Int) : Py Bool := do
  pyAssert (lamination.cls != .lamination)
  let selfComponents ← L.componentsAll P dflt fuel
  let others ← lamination.componentsAll P dflt fuel
  return !(others.any (fun component => selfComponents.any (fun p => p.1.eqv component.1)))

/-- lamination.py:357-361 `num_components`. -/
def numComponents (L : Lam Int) : Py Int := do
  let components ← L.componentsAll P dflt fuel
  return (components.map Prod.snd).sum

/-- `itertools.permutations(l, n)`: the tuples of `n` entries at different positions (lamination.py:367). -/
def permutationsOf {α : Type} (l : List α) : Nat → List (List α)
  | 0 => [[]]
  | n + 1 => (List.range l.length).flatMap (fun i => match l[i]? with
    | none => []
    | some x => (permutationsOf (l.eraseIdx i) n).map (fun r => x :: r))

/-- lamination.py:363-367 `sublaminations`. -/
def sublaminations (L : Lam Int) : Py (List (Lam Int)) := do
  let components ← L.componentsAll P dflt fuel
  ((List.range components.length).flatMap (fun i => permutationsOf (components.map Prod.fst) (i + 1))).mapM (fun sub => L.tri.disjointSumList P sub)

/-- lamination.py:369-372 `multiarc`. -/
def multiarc (L : Lam Int) : Py (Lam Int) := do
  let components ← L.componentsAll P dflt fuel
  L.tri.disjointSumDict P (components.filter (fun p => p.1.cls == .arc))

/-- lamination.py:374-377 `multicurve`. -/
def multicurve (L : Lam Int) : Py (Lam Int) := do
  let components ← L.componentsAll P dflt fuel
  L.tri.disjointSumDict P (components.filter (fun p => p.1.cls == .curve))

end

end Lam
end Curver
