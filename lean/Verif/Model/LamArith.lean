import Verif.Model.Lamination

/-!
# Model of the arithmetic of laminations

curver/kernel/lamination.py (sums and multiples) and curver/kernel/triangulation.py (`sum`, `disjoint_sum`, ...).
-/

namespace Curver

/-- `weight == int(weight)` (lamination.py:138). -/
class IntTest (R : Type) [CommRing R] where
  isInt : R → Bool
  isInt_natCast : ∀ n : Nat, isInt (n : R) = true

/-- an `int` is equal to its `int`. -/
instance : IntTest Int := ⟨fun _ => true, fun _ => rfl⟩

/-- `Fraction`: equal to its integral part. -/
instance : IntTest Rat := ⟨fun q => q.den == 1, fun _ => rfl⟩

/-- `all(f(x) for x in l)`: stops at the first false value; an exception of `f` is passed on. -/
def pyAllM {α : Type _} (f : α → Py Bool) : List α → Py Bool
  | [] => .ok true
  | x :: l => do
    let b ← f x
    if b then pyAllM f l else return false

namespace LamClass

/-- `isinstance(lamination, MultiArc)`: `Arc` is a subclass (arc.py:177). -/
def isMultiArc : LamClass → Bool
  | .multiarc | .arc => true
  | _ => false

/-- `isinstance(lamination, MultiCurve)`: `Curve` is a subclass (curve.py:110). -/
def isMultiCurve : LamClass → Bool
  | .multicurve | .curve => true
  | _ => false

/-- `isinstance(lamination, (Curve, Arc))`. -/
def isConnected : LamClass → Bool
  | .curve | .arc => true
  | _ => false

end LamClass

namespace Lam
variable {R : Type} [CommRing R] [LinearOrder R] [Halvable R] [IntTest R]

/-- lamination.py:159-162 `is_empty`: `not any(self)`. -/
def isEmpty (L : Lam R) : Bool := L.geometric.all (fun x => x == 0)

/-- lamination.py:50-52 `__eq__` compares the triangulations and the weights, not the classes. -/
def eqv (L L' : Lam R) : Bool := L.tri == L'.tri && L.geometric == L'.geometric

/-- lamination.py:135-138 `is_integral`. -/
def isIntegral (L : Lam R) : Py Bool := do
  if L.geometric.all IntTest.isInt then
    pyAllM (fun e => do
      let d ← L.dualWeight e
      return IntTest.isInt d) L.tri.labels
  else return false

/-- lamination.py:140-157 `promote`.  The class of the short lamination computed by `shorten()` is a parameter `P` of the
model (`shorten` is not modelled here): it may be any function of the lamination, or raise. -/
def promote (P : Lam R → Py LamClass) (L : Lam R) : Py (Lam R) := do
  let b ← L.isIntegral
  if b then
    let c ← P ⟨L.tri, L.geometric, .integral⟩
    return ⟨L.tri, L.geometric, c⟩
  else return L

end Lam

namespace Triangulation
variable {R : Type} [CommRing R] [LinearOrder R] [Halvable R] [IntTest R]

/-- triangulation.py:515-527 `lamination(weights)` for a list of weights. -/
def lamination (P : Lam R → Py LamClass) (T : Triangulation) (weights : List R) (promote : Bool := true) : Py (Lam R) := do
  pyAssert (weights.length == T.zeta)
  if promote then Lam.promote P ⟨T, weights, .lamination⟩ else return ⟨T, weights, .lamination⟩

/-- triangulation.py:518-519: a dictionary of weights is completed by zeros. -/
def weightsOfDict (T : Triangulation) (d : PyDict Int R) : List R :=
  (List.range T.zeta).map (fun (i : Nat) => (d.get? i).getD 0)

/-- triangulation.py:547-550 `empty_lamination`. -/
def emptyLamination (T : Triangulation) : Lam R := ⟨T, List.replicate T.zeta 0, .integral⟩

/-- triangulation.py:581-582 (also 611-612): the lists of weights are read in parallel, up to the length of the shortest. -/
def weighted (ls : List (Lam R × R)) : List R :=
  (List.range ((ls.map (fun p => p.1.geometric.length)).min?.getD 0)).map
    (fun i => (ls.map (fun p => (p.1.geometric[i]?).getD 0 * p.2)).sum)

/-- triangulation.py:567-568: the dictionary made from an iterable of laminations: only the first of several equal laminations is kept. -/
def dictOfIterable (ls : List (Lam R)) : List (Lam R × R) :=
  (ls.foldl (fun ks L => if ks.any (fun K => K.eqv L) then ks else ks ++ [L]) []).map (fun L => (L, 1))

/-- triangulation.py:573-574: keep the non-empty laminations of positive multiplicity. -/
def keepNonempty (ls : List (Lam R × R)) : List (Lam R × R) :=
  ls.filter (fun p => !p.1.isEmpty && decide (0 < p.2))

/-- triangulation.py:557-583 `sum(laminations)` for a dictionary of multiplicities, as a list of pairs. -/
def sumDict (P : Lam R → Py LamClass) (T : Triangulation) (ls : List (Lam R × R)) : Py (Lam R) :=
  if ls.any (fun p => p.1.tri != T) then .error .valueError
  else if ls.any (fun p => decide (p.2 < 0)) then .error .valueError
  else if (keepNonempty ls).isEmpty then .ok T.emptyLamination
  else T.lamination P (weighted (keepNonempty ls))

/-- triangulation.py:557-583 `sum(laminations)` for an iterable. -/
def sumList (P : Lam R → Py LamClass) (T : Triangulation) (ls : List (Lam R)) : Py (Lam R) :=
  if ls.any (fun L => L.tri != T) then .error .valueError
  else T.sumDict P (dictOfIterable ls)

/-- triangulation.py:614-629: the class of a disjoint sum of integral laminations. -/
def disjointClass (ls : List (Lam R × R)) : LamClass :=
  let isConnected := decide ((ls.map Prod.snd).sum = 1) && ls.all (fun p => p.1.cls.isConnected)
  if ls.all (fun p => p.1.cls.isMultiArc) then (if isConnected then .arc else .multiarc)
  else if ls.all (fun p => p.1.cls.isMultiCurve) then (if isConnected then .curve else .multicurve)
  else .integral

/-- triangulation.py:585-629 `disjoint_sum(laminations)` for a dictionary of multiplicities. -/
def disjointSumDict (P : Lam R → Py LamClass) (T : Triangulation) (ls : List (Lam R × R)) : Py (Lam R) :=
  if ls.any (fun p => p.1.tri != T) then .error .valueError
  else if ls.any (fun p => decide (p.2 < 0)) then .error .valueError
  else if (keepNonempty ls).isEmpty then .ok T.emptyLamination
  else do
    let b ← pyAllM (fun p => p.1.isIntegral) (keepNonempty ls)
    if !b then T.sumDict P (keepNonempty ls)
    else return ⟨T, weighted (keepNonempty ls), disjointClass (keepNonempty ls)⟩

/-- triangulation.py:585-629 `disjoint_sum(laminations)` for an iterable. -/
def disjointSumList (P : Lam R → Py LamClass) (T : Triangulation) (ls : List (Lam R)) : Py (Lam R) :=
  if ls.any (fun L => L.tri != T) then .error .valueError
  else T.disjointSumDict P (dictOfIterable ls)

end Triangulation

namespace Lam
variable {R : Type} [CommRing R] [LinearOrder R] [Halvable R] [IntTest R]

/-- lamination.py:55-64 `__add__`. -/
def add (P : Lam R → Py LamClass) (L L' : Lam R) : Py (Lam R) :=
  if L'.tri != L.tri then .error .valueError
  else L.tri.lamination P (List.zipWith (· + ·) L.geometric L'.geometric)

/-- lamination.py:67-86 and 283-302 `__mul__` by an `int` for each class: 283-302 applies to the subclasses of
`IntegralLamination`, 67-86 to `Lamination` itself. -/
def mul (P : Lam R → Py LamClass) (L : Lam R) (n : Int) : Py (Lam R) := do
  pyAssert (decide (0 ≤ n))
  let geometric := L.geometric.map (fun x => (n : R) * x)
  match L.cls with
  | .lamination =>
    if n = 0 then return ⟨L.tri, geometric, .integral⟩
    else if n = 1 then return ⟨L.tri, geometric, .lamination⟩
    else L.tri.lamination P geometric
  | c =>
    if n = 0 then return ⟨L.tri, geometric, .lamination⟩
    else if n = 1 then return ⟨L.tri, geometric, c⟩
    else if c.isMultiArc then return ⟨L.tri, geometric, .multiarc⟩
    else if c.isMultiCurve then return ⟨L.tri, geometric, .multicurve⟩
    else return ⟨L.tri, geometric, .lamination⟩

end Lam
end Curver
