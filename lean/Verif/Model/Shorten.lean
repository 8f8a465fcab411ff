import Verif.Model.Twist
import Verif.Model.HalfTwist

/-!
# Model of `shorten`, curver/kernel/lamination.py:648-789, with the functions it calls

`shorten` calls itself (through `multiarc.shorten()`, and through `slope` and `encode_twist` of the curve it twists about), and its loops are
`while True`.  Here every loop and the recursion have fuel; `outOfFuel` means that it ran out.

The comparison of line 732, which is done with floating point numbers, is a parameter: `slow w w'` says whether
`drop > 0 and (1 - drop) * w < w'`.  With `drop = 0` it is always false.
-/

namespace Curver

/-- utilities.py:69-78 `maximum(items, key, upper_bound)`, for a key that may raise: the best item so far with its key. -/
def maximumFrom (key : Int → Py Int) (ub : Int) : Int × Int → List Int → Py (Int × Int)
  | best, [] => .ok best
  | best, x :: l => do
    let k ← key x
    let best := if best.2 < k then (x, k) else best
    if ub ≤ k then return best else maximumFrom key ub best l

/-- utilities.py:69-78 `maximum(items, key, upper_bound)`, for a key that may raise: the item with its key. -/
def maximumM (key : Int → Py Int) (ub : Int) : List Int → Py (Int × Int)
  | [] => .error .valueError
  | x :: l => do
    let k ← key x
    if ub ≤ k then return (x, k) else maximumFrom key ub (x, k) l

namespace Lam

/-- lamination.py:668-684 `shorten_strategy`, doubled: 2 for a non-parallel arc, 1 for a bipod, 0 otherwise. -/
def shortenStrategy (L : Lam Int) (edge : Int) : Py Int := do
  let f ← L.tri.isFlippable edge
  if f then do
    let s ← L.tri.square edge
    let ad ← L.dualWeight s.a
    let bd ← L.dualWeight s.b
    let _ ← L.dualWeight s.c
    let _ ← L.dualWeight s.d
    let ed ← L.dualWeight s.e
    if ed < 0 then return 2
    else if ed = 0 ∧ ad > 0 ∧ bd > 0 then return 1
    else return 0
  else return 0

/-- `any(f(x) for x in l)`: stops at the first true value; an exception of `f` is passed on. -/
def pyAnyM {α : Type _} (f : α → Py Bool) : List α → Py Bool
  | [] => .ok false
  | x :: l => do
    let b ← f x
    if b then return true else pyAnyM f l

/-- lamination.py:702: `any(lamination(edge) < 0 or lamination.dual_weight(edge) < 0 for edge in lamination.triangulation.edges)`. -/
def hasArcs (L : Lam Int) : Py Bool :=
  pyAnyM (fun e => do
    let x ← L.wt e
    if x < 0 then return true
    else do
      let d ← L.dualWeight e
      return decide (d < 0)) L.tri.labels

/-- lamination.py:213: `dict((edge, self.dual_weight(edge)) for edge in self.triangulation.edges)`: every dual weight is computed. -/
def dualWeights (L : Lam Int) : Py (List Int) := L.tri.labels.mapM L.dualWeight

/-- lamination.py:215-240: the loop of `trace_curve`; `trace` is the list of the edges passed so far. -/
def traceFrom (L : Lam Int) (start tilde : Int) : Nat → Int → Int → Int → Int → List Int → Py (Lam Int)
  | 0, _, _, _, _, _ => .error .valueError
  | n + 1, edge, intersection, lower, upper, trace => do
    let t ← L.tri.corner (inv edge)
    let dx ← L.dualWeight t.x
    let dz ← L.dualWeight t.z
    let wx ← L.wt t.x
    let wz ← L.wt t.z
    if ¬ intersection < dz ∧ dx < 0 ∧ dz ≤ intersection ∧ intersection < dz - dx then .error .valueError
    else do
      let next := if intersection < dz then t.y else t.z
      let intersection := if intersection < dz then intersection else wz - wx + intersection
      let w ← L.wt next
      if next = start then
        if lower < w - intersection ∧ w - intersection < upper then return L.tri.curveFromCutSequence trace else .error .valueError
      else do
        let lower' := if next = inv start ∧ intersection < tilde then max lower intersection else lower
        let upper' := if next = inv start ∧ ¬ intersection < tilde ∧ intersection > tilde then min upper intersection else upper
        pyAssert (decide (0 ≤ intersection ∧ intersection < w))
        traceFrom L start tilde n next intersection lower' upper' (trace ++ [next])

/-- lamination.py:188-240 `trace_curve`. -/
def traceCurve (L : Lam Int) (edge intersection : Int) (maxLength : Nat) : Py (Lam Int) := do
  let w ← L.wt edge
  pyAssert (decide (0 ≤ intersection ∧ intersection < w))
  let _ ← L.dualWeights
  L.traceFrom edge (w - intersection) maxLength edge intersection (-1) (w + 1) [edge]

/-- lamination.py:634-646 `IntegralLamination.is_short`. -/
def isShortLam (P : Lam Int → Py LamClass) (L : Lam Int) : Py Bool := do
  let lamination ← L.nonPeripheral P (promote := false)
  let comps ← lamination.parallelComponents
  return (comps.foldl (fun g p => List.zipWith (fun x y => x - y * p.2.1) g p.1.geometric) lamination.geometric).all (fun x => x == 0)

/-- `is_short`: lamination.py:634-646, curve.py:130-131, arc.py:13-14, according to the class. -/
def isShort (P : Lam Int → Py LamClass) (L : Lam Int) : Py Bool :=
  match L.cls with
  | .curve => L.isShortCurve P
  | .multiarc => return L.isShortArc
  | .arc => return L.isShortArc
  | _ => L.isShortLam P

/-- `components`: lamination.py:618-632, curve.py:113-114, arc.py:180-181, according to the class.  `S` stands for `shorten`. -/
def componentsWith (S : Lam Int → Py (Lam Int × Enc)) (L : Lam Int) : Py (List (Lam Int × Int)) :=
  match L.cls with
  | .curve => return [(L, 1)]
  | .arc => return [(L, 1)]
  | _ => do
    let (short, conjugator) ← S L
    let conjugatorInv ← conjugator.inverse
    let per ← short.peripheralComponents
    let components ← per.foldlM (fun d p => do
      let c ← conjugatorInv.applyLam p.1
      return setComponent d c p.2.1) []
    let par ← short.parallelComponents
    par.foldlM (fun d p => do
      let c ← conjugatorInv.applyLam p.1
      return setComponent d c p.2.1) components

/-- utilities.py:114-131 `product(iterable, start)`: the items are multiplied on the left. -/
def encProduct (start : Enc) : List Enc → Py Enc
  | [] => .ok start
  | h :: l => l.foldlM (fun result g => g.mul result) h

/-- curve.py:28-35: the twists about the components that are not peripheral.  In Python each is the encoding of a single move, `Twist`; here it is
the flips and the isometry that the move stands for (twist.py:102-103 `flip_mapping`), which act in the same way (C53). -/
def componentTwists (P : Lam Int → Py LamClass) (power : Int) : List (Lam Int × Int) → Py (List Enc)
  | [] => .ok []
  | (c, multiplicity) :: l => do
    let p ← c.isPeripheral P
    if p then componentTwists P power l
    else do
      let t ← Twist.create P c (power * multiplicity)
      let h ← t.flipMapping
      let hs ← componentTwists P power l
      return h :: hs

/-- curve.py:20-38 `encode_twist`.  `S` stands for `shorten`. -/
def encodeTwistWith (S : Lam Int → Py (Lam Int × Enc)) (P : Lam Int → Py LamClass) (c : Lam Int) (power : Int) : Py Enc := do
  let p ← c.isPeripheral P
  if p = true ∨ power = 0 then c.tri.idEncoding
  else do
    let (short, conjugator) ← S c
    let comps ← short.componentsWith S
    let hs ← componentTwists P power comps
    let start ← short.tri.idEncoding
    let h ← encProduct start hs
    h.conjugateBy conjugator

/-- lamination.py:314-347 `intersection`, with one lamination.  `S` stands for `shorten`. -/
def intersectionWith {R : Type} [CommRing R] [LinearOrder R] [Halvable R] (S : Lam Int → Py (Lam Int × Enc)) (c : Lam Int) (L : Lam R) : Py R := do
  pyAssert (L.tri == c.tri)
  let (short, conjugator) ← S c
  let shortL ← conjugator.applyLam L
  let per ← short.peripheralComponents
  let xs ← per.mapM (fun q => do
    let x ← L.vertexCrossings q.2.2
    return (q.2.1 : R) * x)
  let par ← short.parallelComponents
  let ys ← par.mapM (fun q => do
    let y ← shortL.parallelCrossings (decide (q.1.cls = .arc)) q.2.2
    return (q.2.1 : R) * y)
  return xs.sum + ys.sum

/-- lamination.py:733-737: the twist that makes the lamination shorter, if its slope is large enough. -/
def accelerate (S : Lam Int → Py (Lam Int × Enc)) (P : Lam Int → Py LamClass) (L : Lam Int) (edge : Int) : Py (Option Enc) := do
  let l ← L.leftWeight edge
  let c ← L.traceCurve edge l (2 * L.tri.zeta)
  let (num, den) ← c.slopeWith S P L
  if 2 * |den| < |num| then do
    let h ← c.encodeTwistWith S P (-(Int.tdiv num den))
    return some h
  else return none

/-- the variables of the loop in lamination.py:706-747. -/
structure FlipState where
  lam : Lam Int
  peripheral : Lam Int
  conjugator : Enc
  turnLeft : Nat
  turnRight : Nat
  extra : List Int

/-- lamination.py:717-724: `turn_left` and `turn_right`. -/
def turns (extra : List Int) (edge : Int) (l r : Nat) : Nat × Nat :=
  match extra with
  | c :: d :: _ => if edge = c then (l + 1, 0) else if edge = d then (0, r + 1) else (0, 0)
  | _ => (l, r)

/-- lamination.py:726-743: which move to make when `edge` has been chosen and its flip is `flip`, with the new `turn_left`, `turn_right` and `extra`.
The flip is applied also when `drop` is zero, which makes no difference since it is applied again later. -/
def chooseMove (S : Lam Int → Py (Lam Int × Enc)) (P : Lam Int → Py LamClass) (slow : Int → Int → Bool) (zeta : Nat) (st : FlipState)
    (edge c d : Int) (l r : Nat) (flip : Enc) : Py (Enc × (Nat × (Nat × List Int))) :=
  if max l r > 2 * zeta ∧ st.lam.weight > 4 * zeta then do
    let lam' ← flip.applyLam st.lam
    if slow st.lam.weight lam'.weight then
      match accelerate S P st.lam edge with
      | .ok (some h) => return (h, (0, (0, st.extra)))
      | .ok none => return (flip, (l, (r, st.extra)))
      | .error .valueError => return (flip, (l, (r, [c, d])))
      | .error err => .error err
    else return (flip, (l, (r, [c, d])))
  else return (flip, (l, (r, [c, d])))

/-- lamination.py:706-747: the flips, and twists, of one round. -/
def flipRounds (S : Lam Int → Py (Lam Int × Enc)) (P : Lam Int → Py LamClass) (slow : Int → Int → Bool) (zeta : Nat) (ub : Int) :
    Nat → FlipState → Py FlipState
  | 0, _ => .error .outOfFuel
  | n + 1, st => do
    let (edge, key) ← maximumM st.lam.shortenStrategy ub (st.extra ++ st.lam.tri.labels)
    if key = 0 then return st
    else do
      let (l, r) := turns st.extra edge st.turnLeft st.turnRight
      let s ← st.lam.tri.square edge
      let m ← st.lam.tri.encodeFlip edge
      let flip ← m.encode
      let (move, (l, (r, extra))) ← chooseMove S P slow zeta st edge s.c s.d l r flip
      let conjugator ← move.mul st.conjugator
      let lam ← move.applyLam st.lam
      let peripheral ← move.applyLam st.peripheral
      flipRounds S P slow zeta ub n ⟨lam, peripheral, conjugator, l, r, extra⟩

/-- lamination.py:749-750: the two assertions. -/
def noBipods (L : Lam Int) : Py Unit := do
  let b ← pyAllM (fun e => do
    let x ← L.leftWeight e
    return decide (0 ≤ x)) L.tri.labels
  pyAssert b
  let b ← pyAllM (fun t : Tri => do
    let xs ← [t.x, t.y, t.z].mapM L.leftWeight
    return decide ((xs.filter (fun x => decide (0 < x))).length ≠ 2)) L.tri.triangles
  pyAssert b

/-- lamination.py:771: `add_sequence or lamination.right_weight(edge) <= 0`. -/
def addNow (L : Lam Int) (add : Bool) (edge : Int) : Py Bool :=
  if add then .ok true
  else do
    let x ← L.rightWeight edge
    return decide (x ≤ 0)

/-- lamination.py:763-773: follow the lamination until it is back at `start`; the used edges and the sequence. -/
def follow (L : Lam Int) (start : Int) : Nat → Int → Bool → List Int × List Int → Py (List Int × List Int)
  | 0, _, _, _ => .error .outOfFuel
  | n + 1, edge, add, (used, sequence) => do
    let used := edge :: used
    let sequence := if add then sequence ++ [edge] else sequence
    let t ← L.tri.corner (inv edge)
    let x ← L.leftWeight (inv edge)
    let next := if 0 < x then t.z else t.y
    let add ← L.addNow add next
    if next = start then return (used, sequence) else follow L start n next add (used, sequence)

/-- lamination.py:757-758: `starting_edge in used_edges or lamination.left_weight(starting_edge) <= 0 or lamination.right_weight(starting_edge) > 0`. -/
def skipStart (L : Lam Int) (used : List Int) (e : Int) : Py Bool :=
  if e ∈ used then .ok true
  else do
    let x ← L.leftWeight e
    if x ≤ 0 then return true
    else do
      let y ← L.rightWeight e
      return decide (0 < y)

/-- lamination.py:752-773: `sequence`. -/
def cutSequence (L : Lam Int) (fuel : Nat) : Py (List Int) := do
  let st ← L.tri.labels.foldlM (fun (st : List Int × List Int) e => do
    let b ← L.skipStart st.1 e
    if b then return st else follow L e fuel e false st) ([], [])
  return st.2

/-- the variables of the loop in lamination.py:686-778. -/
structure RoundState where
  lam : Lam Int
  peripheral : Lam Int
  conjugator : Enc
  arcs : PyDict Int Int
  curves : PyDict Int Int
  hasArcs : Bool

/-- lamination.py:703: `has_arcs and any(...)`. -/
def stillArcs (b : Bool) (L : Lam Int) : Py Bool := if b then L.hasArcs else .ok false

/-- lamination.py:775-778: the sequence is made into a multiarc, which is shortened. -/
def cutAlong (S : Lam Int → Py (Lam Int × Enc)) (sequence : List Int) (st : FlipState) : Py FlipState :=
  if sequence.isEmpty then return st
  else do
    let (_, h) ← S ⟨st.lam.tri, st.lam.tri.cutSequenceIntersections sequence, .integral⟩
    let conjugator ← h.mul st.conjugator
    let lam ← h.applyLam st.lam
    let peripheral ← h.applyLam st.peripheral
    return { st with lam, peripheral, conjugator }

/-- lamination.py:687-778: the rounds. -/
def rounds (S : Lam Int → Py (Lam Int × Enc)) (P : Lam Int → Py LamClass) (slow : Int → Int → Bool) (zeta fuel : Nat) : Nat → RoundState → Py RoundState
  | 0, _ => .error .outOfFuel
  | n + 1, st => do
    let (geometric, (arcs, curves)) ← st.lam.subtractFrom st.arcs st.curves
    let lam : Lam Int := ⟨st.lam.tri, geometric, .integral⟩
    if lam.isEmpty then return { st with lam, arcs, curves }
    else do
      let hasArcs ← stillArcs st.hasArcs lam
      let f ← flipRounds S P slow zeta (if hasArcs then 2 else 1) fuel ⟨lam, st.peripheral, st.conjugator, 0, 0, []⟩
      f.lam.noBipods
      let sequence ← f.lam.cutSequence fuel
      let f ← cutAlong S sequence f
      rounds S P slow zeta fuel n ⟨f.lam, f.peripheral, f.conjugator, arcs, curves, hasArcs⟩

/-- lamination.py:780-787: the image of the lamination is rebuilt from its components. -/
def rebuild (P : Lam Int → Py LamClass) (T : Triangulation) (peripheral : Lam Int) (arcs curves : PyDict Int Int) : Py (Lam Int) := do
  let curveTerms ← curves.mapM (fun p => do
    let c ← T.edgeCurve p.1
    return (c, p.2))
  let terms := (peripheral, 1) :: (arcs.map (fun p => (T.edgeArcOf p.1, p.2)) ++ curveTerms)
  T.disjointSumDict P (terms.foldl (fun d p => setComponent d p.1 p.2) [])

/-- lamination.py:648-789 `shorten`, given `S` for the calls to `shorten` that it makes. -/
def shortenStep (S : Lam Int → Py (Lam Int × Enc)) (P : Lam Int → Py LamClass) (slow : Int → Int → Bool) (fuel : Nat) (L : Lam Int) : Py (Lam Int × Enc) := do
  let peripheral ← L.peripheral P
  let lamination ← L.nonPeripheral P (promote := false)
  let conjugator ← L.tri.idEncoding
  let st ← rounds S P slow L.tri.zeta fuel fuel ⟨lamination, peripheral, conjugator, [], [], true⟩
  let short ← rebuild P st.lam.tri st.peripheral st.arcs st.curves
  let b ← short.isShort P
  pyAssert b
  return (short, st.conjugator)

/-- lamination.py:648-789 `shorten(drop)`; `slow` stands for `drop`, and `dflt` for the default 0.1 of the calls that `shorten` makes to itself. -/
def shortenAll (P : Lam Int → Py LamClass) (dflt : Int → Int → Bool) : Nat → (Int → Int → Bool) → Lam Int → Py (Lam Int × Enc)
  | 0, _, _ => .error .outOfFuel
  | n + 1, slow, L => shortenStep (shortenAll P dflt n dflt) P slow n L

/-- lamination.py:618-632 `components`. -/
def componentsAll (P : Lam Int → Py LamClass) (dflt : Int → Int → Bool) (fuel : Nat) (L : Lam Int) : Py (List (Lam Int × Int)) :=
  L.componentsWith (shortenAll P dflt fuel dflt)

/-- curve.py:20-38 `encode_twist`. -/
def encodeTwist (P : Lam Int → Py LamClass) (dflt : Int → Int → Bool) (fuel : Nat) (c : Lam Int) (power : Int) : Py Enc :=
  c.encodeTwistWith (shortenAll P dflt fuel dflt) P power

/-- lamination.py:314-347 `intersection`, with one lamination. -/
def intersectionAll {R : Type} [CommRing R] [LinearOrder R] [Halvable R] (P : Lam Int → Py LamClass) (dflt : Int → Int → Bool) (fuel : Nat) (c : Lam Int) (L : Lam R) : Py R :=
  c.intersectionWith (shortenAll P dflt fuel dflt) L

end Lam
end Curver
