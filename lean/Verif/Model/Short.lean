import Verif.Model.Peripheral
import Verif.Model.Encoding
import Mathlib.Algebra.Order.Floor.Ring
import Mathlib.Data.Rat.Floor

/-!
# Model of the curves and arcs parallel to edges, and of intersection numbers and slopes of short curves

curver/kernel/lamination.py, curver/kernel/curve.py, curver/kernel/arc.py, curver/kernel/triangulation.py.
-/

namespace Curver

/-- The numbers for which `abs(slope.numerator) // slope.denominator` makes sense when `slope = Fraction(x, y)` (twist.py:71): `int` and
`Fraction`.  `floorDiv x y` is the integer part of the fraction `x / y`. -/
class FloorDiv' (R : Type) [CommRing R] [LinearOrder R] where
  floorDiv : R → R → Int
  floorDiv_le : ∀ x y, 0 < y → (floorDiv x y : R) * y ≤ x
  lt_floorDiv : ∀ x y, 0 < y → x < (floorDiv x y + 1 : R) * y

instance : FloorDiv' Int where
  floorDiv x y := Int.fdiv x y
  floorDiv_le x y h := by
    rw [Int.fdiv_eq_ediv_of_nonneg _ h.le]; exact Int.ediv_mul_le x (by omega)
  lt_floorDiv x y h := by
    rw [Int.fdiv_eq_ediv_of_nonneg _ h.le]; exact Int.lt_ediv_add_one_mul_self x h

instance : FloorDiv' Rat where
  floorDiv x y := ⌊x / y⌋
  floorDiv_le x y h := by
    have := Int.floor_le (x / y)
    rwa [le_div_iff₀ h] at this
  lt_floorDiv x y h := by
    have := Int.lt_floor_add_one (x / y)
    rwa [div_lt_iff₀ h] at this

namespace Triangulation

/-- triangulation.py:631-648 `edge_curve`. -/
def edgeCurve {R : Type} [CommRing R] (T : Triangulation) (e : Int) : Py (Lam R) := do
  let v ← T.vertexOf e
  let u ← T.vertexOf (inv e)
  if v = u then do
    let l ← cyclicSlice v e (some (inv e))
    return T.curveFromCutSequence (l.drop 1)
  else if v.length = 1 then do
    let l ← cyclicSlice u (inv e) none
    return T.curveFromCutSequence (l.drop 2).dropLast
  else if u.length = 1 then do
    let l ← cyclicSlice v e none
    return T.curveFromCutSequence (l.drop 2).dropLast
  else return T.curveFromCutSequence ((v ++ u).filter (fun f => !(f == e || f == inv e)))

/-- triangulation.py:655-660 `edge_arc`. -/
def edgeArcOf {R : Type} [CommRing R] (T : Triangulation) (e : Int) : Lam R :=
  ⟨T, (List.range T.zeta).map (fun (i : Nat) => if (i : Int) ≠ norm e then 0 else -1), .arc⟩

end Triangulation

namespace Lam

section
variable {R : Type} [CommRing R] [LinearOrder R]

/-- lamination.py:91-94 `weight`. -/
def weight (L : Lam R) : R := (L.geometric.map (fun x => max x 0)).sum

/-- lamination.py:116-123 `left_weight(edge, double=True)`. -/
def leftWeight2 (L : Lam R) (e : Int) : Py R := do
  let t ← L.tri.corner e
  L.dualWeight2 t.y

variable [Halvable R]

/-- lamination.py:269-270 (and 339-340, curve.py:147-150): the edges that come out of the tail of `e` from `e` round to `~e`. -/
def around (L : Lam R) (e : Int) : Py (List Int) := do
  let v ← L.tri.vertexOf e
  cyclicSlice v e (some (inv e))

/-- lamination.py:272 (and curve.py:151): `maximin([0], (self.left_weight(edgy) for edgy in v_edges))`. -/
def aroundWeight (L : Lam R) (vEdges : List Int) : Py R := do
  let ws ← vEdges.mapM L.leftWeight
  maximin [[0], ws]

/-- `l[1:-1]`. -/
def middle {α : Type} (l : List α) : List α := (l.drop 1).dropLast

/-- lamination.py:273 (and curve.py:157): `maximin([0], (self.left_weight(edgy) - around_v for edgy in v_edges[1:-1]))`. -/
def twistingWeight (L : Lam R) (vEdges : List Int) (aroundV : R) : Py R := do
  let ws ← (middle vEdges).mapM L.leftWeight
  maximin [[0], ws.map (fun w => w - aroundV)]

/-- lamination.py:266-277: the curve parallel to the edge and how often it occurs, if it does. -/
def parallelCurve (L : Lam R) (e : Int) : Py (Option (Lam R × R)) := do
  let v ← L.tri.vertexOf e
  let u ← L.tri.vertexOf (inv e)
  if v = u then do
    let vEdges ← L.around e
    if vEdges.length > 2 then do
      let aroundV ← L.aroundWeight vEdges
      let twisting ← L.twistingWeight vEdges aroundV
      match vEdges.head?, vEdges.getLast? with
      | some first, some last => do
        let x ← L.leftWeight first
        if x = aroundV then do
          let y ← L.leftWeight last
          if y = aroundV then
            if 0 < twisting then do
              let c ← L.tri.edgeCurve e
              return some (c, twisting)
            else return none
          else return none
        else return none
      | _, _ => .error .indexError
    else return none
  else return none

/-- lamination.py:261-264: the arc parallel to the edge and how often it occurs, if it does. -/
def parallelArc (L : Lam R) (e : Int) : Py (Option (Lam R × R)) := do
  if sign e = 1 then do
    let x ← L.wt e
    if 0 < -x then return some (L.tri.edgeArcOf e, -x) else return none
  else return none

variable [IntTest R]

/-- lamination.py:260-277: the body of the loop of `parallel_components`. -/
def parallelStep (L : Lam R) (components : List (Lam R × (R × Int))) (e : Int) : Py (List (Lam R × (R × Int))) := do
  let arc ← L.parallelArc e
  let components := match arc with
    | some (a, k) => setComponent components a (k, e)
    | none => components
  let curve ← L.parallelCurve e
  return match curve with
    | some (c, k) => setComponent components c (k, e)
    | none => components

/-- lamination.py:255-279 `parallel_components`. -/
def parallelComponents (L : Lam R) : Py (List (Lam R × (R × Int))) := L.tri.labels.foldlM L.parallelStep []

/-- curve.py:130-131 `Curve.is_short`: `self.is_peripheral() or len(self.parallel_components()) == 1`. -/
def isShortCurve (P : Lam R → Py LamClass) (c : Lam R) : Py Bool := do
  let p ← c.isPeripheral P
  if p then return true
  else do
    let comps ← c.parallelComponents
    return comps.length == 1

/-- curve.py:116-128 `Curve.parallel`. -/
def parallelEdge (P : Lam R → Py LamClass) (c : Lam R) : Py Int := do
  let p ← c.isPeripheral P
  pyAssert (!p)
  let s ← c.isShortCurve P
  pyAssert s
  let comps ← c.parallelComponents
  match comps with
  | [(component, (multiplicity, edge))] => do
    pyAssert (component.eqv c)
    pyAssert (decide (multiplicity = 1))
    return edge
  | _ => .error .valueError

end

/-- lamination.py:689-698: the arcs and curves parallel to edges are subtracted; what remains, and the edges with their multiplicities, which
are added to `arc_components` and `curve_components`. -/
def subtractFrom (L : Lam Int) (arcs curves : PyDict Int Int) : Py (List Int × (PyDict Int Int × PyDict Int Int)) := do
  let comps ← L.parallelComponents
  comps.foldlM (fun (st : List Int × (PyDict Int Int × PyDict Int Int)) p => do
    let x ← L.wt p.2.2
    if x ≤ 0 then
      let geometric := List.zipWith (fun x y => x - y * p.2.1) st.1 p.1.geometric
      if p.1.cls = .arc then return (geometric, (st.2.1.set p.2.2 p.2.1, st.2.2))
      else return (geometric, (st.2.1, st.2.2.set p.2.2 p.2.1))
    else return st) (L.geometric, (arcs, curves))

/-- lamination.py:689-698 in the first round. -/
def subtractParallel (L : Lam Int) : Py (List Int × (PyDict Int Int × PyDict Int Int)) := L.subtractFrom [] []

/-- lamination.py:648-789 `shorten`, as far as it goes without flips: the model stops (`outOfFuel`) when something remains after the components
parallel to edges have been subtracted (line 700), which does not happen when the lamination is short. -/
def shorten (P : Lam Int → Py LamClass) (L : Lam Int) : Py (Lam Int × Enc) := do
  let peripheral ← L.peripheral P
  let lamination ← L.nonPeripheral P (promote := false)
  let conjugator ← L.tri.idEncoding
  let (geometric, (arcs, curves)) ← lamination.subtractParallel
  if geometric.all (fun x => x == 0) then do
    let curveTerms ← curves.mapM (fun p => do
      let c ← L.tri.edgeCurve p.1
      return (c, p.2))
    let terms := (peripheral, 1) :: (arcs.map (fun p => (L.tri.edgeArcOf p.1, p.2)) ++ curveTerms)
    let short ← L.tri.disjointSumDict P (terms.foldl (fun d p => setComponent d p.1 p.2) [])
    return (short, conjugator)
  else .error .outOfFuel

variable {R : Type} [CommRing R] [LinearOrder R] [Halvable R]

/-- lamination.py:343 (and curve.py:152) `out_v`. -/
def outWeight (L : Lam R) (vEdges : List Int) : Py R := do
  let ls ← vEdges.mapM L.leftWeight
  let ws ← (vEdges.drop 1).mapM L.wt
  return (ls.map (fun x => max (-x) 0)).sum + (ws.map (fun x => max (-x) 0)).sum

/-- lamination.py:328-330: the contribution of `multiplicity` curves around the vertex. -/
def vertexCrossings (L : Lam R) (vertex : List Int) : Py R := do
  let xs ← vertex.mapM (fun e => do
    let x ← L.wt e
    let y ← L.leftWeight e
    return max (-x) 0 + max (-y) 0)
  return xs.sum

/-- lamination.py:333-345: the contribution of one component parallel to the edge `p`. -/
def parallelCrossings (L : Lam R) (isArc : Bool) (p : Int) : Py R :=
  if isArc then L.wt0 p
  else do
    let vEdges ← L.around p
    let around2 ← do
      let ws ← vEdges.mapM L.leftWeight2
      maximin [[0], ws]
    let out ← L.outWeight vEdges
    let x ← L.wt0 p
    return x - around2 + out

/-- lamination.py:314-347 `intersection`, with one lamination. -/
def intersection (P : Lam Int → Py LamClass) (c : Lam Int) (L : Lam R) : Py R := do
  pyAssert (L.tri == c.tri)
  let (short, conjugator) ← c.shorten P
  let shortL ← conjugator.applyLam L
  let per ← short.peripheralComponents
  let xs ← per.mapM (fun q => do
    let x ← L.vertexCrossings q.2.2
    return (q.2.1 : R) * x)
  let par ← short.parallelComponents
  let ys ← par.mapM (fun q => do
    let y ← shortL.parallelCrossings (decide (q.1.cls = .arc)) q.2.2
    return (q.2.1 : R) * y)
  return xs.sum + ys.sum

/-- curve.py:133-167 `slope`: the numerator (with its sign) and the denominator of the fraction.  `S` stands for `shorten`. -/
def slopeWith (c : Lam Int) (S : Lam Int → Py (Lam Int × Enc)) (P : Lam Int → Py LamClass) (L : Lam R) : Py (R × R) := do
  let p ← c.isPeripheral P
  if p then .error .valueError
  else do
    let (short, conjugator) ← S c
    let shortL ← conjugator.applyLam L
    let a ← short.parallelEdge P
    let vEdges ← shortL.around a
    let aroundV ← shortL.aroundWeight vEdges
    let out ← shortL.outWeight vEdges
    let x ← shortL.wt0 a
    let denominator := x - 2 * aroundV + out
    if denominator = 0 then .error .valueError
    else do
      let twisting ← shortL.twistingWeight vEdges aroundV
      let l ← shortL.leftWeight a
      let r ← shortL.rightWeight a
      let s : R := if l - aroundV > 0 ∨ r < 0 then -1 else 1
      return (s * twisting, denominator)

/-- curve.py:133-167 `slope` of a short curve. -/
def slope (P : Lam Int → Py LamClass) (c : Lam Int) (L : Lam R) : Py (R × R) := c.slopeWith (fun c => c.shorten P) P L

end Lam
end Curver
