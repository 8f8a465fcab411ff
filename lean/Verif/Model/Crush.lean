import Verif.Model.Shorten
import Verif.Model.MappingEq

/-!
# Model of crushing along curves

curver/kernel/crush.py, curver/kernel/curve.py (`crush`, `is_separating`), curver/kernel/create.py:48-53.

The laminations are integral.  `P` stands for `promote()`.
-/

namespace Curver

/-- create.py:6-10 `link`, 48-53 `crush`: a `Crush` (crush.py:9-18), and its inverse, a `Lift` (crush.py:166-173). -/
structure CrushMove where
  source : Triangulation
  target : Triangulation
  curve : Lam Int
  /-- the matrix of the lift, by rows -/
  matrix : List (List Int)
  /-- crush.py:173 `self.vertices` of the lift -/
  vertices : List (List Int)

namespace CrushMove

/-- The state of the loops at crush.py:56-77 and 81-102. -/
structure State where
  sides : PyDict Int Int
  parallels : PyDict Int Int
  drop : Int

/-- crush.py:57-75, the body of the loop that tightens to the left. -/
def leftStep (T : Triangulation) (st : State) (edge : Int) : Py State := do
  let t ← T.corner edge
  let x := t.x
  let y := t.y
  let z := t.z
  let sx ← st.sides.get x
  let sy ← st.sides.get y
  let sz ← st.sides.get z
  let drop := st.drop
  if 0 ≤ sx ∧ 0 ≤ sy ∧ 0 ≤ sz then
    if drop ≤ sx then return { st with sides := st.sides.set x (sx - drop) }
    else return { st with sides := (st.sides.set x (sx - drop)).set y (sy + sx - drop), drop := sx }
  else if sx < 0 then return { st with sides := (st.sides.set x (sx - drop)).set y (sy - drop), drop := 0 }
  else if sy < 0 then return { st with sides := st.sides.set x (sx - drop) }
  else if drop ≤ sx then return { st with sides := st.sides.set x (sx - drop) }
  else if drop ≤ sx - sz then do
    let p ← st.parallels.get (norm z)
    return ⟨(st.sides.set x 0).set z (sz + (drop - sx)), st.parallels.set (norm z) (p + (drop - sx)), sx⟩
  else do
    let p ← st.parallels.get (norm z)
    return ⟨((st.sides.set x (sx - sz - drop)).set y (sy - (drop - sx + sz))).set z 0, st.parallels.set (norm z) (p - sz), sx⟩

/-- crush.py:82-100, the body of the loop that tightens to the right. -/
def rightStep (T : Triangulation) (st : State) (edge : Int) : Py State := do
  let t ← T.corner edge
  let x := t.x
  let y := t.y
  let z := t.z
  let sx ← st.sides.get x
  let sy ← st.sides.get y
  let sz ← st.sides.get z
  let drop := st.drop
  if 0 ≤ sx ∧ 0 ≤ sy ∧ 0 ≤ sz then
    if drop ≤ sx then return { st with sides := st.sides.set x (sx - drop) }
    else return { st with sides := (st.sides.set x (sx - drop)).set z (sz + sx - drop), drop := sx }
  else if sx < 0 then return { st with sides := (st.sides.set x (sx - drop)).set z (sz - drop), drop := 0 }
  else if sy < 0 then
    if drop ≤ sx then return { st with sides := st.sides.set x (sx - drop) }
    else if drop ≤ sx - sy then do
      let p ← st.parallels.get (norm x)
      return ⟨(st.sides.set x 0).set y (sy + (drop - sx)), st.parallels.set (norm x) (p + (drop - sx)), sx⟩
    else do
      let p ← st.parallels.get (norm x)
      return ⟨((st.sides.set x (sx - sy - drop)).set y 0).set z (sz - (drop - sx + sy)), st.parallels.set (norm x) (p - sy), sx⟩
  else return { st with sides := st.sides.set x (sx - drop) }

/-- crush.py:56-77 and 81-102: the loops with their early stop. -/
def tighten (step : State → Int → Py State) : List Int → State → Py State
  | [], st => .ok st
  | edge :: l, st => do
    let st ← step st edge
    if st.drop = 0 then return st else tighten step l st

/-- crush.py:49 `sides`. -/
def sidesOf (c L : Lam Int) (vEdges : List Int) (aroundV twisting : Int) : Py (PyDict Int Int) := do
  let l ← L.tri.labels.mapM (fun edge => do
    let w ← L.leftWeight edge
    if edge ∈ vEdges ∧ 0 ≤ w then do
      let k ← c.leftWeight edge
      return (edge, w - (k * twisting + aroundV))
    else return (edge, w))
  return PyDict.ofList l

/-- crush.py:111, 115, 122, 126: the number of times that the edge at the corner is crossed. -/
def crossed (sides : PyDict Int Int) (t : Tri) : Py Int := do
  let x ← sides.get t.x
  let y ← sides.get t.y
  let z ← sides.get t.z
  return max x 0 + max y 0 + max (-z) 0

/-- crush.py:106-115, the body of the loop. -/
def rebuildStep (T : Triangulation) (sides parallels : PyDict Int Int) (geometric : List Int) (edge : Int) : Py (List Int) := do
  let t ← T.corner edge
  let p ← parallels.get (norm edge)
  if 0 < p then do
    let q ← parallels.get (norm t.x)
    return geometric.set (norm edge).toNat (-q)
  else do
    let g ← crossed sides t
    let u ← T.corner (inv edge)
    let g' ← crossed sides u
    pyAssert (decide (g = g'))
    return geometric.set (norm edge).toNat g

/-- crush.py:118-126: the weight of the edge `e`. -/
def rebuildLast (T : Triangulation) (sides parallels : PyDict Int Int) (b e : Int) : Py Int := do
  let t ← T.corner (inv e)
  let pe ← parallels.get (norm e)
  let pb ← parallels.get (norm b)
  let se ← sides.get e
  if 0 < pe + pb + max (-se) 0 then return -(pe + pb + max (-se) 0)
  else do
    let g ← crossed sides t
    let u ← T.corner (inv b)
    let g' ← crossed sides u
    pyAssert (decide (g = g'))
    return g

/-- crush.py:29-132 `Crush.apply_lamination`. -/
def applyLam (P : Lam Int → Py LamClass) (m : CrushMove) (L : Lam Int) : Py (Lam Int) := do
  let a ← m.curve.parallelEdge P
  let t ← m.source.corner a
  let b := t.y
  let e := t.z
  let vEdges ← m.curve.around a
  let aroundV ← L.aroundWeight vEdges
  let outV ← L.outWeight vEdges
  let twisting ← L.twistingWeight vEdges aroundV
  let sides ← sidesOf m.curve L vEdges aroundV twisting
  let ps ← vEdges.mapM (fun edge => do
    let w ← L.wt edge
    return (norm edge, max (-w) 0))
  let parallels := PyDict.ofList ps
  let sa ← sides.get a
  let sb ← sides.get b
  let st ← tighten (leftStep L.tri) (Lam.middle vEdges) ⟨sides, parallels, max sa 0 + max (-sb) 0⟩
  let sa ← st.sides.get a
  let sb ← st.sides.get b
  let st ← tighten (rightStep L.tri) (Lam.middle vEdges).reverse ⟨st.sides, st.parallels, max (-sa) 0 + max sb 0⟩
  let geometric ← (vEdges.filter (fun edge => edge ∉ [a, b, e, inv b, inv e])).foldlM (rebuildStep L.tri st.sides st.parallels) L.geometric
  let g ← rebuildLast L.tri st.sides st.parallels b e
  let geometric := (geometric.set (norm e).toNat g).set (norm b).toNat (aroundV - outV)
  m.target.lamination P geometric

/-- One entry of `matrix.dot(x)`. -/
def dotRow (row x : List Int) : Int := (List.zipWith (· * ·) row x).sum

/-- crush.py:160-161 `LinearTransformation.apply_lamination`, for a matrix of integers; `source` and `target` are those of the lift. -/
def linear (P : Lam Int → Py LamClass) (target : Triangulation) (matrix : List (List Int)) (L : Lam Int) : Py (Lam Int) :=
  if matrix.any (fun row => row.length != L.geometric.length) then .error .valueError
  else target.lamination P (matrix.map (fun row => dotRow row L.geometric))

/-- crush.py:178-181 `Lift.apply_lamination`. -/
def liftLam (P : Lam Int → Py LamClass) (m : CrushMove) (L : Lam Int) : Py (Lam Int) := do
  let ok ← pyAllM (fun edge => do
    let w ← L.wt edge
    if 0 ≤ w then do
      let l ← L.leftWeight edge
      return decide (0 ≤ l)
    else return false) m.vertices.flatten
  pyAssert ok
  linear P m.source m.matrix L

/-- create.py:48-53 `crush`: crush.py:11-18 `Crush.__init__`, 142-146 `LinearTransformation.__init__`, 168-173 `Lift.__init__`.
(The set of vertices is listed in the order of their construction.) -/
def create (P : Lam Int → Py LamClass) (source target : Triangulation) (curve : Lam Int) (matrix : List (List Int)) : Py CrushMove := do
  pyAssert (decide (curve.cls = .curve))
  let p ← curve.isPeripheral P
  pyAssert (!p)
  let s ← curve.isShortCurve P
  pyAssert s
  pyAssert (curve.tri == source)
  pyAssert (matrix.length == source.zeta && matrix.all (fun row => row.length == target.zeta))
  let vs ← target.vertices
  let ps ← vs.mapM (fun v => do
    let L ← linear P source matrix (target.curveFromCutSequence v)
    let p ← L.isPeripheral P
    return (v, p))
  return ⟨source, target, curve, matrix, (ps.filter (·.2)).map (·.1)⟩

end CrushMove

/-- encoding.py:14-33 `Encoding`, for compositions of mappings with crushes and lifts.  The parts are kept apart and are listed in the order in which they are applied; the moves of the mappings are not merged into one sequence. -/
inductive CrushPart where
  | enc (h : Enc)
  | crush (m : CrushMove)
  | lift (m : CrushMove)

namespace CrushPart

/-- encoding.py:90-103 `__call__` on a lamination, for one part. -/
def applyLam (P : Lam Int → Py LamClass) : CrushPart → Lam Int → Py (Lam Int)
  | enc h, L => h.applyLam L
  | crush m, L => m.applyLam P L
  | lift m, L => m.liftLam P L

/-- encoding.py:123-126 `inverse`, for one part; moves.py:42-45 and create.py:6-10 for crushes and lifts. -/
def inverse : CrushPart → Py CrushPart
  | enc h => do
    let k ← h.inverse
    return enc k
  | crush m => return lift m
  | lift m => return crush m

end CrushPart

/-- encoding.py:14-33 `Encoding`: the parts and the triangulations where they start and end. -/
structure CrushEnc where
  parts : List CrushPart
  source : Triangulation
  target : Triangulation

namespace CrushEnc

/-- encoding.py:90-103 `__call__` on a lamination. -/
def applyLam (P : Lam Int → Py LamClass) (f : CrushEnc) (L : Lam Int) : Py (Lam Int) :=
  if !(f.source.eq L.tri) then .error .valueError
  else f.parts.foldlM (fun L p => p.applyLam P L) L

/-- encoding.py:123-126 `inverse`. -/
def inverse (f : CrushEnc) : Py CrushEnc := do
  let ps ← f.parts.reverse.mapM CrushPart.inverse
  return ⟨ps, f.target, f.source⟩

end CrushEnc

namespace Lam

/-- curve.py:220-223 the label map of `crush`: `e` is glued to `~b` afterwards. -/
def crushLabel (b e x : Int) : Int := if x = e then inv b else if x = inv b then e else x

/-- curve.py:225 `new_triangulation`. -/
def crushTriangulation (T : Triangulation) (b e : Int) : Py Triangulation :=
  Triangulation.create (T.triangles.map (fun t => Tri.create (crushLabel b e t.x) (crushLabel b e t.y) (crushLabel b e t.z)))

/-- curve.py:228-230 the lifting matrix; `l` is the slice from `a` round to `~a` without its first entry. -/
def crushMatrix (z : Nat) (b e : Int) (l : List Int) : List (List Int) :=
  (List.range z).map (fun (j : Nat) => (List.range z).map (fun (i : Nat) =>
    if (i : Int) = norm b then ((l.map norm).count (j : Int) : Int) else if (i : Int) = norm e ∧ (j : Int) = norm b then 1 else if i = j then 1 else 0))

/-- curve.py:216-232: the crush along a short curve. -/
def crushShort (P : Lam Int → Py LamClass) (short : Lam Int) : Py CrushMove := do
  let a ← short.parallelEdge P
  let t ← short.tri.corner a
  let b := t.y
  let e := t.z
  let T' ← crushTriangulation short.tri b e
  let l ← short.around a
  CrushMove.create P short.tri T' short (crushMatrix short.tri.zeta b e (l.drop 1))

/-- curve.py:192-236 `Curve.crush`.  `S` stands for `shorten`. -/
def crushWith (S : Lam Int → Py (Lam Int × Enc)) (P : Lam Int → Py LamClass) (c : Lam Int) : Py CrushEnc := do
  let p ← c.isPeripheral P
  if p then do
    let i ← c.tri.idEncoding
    return ⟨[.enc i], i.source, i.target⟩
  else do
    let (short, conjugator) ← S c
    let m ← crushShort P short
    let all ← conjugator.applyLam c.tri.asLamination
    let image ← m.applyLam P all
    let (_, post) ← S image
    return ⟨[.enc conjugator, .crush m, .enc post], conjugator.source, post.target⟩

/-- curve.py:192-236 `Curve.crush`. -/
def crush (P : Lam Int → Py LamClass) (dflt : Int → Int → Bool) (fuel : Nat) (c : Lam Int) : Py CrushEnc := c.crushWith (shortenAll P dflt fuel dflt) P

/-- curve.py:101-108 `is_separating`, for a `Curve`. -/
def isSeparating (P : Lam Int → Py LamClass) (dflt : Int → Int → Bool) (fuel : Nat) (c : Lam Int) : Py Bool := do
  let f ← c.crush P dflt fuel
  let ds ← f.target.components
  let cs ← c.tri.components
  return decide (cs.length < ds.length)

end Lam
end Curver
