import Verif.Model.Short

/-!
# Model of curver/kernel/twist.py: half twists about short arcs
-/

namespace Curver

namespace Lam

/-- arc.py:13-14 `MultiArc.is_short`. -/
def isShortArc {R : Type} [CommRing R] [LinearOrder R] (c : Lam R) : Bool := c.geometric.all (fun w => decide (w ≤ 0))

/-- arc.py:183-194 `Arc.parallel`. -/
def parallelToEdge {R : Type} [CommRing R] [LinearOrder R] [Halvable R] [IntTest R] (c : Lam R) : Py Int := do
  pyAssert c.isShortArc
  let comps ← c.parallelComponents
  match comps with
  | [(component, (multiplicity, edge))] => do
    pyAssert (component.eqv c)
    pyAssert (decide (multiplicity = 1))
    return edge
  | _ => .error .valueError

/-- arc.py:16-19 `MultiArc.vertices`. -/
def arcVertices {R : Type} [CommRing R] [LinearOrder R] [Halvable R] (c : Lam R) : Py (List (List Int)) := do
  let vs ← c.tri.vertices
  let flags ← vs.mapM (fun v => do
    let ws ← v.mapM (fun e => do
      let x ← c.wt e
      let y ← c.leftWeight e
      return decide (x < 0 ∨ y < 0))
    return ws.any id)
  return ((vs.zip flags).filter (fun p => p.2)).map Prod.fst

/-- arc.py:21-25 `MultiArc.has_distinct_endpoints`, for an arc (arc.py:179-181 `Arc.components`: it is its only component). -/
def arcDistinctEndpoints {R : Type} [CommRing R] [LinearOrder R] [Halvable R] (c : Lam R) : Py Bool := do
  let vs ← c.arcVertices
  return decide (vs.length = 2)

end Lam

namespace Enc

/-- encoding.py:413-416 `MappingClass.conjugate_by`. -/
def conjugateBy (self other : Enc) : Py Enc := do
  let i ← other.inverse
  let x ← i.mul self
  x.mul other

end Enc

/-- twist.py:192-237 `HalfTwist`. -/
structure HalfTwist where
  arc : Lam Int
  power : Int
  encoding : Enc
  encodingPower : Enc
  deriving DecidableEq, Repr

namespace HalfTwist

/-- twist.py:218-220 (and 227-229): `while len(h.target_triangulation.vertex_lookup[edge]) > 1`: the edge before `edge` in its triangle is
flipped.  `outOfFuel` when the loop has not stopped after `fuel` flips. -/
def clear (edge : Int) : Nat → Enc → Py Enc
  | fuel, h => do
    let v ← h.target.vertexOf edge
    if v.length > 1 then
      match fuel with
      | 0 => .error .outOfFuel
      | fuel + 1 => do
        let c ← h.target.corner edge
        let m ← h.target.encodeFlip c.z
        let f ← m.encode
        let h ← f.mul h
        clear edge fuel h
    else .ok h

/-- twist.py:211-214: the orientation of the edge whose tail has the smaller valence. -/
def orient (T : Triangulation) (edge : Int) : Py Int := do
  let v ← T.vertexOf edge
  let u ← T.vertexOf (inv edge)
  if v.length > u.length then return inv edge else return edge

/-- twist.py:226-232: the half twist once the tail of the edge has valence one. -/
def rotate (edge : Int) (T : Triangulation) : Py Enc := do
  let half ← T.idEncoding
  let half ← clear (inv edge) (2 * T.zeta) half
  let m ← half.target.findIsometry half.source [(edge, inv edge)]
  let i ← m.encode
  i.mul half

/-- twist.py:206-234: the encoding of the half twist, given an edge parallel to the arc.  The two loops are given `2 * zeta` rounds, that is
one for each oriented edge; C56 shows that they never need more. -/
def build (T : Triangulation) (edge : Int) : Py Enc := do
  let conjugator ← T.idEncoding
  let edge ← orient T edge
  let conjugator ← clear edge (2 * T.zeta) conjugator
  let half ← rotate edge conjugator.target
  half.conjugateBy conjugator

/-- twist.py:196-243 `HalfTwist.__init__`.  `B arc k` stands for `arc.boundary().encode_twist(k)`, which is only called when
`abs(power) > 1`. -/
def create (B : Lam Int → Int → Py Enc) (arc : Lam Int) (power : Int) : Py HalfTwist := do
  pyAssert (decide (arc.cls = .arc))
  pyAssert arc.isShortArc
  pyAssert (decide (power ≠ 0))
  let edge ← arc.parallelToEdge
  let encoding ← build arc.tri edge
  if |power| ≤ 1 then do
    let p ← encoding.pow power
    return ⟨arc, power, encoding, p⟩
  else if Int.fmod power 2 = 0 then do
    let p ← B arc (Int.fdiv power 2)
    return ⟨arc, power, encoding, p⟩
  else do
    let t ← B arc (Int.fdiv power 2)
    let p ← t.mul encoding
    return ⟨arc, power, encoding, p⟩

/-- twist.py:247-248 `package`. -/
def package (t : HalfTwist) : Py (Int × Int) := do
  let e ← t.arc.parallelToEdge
  return (e, t.power)

/-- twist.py:256-257 `apply_lamination`. -/
def applyLam {R : Type} [CommRing R] [LinearOrder R] [Halvable R] (t : HalfTwist) (L : Lam R) : Py (Lam R) := t.encodingPower.applyLam L

/-- twist.py:259-260 `apply_homology`. -/
def applyHom (t : HalfTwist) (x : Hom) : Py Hom := t.encodingPower.applyHom x

/-- twist.py:262-263 `inverse`. -/
def inverse (B : Lam Int → Int → Py Enc) (t : HalfTwist) : Py HalfTwist := create B t.arc (-t.power)

/-- twist.py:265-266 `flip_mapping`. -/
def flipMapping (t : HalfTwist) : Py Enc := t.encoding.pow t.power

end HalfTwist
end Curver
