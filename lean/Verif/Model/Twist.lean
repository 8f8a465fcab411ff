import Verif.Model.Short

/-!
# Model of curver/kernel/twist.py: Dehn twists about short curves
-/

namespace Curver

/-- twist.py:10-38 `Twist`. -/
structure Twist where
  curve : Lam Int
  power : Int
  encoding : Enc
  powerSign : Int
  signedEncoding : Enc
  deriving DecidableEq, Repr

namespace Twist

/-- twist.py:32-33: `for _ in range(num_flips)`: the edge before `a` in its triangle is flipped. -/
def flips (a : Int) : Nat → Enc → Py Enc
  | 0, twist => .ok twist
  | n + 1, twist => do
    let c ← twist.target.corner a
    let m ← twist.target.encodeFlip c.z
    let f ← m.encode
    let twist ← f.mul twist
    flips a n twist

/-- twist.py:29-34: the encoding of the twist, given the edge parallel to the curve. -/
def build (curve : Lam Int) (a : Int) : Py Enc := do
  let d ← curve.dualWeight a
  let numFlips := curve.weight - d
  let twist ← curve.tri.idEncoding
  let twist ← flips a numFlips.toNat twist
  let m ← twist.target.findIsometry twist.source [(a, a)]
  let i ← m.encode
  i.mul twist

/-- twist.py:14-38 `Twist.__init__`. -/
def create (P : Lam Int → Py LamClass) (curve : Lam Int) (power : Int) : Py Twist := do
  pyAssert (decide (curve.cls = .curve))
  let s ← curve.isShortCurve P
  pyAssert s
  let p ← curve.isPeripheral P
  pyAssert (!p)
  pyAssert (decide (power ≠ 0))
  let a ← curve.parallelEdge P
  let encoding ← build curve a
  let signed ← if power > 0 then .ok encoding else encoding.inverse
  return ⟨curve, power, encoding, if power > 0 then 1 else -1, signed⟩

/-- twist.py:99-100 `inverse`. -/
def inverse (P : Lam Int → Py LamClass) (t : Twist) : Py Twist := create P t.curve (-t.power)

/-- twist.py:42-43 `package`. -/
def package (P : Lam Int → Py LamClass) (t : Twist) : Py (Int × Int) := do
  let a ← t.curve.parallelEdge P
  return (a, t.power)

section
variable {R : Type} [CommRing R] [LinearOrder R] [Halvable R] [FloorDiv' R]

/-- twist.py:74 and 84: add `k` times the curve to the lamination (`lamination.__class__(...)` keeps the class). -/
def shift (t : Twist) (L : Lam R) (k : R) : Lam R :=
  ⟨t.curve.tri, List.zipWith (fun (w : R) (c : Int) => w + k * c) L.geometric t.curve.geometric, L.cls⟩

/-- twist.py:78-81: at most `fuel` twists one at a time; the lamination and the remaining power. -/
def slowly (t : Twist) : Nat → Lam R → Int → Py (Lam R × Int)
  | 0, L, power => .ok (L, power)
  | n + 1, L, power =>
    if power ≠ 0 then do
      let L' ← t.signedEncoding.applyLam L
      slowly t n L' (power - t.powerSign)
    else slowly t n L power

/-- twist.py:51-86 `apply_lamination`. -/
def applyLam (P : Lam Int → Py LamClass) (t : Twist) (L : Lam R) : Py (Lam R) :=
  if |t.power| = 1 then t.signedEncoding.applyLam L
  else do
    let intersection ← t.curve.intersection P L
    if intersection = 0 then return L
    else do
      let (num, den) ← t.curve.slope P L
      let slopeSign : Int := if num > 0 then 1 else -1
      let steps : Int := min |t.power| (FloorDiv'.floorDiv |num| den)
      let (L, power) := if t.power * slopeSign < 0 then (t.shift L (-((steps : R) * intersection)), t.power + slopeSign * steps) else (L, t.power)
      let (L, power) ← t.slowly 3 L power
      if power ≠ 0 then return t.shift L (((|power| : Int) : R) * intersection) else return L

end

/-- twist.py:88-97 `apply_homology`. -/
def applyHom (P : Lam Int → Py LamClass) (t : Twist) (h : Hom) : Py Hom := do
  let a ← t.curve.parallelEdge P
  let vEdges ← t.curve.around a
  let vs ← (vEdges.drop 1).mapM h.val
  let x ← pyGet h.algebraic (norm a).toNat
  let algebraic ← pySet h.algebraic (norm a).toNat (x + sign a * t.power * vs.sum)
  Hom.create t.curve.tri algebraic

/-- twist.py:102-103 `flip_mapping`. -/
def flipMapping (t : Twist) : Py Enc := t.encoding.pow t.power

end Twist
end Curver
