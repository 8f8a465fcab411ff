import Verif.Model.Shorten

/-!
# Model of `Curve.relative_twisting` (curver/kernel/curve.py)
-/

namespace Curver
namespace Lam

/-- curve.py:169-190 `Curve.relative_twisting`.  The result `(n, d)` stands for `Fraction(n, d)`, which Python also cancels.  The assertions on the types of `b` and `c` are that these are
`IntegralLamination`s. -/
def relativeTwisting (P : Lam Int → Py LamClass) (dflt : Int → Int → Bool) (fuel : Nat) (a b c : Lam Int) : Py (Int × Int) := do
  pyAssert (decide (b.cls ≠ .lamination))
  pyAssert (decide (c.cls ≠ .lamination))
  let p ← a.isPeripheral P
  if p then .error .valueError
  else do
    let ab ← a.intersectionAll P dflt fuel b
    if ab = 0 then .error .valueError
    else do
      let ac ← a.intersectionAll P dflt fuel c
      if ac = 0 then .error .valueError
      else do
        let bc ← b.intersectionAll P dflt fuel c
        let f ← a.encodeTwist P dflt fuel (-2 * bc)
        let lower ← f.applyLam b
        let fLower ← lower.intersectionAll P dflt fuel c
        let g ← a.encodeTwist P dflt fuel (2 * bc)
        let upper ← g.applyLam b
        let fUpper ← upper.intersectionAll P dflt fuel c
        return (fLower - fUpper, 2 * ab * ac)

end Lam
end Curver
