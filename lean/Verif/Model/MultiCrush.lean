import Verif.Model.Crush

/-!
# Model of crushing along multicurves

curver/kernel/curve.py:65-79 `MultiCurve.crush`, 101-108 `MultiCurve.is_separating`.
-/

namespace Curver

/-- encoding.py:104-117 `__mul__`, for compositions with crushes and lifts (`g` is applied first). -/
def CrushEnc.mul (f g : CrushEnc) : Py CrushEnc :=
  if f.source.eq g.target then .ok ⟨g.parts ++ f.parts, g.source, f.target⟩ else .error .valueError

/-- encoding.py:14-33 `Encoding`: a mapping as such. -/
def CrushEnc.ofEnc (h : Enc) : CrushEnc := ⟨[.enc h], h.source, h.target⟩

namespace Lam

/-- curve.py:70-74, the body of the loop: `curve` is one of the components of `short`.  (The image of a component under the crushes so far is a `Curve` if `promote()` is right; for an object of another class the model stops with an error.) -/
def crushStep (P : Lam Int → Py LamClass) (dflt : Int → Int → Bool) (fuel : Nat) (f : CrushEnc) (curve : Lam Int) : Py CrushEnc := do
  let p ← curve.isPeripheral P
  if p then return f
  else do
    let image ← f.applyLam P curve
    if image.cls = .curve then do
      let next ← image.crush P dflt fuel
      next.mul f
    else .error .attributeError

/-- curve.py:65-79 `MultiCurve.crush`.  `S` stands for `shorten`. -/
def crushAllWith (S : Lam Int → Py (Lam Int × Enc)) (P : Lam Int → Py LamClass) (dflt : Int → Int → Bool) (fuel : Nat) (c : Lam Int) : Py CrushEnc := do
  let (short, conjugator) ← S c
  let i ← short.tri.idEncoding
  let cs ← short.componentsAll P dflt fuel
  let f ← cs.foldlM (fun f p => crushStep P dflt fuel f p.1) (.ofEnc i)
  let all ← conjugator.applyLam c.tri.asLamination
  let image ← f.applyLam P all
  let (_, post) ← S image
  let h ← (CrushEnc.ofEnc post).mul f
  h.mul (.ofEnc conjugator)

/-- curve.py:65-79 `MultiCurve.crush`. -/
def crushAll (P : Lam Int → Py LamClass) (dflt : Int → Int → Bool) (fuel : Nat) (c : Lam Int) : Py CrushEnc := c.crushAllWith (shortenAll P dflt fuel dflt) P dflt fuel

/-- curve.py:101-108 `is_separating`, for a `MultiCurve`. -/
def isSeparatingAll (P : Lam Int → Py LamClass) (dflt : Int → Int → Bool) (fuel : Nat) (c : Lam Int) : Py Bool := do
  let f ← c.crushAll P dflt fuel
  let ds ← f.target.components
  let cs ← c.tri.components
  return decide (cs.length < ds.length)

end Lam
end Curver
