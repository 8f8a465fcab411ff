import Verif.Model.Shorten
import Verif.Model.MappingEq
import Verif.Model.FindIsometry

/-!
# Model of `Mapping.simplify` (encoding.py)
-/

namespace Curver
namespace Enc

/-- encoding.py:212 `[closer] = [… for … in potential_closers if all(potential_closer(hc) == hci for hc, hci in zip(…))]`: whether one candidate is kept.  (The homology classes of the edges are built again for
each candidate in the code; here they are given.) -/
def closes (hcs images : List Hom) (closer : Enc) : Py Bool :=
  pyAllM (fun (p : Hom × Hom) => do
    let y ← closer.applyHom p.1
    y.eq p.2) (hcs.zip images)

/-- encoding.py:204-212: what comes after the image of the triangulation has been shortened: the candidates that are kept. -/
def closers (h conjugator : Enc) : Py (List Enc) := do
  let isoms ← h.source.isometriesTo conjugator.target
  let candidates ← isoms.mapM LMove.encode
  let hcs ← h.source.edgeHomologies
  let images ← hcs.mapM (fun hc => do
    let y ← h.applyHom hc
    conjugator.applyHom y)
  let flags ← candidates.mapM (closes hcs images)
  return ((candidates.zip flags).filter (·.2)).map (·.1)

/-- encoding.py:196-214 `simplify`; `S` stands for `shorten`.  Unpacking into `[closer]` raises `ValueError` unless exactly one candidate is kept. -/
def simplifyWith (S : Lam Int → Py (Lam Int × Enc)) (h : Enc) : Py Enc := do
  let L ← h.selfImage
  let (_, conjugator) ← S L
  let kept ← h.closers conjugator
  match kept with
  | [closer] => do
    let i ← conjugator.inverse
    i.mul closer
  | _ => .error .valueError

/-- encoding.py:196-214 `simplify`. -/
def simplify (P : Lam Int → Py LamClass) (dflt : Int → Int → Bool) (fuel : Nat) (h : Enc) : Py Enc := h.simplifyWith (Lam.shortenAll P dflt fuel dflt)

end Enc
end Curver
