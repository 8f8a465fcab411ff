import Verif.Model.Encoding

/-!
# Model of `Triangulation.all_encodings`
-/

namespace Curver
namespace Triangulation

/-- triangulation.py:401-414 `all_encodings`: the encodings in the order in which the generator yields them.  The number of flips only
matters when it is positive, so it is taken to be a natural number; the positive edges are those of triangulation.py:139. -/
def allEncodings : Nat → Triangulation → Py (List Enc)
  | 0, T => do
    let i ← T.idEncoding
    return [i]
  | n + 1, T => do
    let i ← T.idEncoding
    let rest ← T.indices.mapM (fun edge => do
      if ← T.isFlippable edge then do
        let m ← T.encodeFlip edge
        let step ← m.encode
        let encodings ← allEncodings n step.target
        encodings.mapM (fun encoding => encoding.mul step)
      else return [])
    return i :: rest.flatten

end Triangulation
end Curver
