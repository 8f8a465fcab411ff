import Verif.Model.Encoding

/-!
# Model of `flip_mapping` (curver/kernel/encoding.py and curver/kernel/moves.py)
-/

namespace Curver

/-- moves.py:117-118 (`Isometry`), 194-195 (`EdgeFlip`) and 285-286 (`MultiEdgeFlip`): `flip_mapping`.  The set `self.edges` of a multiflip is a list, in the order in which Python iterates over it. -/
def LMove.flipMapping (m : LMove) : Py Enc :=
  match m.move with
  | .isometry _ => m.encode
  | .flip _ => m.encode
  | .multiflip f => f.source.encode (f.edges.map .flip)

/-- encoding.py:216-219 `Mapping.flip_mapping`, for mappings that consist of flips, multiflips and isometries. -/
def Enc.flipMapping (h : Enc) : Py Enc := do
  let ks ← h.sequence.mapM LMove.flipMapping
  Enc.create h.kind (ks.map (·.sequence)).flatten

end Curver
