import Verif.Model.Encoding

/-!
# Model of `==` on moves (curver/kernel/moves.py)
-/

namespace Curver

/-- `d == d'` for dictionaries: the same number of items and every item of `d` is one of `d'`, in any order. -/
def PyDict.eq {κ α : Type _} [DecidableEq κ] [DecidableEq α] (d d' : PyDict κ α) : Bool :=
  d.length == d'.length && d.all (fun p => decide (d'.get? p.1 = some p.2))

/-- `s == s'` for sets, modelled by duplicate free lists. -/
def pySetEq {α : Type _} [DecidableEq α] (s s' : List α) : Bool := s.all (· ∈ s') && s'.all (· ∈ s)

namespace Move

/-- moves.py:31-35, 102-107 (isometries), 146-151 (flips), 236-241 (multiflips): `__eq__`. -/
def eq (m m' : Move) : Bool :=
  match m, m' with
  | .isometry i, .isometry i' => i.source.eq i'.source && i.target.eq i'.target && i.labelMap.eq i'.labelMap
  | .flip i, .flip i' => i.source.eq i'.source && i.target.eq i'.target && i.edge == i'.edge
  | .multiflip i, .multiflip i' => i.source.eq i'.source && i.target.eq i'.target && pySetEq i.edges i'.edges
  | _, _ => false

end Move
end Curver
