import Verif.Model.MoveEq
import Verif.Spec.Encoding

/-!
# Specification vocabulary for packaged encodings
-/

namespace Curver

/-- The same data for `Triangulation.encode`, except that sets and dictionaries may list their elements in another order. -/
inductive EncItem.SameData : EncItem → EncItem → Prop
  | flip (e : Int) : SameData (.flip e) (.flip e)
  | multiflip (es es' : List Int) (h : es.Perm es') : SameData (.multiflip es) (.multiflip es')
  | dict (d d' : PyDict Int Int) (h : d.Perm d') : SameData (.dict d) (.dict d')
  | none : SameData .none .none

/-- The linked moves are equal, and so are their inverses. -/
def LMove.Equal (m m' : LMove) : Prop := m.move.eq m'.move = true ∧ m.inverseMove.eq m'.inverseMove = true

/-- The move is an isometry. -/
def LMove.isIsometry (m : LMove) : Bool :=
  match m.move with
  | .isometry _ => true
  | _ => false

namespace Enc

/-- `g` and `h` have the same source and target and take each consistent lamination to the same lamination, and each chain to
the same chain. -/
structure SameAction (g h : Enc) : Prop where
  source : g.source = h.source
  target : g.target = h.target
  lam : ∀ (R : Type) [CommRing R] [LinearOrder R] [IsStrictOrderedRing R] [Halvable R] (L : Lam R), L.Consistent → g.applyLam L = h.applyLam L
  hom : ∀ x : Hom, x.WellFormed → g.applyHom x = h.applyHom x

end Enc
end Curver
