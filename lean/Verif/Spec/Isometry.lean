import Verif.Spec.Flip

/-!
# Specification vocabulary for isometries
-/

namespace Curver
namespace Triangulation

/-- `f` is an (orientation preserving) isometry from `S` to `T`: a bijection of the oriented edges that commutes with
reversal and takes triangles to triangles. -/
structure IsIsometry (S T : Triangulation) (f : Int → Int) : Prop where
  zeta : T.zeta = S.zeta
  maps : ∀ e, S.IsLabel e → T.IsLabel (f e)
  inj : ∀ e e', S.IsLabel e → S.IsLabel e' → f e = f e' → e = e'
  inverts : ∀ e, S.IsLabel e → f (inv e) = inv (f e)
  glues : ∀ a b c, S.Glues a b c → T.Glues (f a) (f b) (f c)

/-- `f` is a signed bijection of the labels of `T`: a bijection that commutes with reversal. -/
structure SignedBij (T : Triangulation) (f : Int → Int) : Prop where
  maps : ∀ e, T.IsLabel e → T.IsLabel (f e)
  inj : ∀ e e', T.IsLabel e → T.IsLabel e' → f e = f e' → e = e'
  inverts : ∀ e, T.IsLabel e → f (inv e) = inv (f e)

end Triangulation

/-- The dictionary is the function `f` on the labels of `S`: its items are exactly the pairs `(e, f e)`. -/
def PyDict.IsFun (d : PyDict Int Int) (S : Triangulation) (f : Int → Int) : Prop :=
  d.keys.Nodup ∧ ∀ e v, (e, v) ∈ d ↔ S.IsLabel e ∧ v = f e

/-- The move is the isometry `f` from `S` to `T`, according to its label map. -/
def LMove.IsIsometryMove (m : LMove) (S T : Triangulation) (f : Int → Int) : Prop :=
  ∃ i : Isometry, m.move = .isometry i ∧ i.source = S ∧ i.target = T ∧ i.labelMap.IsFun S f ∧ S.IsIsometry T f

/-- The moves that can be obtained by flipping, multiflipping and relabelling valid triangulations. -/
inductive LMove.Legal : LMove → Prop
  | flip (T : Triangulation) (e : Int) (m : LMove) (hT : T.Valid) (h : T.encodeFlip e = .ok m) : LMove.Legal m
  | multiflip (T : Triangulation) (es : List Int) (m : LMove) (hT : T.Valid) (h : T.encodeMultiflip es = .ok m) : LMove.Legal m
  | isometry (S T : Triangulation) (f : Int → Int) (d : PyDict Int Int) (m : LMove) (hS : S.Valid) (hT : T.Valid)
      (hd : d.IsFun S f) (hf : S.IsIsometry T f) (h : LMove.isometry S T d = .ok m) : LMove.Legal m

end Curver
