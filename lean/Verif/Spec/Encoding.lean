import Verif.Model.Encoding
import Verif.Spec.Isometry

/-!
# Specification vocabulary for encodings
-/

namespace Curver

/-- `ms` lists legal moves, in the order in which they are performed, that lead from the triangulation `S` to `T`. -/
inductive Path : Triangulation → List LMove → Triangulation → Prop
  | nil (T : Triangulation) (hT : T.Valid) : Path T [] T
  | cons (m : LMove) (ms : List LMove) (T : Triangulation) (h : m.Legal) (hs : Path m.move.target ms T) :
      Path m.move.source (m :: ms) T

namespace Enc

/-- The moves in the order in which they are performed. -/
def performed (h : Enc) : List LMove := h.sequence.reverse

/-- The encodings that can be built from flips, multiflips and isometries: at least one move, consecutive moves fit
together, and a mapping class ends where it starts. -/
structure Legal (h : Enc) : Prop where
  nonempty : h.sequence ≠ []
  path : Path h.source h.performed h.target
  mappingClass : h.kind = .mappingClass → h.source = h.target

/-- The constructor has nothing to drop: there is only one move or neither end is an identity isometry. -/
def Reduced (h : Enc) : Prop :=
  h.sequence.length = 1 ∨ ((∀ m, h.sequence.head? = some m → m.move.isIdentityIsometry = false) ∧
    ∀ m, h.sequence.getLast? = some m → m.move.isIdentityIsometry = false)

/-- The encodings `g` and `h` have the same source and target and are the same map on laminations and on homology
classes, including the errors raised. -/
structure SameMap (g h : Enc) : Prop where
  source : g.source = h.source
  target : g.target = h.target
  lam : ∀ (R : Type) [CommRing R] [LinearOrder R] [IsStrictOrderedRing R] [Halvable R] (L : Lam R), L.WellFormed → g.applyLam L = h.applyLam L
  hom : ∀ x : Hom, x.WellFormed → g.applyHom x = h.applyHom x

/-- The encoding `k` does what `h` followed by `g` does, on laminations and on homology classes, including the errors
raised. -/
structure IsComposite (k g h : Enc) : Prop where
  source : k.source = h.source
  target : k.target = g.target
  lam : ∀ (R : Type) [CommRing R] [LinearOrder R] [IsStrictOrderedRing R] [Halvable R] (L : Lam R), L.WellFormed →
    k.applyLam L = (do let L' ← h.applyLam L; g.applyLam L')
  hom : ∀ x : Hom, x.WellFormed → k.applyHom x = (do let x' ← h.applyHom x; g.applyHom x')

end Enc
end Curver

namespace Curver

/-- The laminations on `T` whose weights are consistent in every triangle. -/
def LamOn (R : Type) [CommRing R] [LinearOrder R] [Halvable R] (T : Triangulation) : Type :=
  {L : Lam R // L.Consistent ∧ L.tri = T}

/-- The chains on `T`. -/
def HomOn (T : Triangulation) : Type := {x : Hom // x.WellFormed ∧ x.tri = T}

/-- Chains are identified when they are homologous. -/
def HomOn.Related {T : Triangulation} (x y : HomOn T) : Prop := x.1.Homologous y.1

/-- First homology of `T` relative to the vertices. -/
def H1 (T : Triangulation) : Type := Quot (HomOn.Related (T := T))

/-- The homology class of a chain. -/
def HomOn.cls {T : Triangulation} (x : HomOn T) : H1 T := Quot.mk _ x

namespace Enc

/-- On consistent laminations with weights in `R`, the encoding `h` is the bijection `σ`. -/
def ActsLam {R : Type} [CommRing R] [LinearOrder R] [Halvable R] {S T : Triangulation} (h : Enc) (σ : LamOn R S ≃ LamOn R T) : Prop :=
  ∀ L, h.applyLam L.1 = .ok (σ L).1

/-- On homology, the encoding `h` is the bijection `τ`. -/
def ActsHom {S T : Triangulation} (h : Enc) (τ : H1 S ≃ H1 T) : Prop :=
  ∀ x : HomOn S, ∃ y : HomOn T, h.applyHom x.1 = .ok y.1 ∧ τ x.cls = y.cls

end Enc

/-- The moves `ms` (in the order in which they are performed), from `T` to `U`, are what the entry stands for in a list
given to `Triangulation.encode` when the current triangulation is `T`. -/
inductive EncItem.StandsFor (T : Triangulation) : EncItem → List LMove → Triangulation → Prop
  | flip (e : Int) (m : LMove) (h : T.encodeFlip e = .ok m) : StandsFor T (.flip e) [m] m.move.target
  | multiflip (es : List Int) (m : LMove) (h : T.encodeMultiflip es = .ok m) : StandsFor T (.multiflip es) [m] m.move.target
  | relabel (d : PyDict Int Int) (m : LMove) (hd : ∀ i, 0 ≤ i → T.IsLabel i → i ∈ d.keys ∨ inv i ∈ d.keys)
      (h : T.encodeRelabel d = .ok m) (hm : m.Legal) : StandsFor T (.dict d) [m] m.move.target
  | none (m : LMove) (h : T.idIsometry = .ok m) : StandsFor T .none [m] T
  | move (m : LMove) (hm : m.Legal) (h : m.move.source = T) : StandsFor T (.move m) [m] m.move.target
  | enc (k : Enc) (hk : k.Legal) (h : k.source = T) : StandsFor T (.enc k) k.performed k.target

/-- The entries, performed in this order, stand for the moves `ms` from `T` to `U`. -/
inductive EncItem.AllStandFor : Triangulation → List EncItem → List LMove → Triangulation → Prop
  | nil (T : Triangulation) (hT : T.Valid) : AllStandFor T [] [] T
  | cons (T U V : Triangulation) (item : EncItem) (items : List EncItem) (ms ns : List LMove) (hT : T.Valid)
      (h : item.StandsFor T ms U) (hs : AllStandFor U items ns V) : AllStandFor T (item :: items) (ms ++ ns) V

end Curver
