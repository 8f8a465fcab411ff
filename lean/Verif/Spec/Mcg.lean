import Verif.Model.Mcg
import Verif.Spec.MappingEq

/-!
# Specification vocabulary for groups of mapping classes and words in them
-/

namespace Curver
namespace Mcg

/-- All named mapping classes can be built from flips, multiflips and isometries and live on the triangulation of the group. -/
structure Legal (S : Mcg) : Prop where
  valid : S.triangulation.Valid
  legal : ∀ name h, S.mappingClasses.get? name = some h → h.Legal ∧ h.kind = .mappingClass ∧ h.source = S.triangulation

/-- What a word does to a lamination: its letters are applied one after the other, the last one first. -/
def wordLam {R : Type} [CommRing R] [LinearOrder R] [Halvable R] (S : Mcg) (word : List Str) (L : Lam R) : Py (Lam R) :=
  match word with
  | [] => .ok L
  | letter :: word => do
    let L' ← wordLam S word L
    let h ← S.mappingClasses.get letter
    h.applyLam L'

/-- What a word does to a homology class. -/
def wordHom (S : Mcg) (word : List Str) (x : Hom) : Py Hom :=
  match word with
  | [] => .ok x
  | letter :: word => do
    let x' ← wordHom S word x
    let h ← S.mappingClasses.get letter
    h.applyHom x'

/-- The mapping class `h` is the product of the letters of the word. -/
structure Denotes (S : Mcg) (word : List Str) (h : Enc) : Prop where
  legal : h.Legal
  kind : h.kind = .mappingClass
  source : h.source = S.triangulation
  lam : ∀ (R : Type) [CommRing R] [LinearOrder R] [IsStrictOrderedRing R] [Halvable R] (L : Lam R), L.WellFormed → L.tri = S.triangulation →
    h.applyLam L = S.wordLam word L
  hom : ∀ x : Hom, x.WellFormed → x.tri = S.triangulation → h.applyHom x = S.wordHom word x

/-- The words with these letters. -/
def Word (letters : List Str) (w : List Str) : Prop := ∀ g ∈ w, g ∈ letters

/-- `S.mapping_class(u) == S.mapping_class(v)`. -/
def SameElement (S : Mcg) (u v : List Str) : Prop :=
  ∃ h k, S.ofLetters u = .ok h ∧ S.ofLetters v = .ok k ∧ h.eq k = .ok true

/-- `==` is compatible with multiplication on the right, for products of the given letters.  (On the left this always holds,
`C47_mul_left`.)  It says that the images that `==` compares determine the mapping class. -/
def Faithful (S : Mcg) (letters : List Str) : Prop :=
  ∀ u v w, Word letters u → Word letters v → Word letters w → S.SameElement u v → S.SameElement (u ++ w) (v ++ w)

end Mcg
end Curver
