import Verif.Model.PL
import Verif.Spec.Encoding

/-!
# Specification vocabulary for partial linear functions
-/

namespace Curver

/-- A two dimensional array with `m > 0` rows and `n` columns. -/
def Mat.HasShape (A : Mat) (m n : Nat) : Prop := A.length = m ∧ 0 < m ∧ ∀ row ∈ A, row.length = n

/-- The image of the vector `x` under the matrix `A`: the scalar products of the rows with `x`. -/
def Mat.image {R : Type} [CommRing R] (A : Mat) (x : List R) : List R :=
  A.map (fun row => (List.zipWith (fun (a : Int) b => (a : R) * b) row x).sum)

/-- `F` takes vectors of length `n` to vectors of length `m`. -/
structure PLF.Types (F : PLF) (m n : Nat) : Prop where
  action : F.action.HasShape m n
  condition : ∃ k, F.condition.HasShape k n

/-- The vector `x` lies in the domain of `F`: no condition is negative on it. -/
def PLF.Domain {R : Type} [CommRing R] [LinearOrder R] (F : PLF) (x : List R) : Prop := ∀ y ∈ F.condition.image x, 0 ≤ y

/-- The lamination consists of curves and non-compact leaves without arcs: no weight is negative (no arc is an edge) and no dual
weight is negative (no arc leaves a vertex). -/
def Lam.NoArcs {R : Type} [CommRing R] [LinearOrder R] [Halvable R] (L : Lam R) : Prop :=
  L.WellFormed ∧ ∀ e, L.tri.IsLabel e → 0 ≤ L.w e ∧ ∃ x, 0 ≤ x ∧ L.dualWeight e = .ok x

/-- The encoding does not contain the multiflip of no edges at all. -/
def Enc.NoEmptyMultiflip (h : Enc) : Prop := ∀ m ∈ h.sequence, ∀ f, m.move = .multiflip f → f.edges ≠ []

end Curver
