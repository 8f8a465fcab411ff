import Verif.Proofs.IsometriesTo
import Verif.Props.FindIsometry

/-!
# C13: isometries_to
-/

namespace Curver
open Triangulation

/-- C13: `isometries_to` never raises; it yields isometries only, and each isometry exactly once: it occurs at one place of the list
and none of the other entries is that isometry. -/
theorem C13_lists_all (S T : Triangulation) (hS : S.Valid) (hT : T.Valid) :
    ∃ l, S.isometriesTo T = .ok l ∧ (∀ m ∈ l, m.Legal ∧ ∃ f, m.IsIsometryMove S T f) ∧
      ∀ f, S.IsIsometry T f → ∃ l₁ m l₂, l = l₁ ++ m :: l₂ ∧ m.IsIsometryMove S T f ∧ ∀ m' ∈ l₁ ++ l₂, ¬ m'.IsIsometryMove S T f :=
  hS.isometriesTo_main hT

/-- C13: `is_isometric_to` says whether there is an isometry. -/
theorem C13_is_isometric (S T : Triangulation) (hS : S.Valid) (hT : T.Valid) :
    ∃ b, S.isIsometricTo T = .ok b ∧ (b = true ↔ ∃ f, S.IsIsometry T f) := by
  obtain ⟨l, h1, h2, h3⟩ := hS.isometriesTo_main hT
  refine ⟨!l.isEmpty, by unfold isIsometricTo; rw [h1]; rfl, ?_⟩
  rw [Bool.not_eq_true', List.isEmpty_eq_false_iff]
  constructor
  · intro hne
    obtain ⟨m, hm⟩ := List.exists_mem_of_ne_nil _ hne
    obtain ⟨_, f, i, _, _, _, _, hf⟩ := h2 m hm
    exact ⟨f, hf⟩
  · rintro ⟨f, hf⟩
    obtain ⟨l₁, m, l₂, rfl, _⟩ := h3 f hf
    simp

/-- C13: `self_isometries` contains the identity, once. -/
theorem C13_identity (T : Triangulation) (hT : T.Valid) :
    ∃ l₁ m l₂, T.selfIsometries = .ok (l₁ ++ m :: l₂) ∧ m.IsIsometryMove T T (fun e => e) ∧
      ∀ m' ∈ l₁ ++ l₂, ¬ m'.IsIsometryMove T T (fun e => e) := by
  obtain ⟨l, h1, h2, h3⟩ := hT.isometriesTo_main hT
  obtain ⟨l₁, m, l₂, rfl, h4, h5⟩ := h3 (fun e => e) ⟨rfl, fun _ h => h, fun _ _ _ _ h => h, fun _ _ => rfl, fun _ _ _ h => h⟩
  exact ⟨l₁, m, l₂, h1, h4, h5⟩

/-- the once punctured torus has six isometries, and is not isometric to a sphere with three punctures -/
example : (torus.selfIsometries).map List.length = .ok 6 := by decide +kernel

/-- a sphere with three punctures -/
def threePunctures : Triangulation := ⟨[⟨-3, -2, -1⟩, ⟨0, 1, 2⟩]⟩

example : threePunctures.Valid ∧ torus.isIsometricTo threePunctures = .ok false ∧ (threePunctures.selfIsometries).map List.length = .ok 6 := by
  refine ⟨⟨by decide, by decide, by decide⟩, by decide +kernel, by decide +kernel⟩

end Curver
