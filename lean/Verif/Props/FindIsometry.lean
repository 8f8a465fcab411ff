import Verif.Proofs.FindIsometry
import Verif.Props.Triangulation

/-!
# C12: find_isometry

The vocabulary (`ExtendsTo`, `IsIsometry`, `IsIsometryMove`, `Joined`) is in `Verif/Spec/FindIsometry.lean`,
`Verif/Spec/Isometry.lean` and `Verif/Spec/Components.lean`.  A label map takes labels of the source to labels of the
target.
-/

namespace Curver
open Triangulation

/-- C12: whatever is returned is an isometry: a bijection of the oriented edges that respects reversal and the triangles,
extends the given map, and is the identity on the components that the map does not meet. -/
theorem C12_sound (S T : Triangulation) (hS : S.Valid) (hT : T.Valid) (d : PyDict Int Int) (hd : d.keys.Nodup)
    (hl : ∀ e v, (e, v) ∈ d → S.IsLabel e ∧ T.IsLabel v) (m : LMove) (h : S.findIsometry T d = .ok m) :
    ∃ f, m.IsIsometryMove S T f ∧ S.ExtendsTo T d f := by
  have hl' : ∀ p ∈ d, S.IsLabel p.1 ∧ T.IsLabel p.2 := fun p hp => hl p.1 p.2 hp
  rcases hS.findIsometry_main hT hd hl' (hS.findIsometry_zeta hT hd hl' h) with ⟨m', f, h1, h2, h3, h4⟩ | ⟨h1, _⟩
  · rw [h] at h1; cases h1; exact ⟨f, h2, h4⟩
  · rw [h] at h1; cases h1

/-- C12: if an isometry extends the map and is the identity on the components that the map does not meet, then exactly
that isometry is returned. -/
theorem C12_complete (S T : Triangulation) (hS : S.Valid) (hT : T.Valid) (d : PyDict Int Int) (hd : d.keys.Nodup)
    (hk : ∀ e ∈ d.keys, S.IsLabel e) (f : Int → Int) (hf : S.ExtendsTo T d f) :
    ∃ m, S.findIsometry T d = .ok m ∧ m.IsIsometryMove S T f := by
  have hl' : ∀ p ∈ d, S.IsLabel p.1 ∧ T.IsLabel p.2 := by
    intro p hp
    have := hk p.1 (List.mem_map.2 ⟨p, hp, rfl⟩)
    exact ⟨this, hf.extends_map p.1 p.2 hp ▸ hf.isometry.maps _ this⟩
  rcases hS.findIsometry_main hT hd hl' hf.isometry.zeta with ⟨m, g, h1, ⟨i, i1, i2, i3, i4, i5⟩, h3, h4⟩ | ⟨_, h2⟩
  · refine ⟨m, h1, i, i1, i2, i3, ⟨i4.1, ?_⟩, hf.isometry⟩
    intro e v
    rw [i4.2]
    have := ExtendsTo.unique hS.comp hT.comp hk hf h4 e
    exact and_congr_right (fun he => by rw [this he])
  · exact absurd hf (h2 f)

/-- C12: in particular, if the map meets every component, any isometry extending it is the one returned. -/
theorem C12_complete_all_components (S T : Triangulation) (hS : S.Valid) (hT : T.Valid) (d : PyDict Int Int) (hd : d.keys.Nodup)
    (hk : ∀ e ∈ d.keys, S.IsLabel e) (hall : ∀ e, S.IsLabel e → ∃ k ∈ d.keys, S.Joined k e) (f : Int → Int)
    (hf : S.IsIsometry T f) (hext : ∀ e v, (e, v) ∈ d → f e = v) : ∃ m, S.findIsometry T d = .ok m ∧ m.IsIsometryMove S T f := by
  refine C12_complete S T hS hT d hd hk f ⟨hf, hext, ?_⟩
  intro e he h
  obtain ⟨k, hk, hj⟩ := hall e he
  exact absurd hj (h k hk)

/-- C12: otherwise, between triangulations with the same number of edges, `ValueError` is raised (the search terminates
and nothing else goes wrong). -/
theorem C12_value_error (S T : Triangulation) (hS : S.Valid) (hT : T.Valid) (hz : T.zeta = S.zeta) (d : PyDict Int Int)
    (hd : d.keys.Nodup) (hl : ∀ e v, (e, v) ∈ d → S.IsLabel e ∧ T.IsLabel v) (hno : ¬ ∃ f, S.ExtendsTo T d f) :
    S.findIsometry T d = .error .valueError := by
  rcases hS.findIsometry_main hT hd (fun p hp => hl p.1 p.2 hp) hz with ⟨m, f, h1, h2, h3, h4⟩ | ⟨h1, _⟩
  · exact absurd ⟨f, h4⟩ hno
  · exact h1

/-- C12: there is at most one such isometry. -/
theorem C12_unique (S T : Triangulation) (hS : S.Valid) (hT : T.Valid) (d : PyDict Int Int) (hk : ∀ e ∈ d.keys, S.IsLabel e)
    (f g : Int → Int) (hf : S.ExtendsTo T d f) (hg : S.ExtendsTo T d g) : ∀ e, S.IsLabel e → f e = g e :=
  ExtendsTo.unique hS.comp hT.comp hk hf hg

-- the rotation of the once punctured torus, found from the image of one edge; and a map that does not extend
example : (torus.findIsometry torus [(0, 1)]).map (fun m => match m.move with | .isometry i => i.labelMap | _ => []) =
    .ok [(0, 1), (-1, -2), (1, 2), (-2, -3), (2, 0), (-3, -1)] := by decide +kernel
example : torus.findIsometry torus [(0, 1), (1, 0)] = .error .valueError := by decide +kernel

end Curver
