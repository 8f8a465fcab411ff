import Verif.Proofs.Topology2
import Verif.Props.IsometriesTo
import Verif.Props.MappingEq

/-!
# C36: the topology of the surface
-/

namespace Curver
open Triangulation

/-- C36: a mapping made of flips, multiflips and relabellings goes between triangulations with the same number of edges, triangles,
vertices and components, and with the same genera, numbers of punctures and Euler characteristics of components (up to order). -/
theorem C36_invariant (h : Enc) (hh : h.Legal) :
    h.target.zeta = h.source.zeta ∧ h.target.triangles.length = h.source.triangles.length ∧
    h.target.eulerCharacteristic = h.source.eulerCharacteristic ∧
    (∃ n k, h.source.numVertices = .ok n ∧ h.target.numVertices = .ok n ∧
      h.source.components.map List.length = .ok k ∧ h.target.components.map List.length = .ok k) ∧
    ∃ s t, h.source.surface = .ok s ∧ h.target.surface = .ok t ∧ (s.map Prod.snd).Perm (t.map Prod.snd) := by
  have hp := hh.path
  have hz := hp.zeta
  have hS := hp.valid_source
  have hT := hp.valid_target
  refine ⟨hz, ?_, by unfold eulerCharacteristic; rw [hz], hp.samePieces.numVertices hS hT, hp.samePieces.surface hS hT⟩
  have key : ∀ {T : Triangulation}, T.Valid → 3 * T.triangles.length = 2 * T.zeta := by
    intro T hT
    have h1 := hT.comp.length_eq
    have h2 : T.signature.length = 3 * T.triangles.length := by
      unfold signature
      rw [List.length_flatMap]
      have : (fun t : Tri => t.labels.length) = fun _ => 3 := by funext t; rfl
      rw [this]; simp [Nat.mul_comm]
    have h3 : T.labels.length = 2 * T.zeta := length_labels
    omega
  have := key hS
  have := key hT
  omega

/-- C36: `surface()` accounts for every component exactly: a component with `2 * E` oriented edges has `F` triangles with
`3 * F = 2 * E`, the reported number of punctures is the number of vertices of the component, the Euler characteristic is `F - E`
and the genus is a natural number with `2 - 2 * g = p - E + F`: the integer divisions in the code are exact. -/
theorem C36_surface_exact (T : Triangulation) (hT : T.Valid) :
    ∃ vs s, T.vertices = .ok vs ∧ T.surface = .ok s ∧ T.components = .ok (s.map Prod.fst) ∧
      ∀ comp g p chi, (comp, (g, p, chi)) ∈ s → ∃ E F : Nat, (comp.filter (fun e => 0 ≤ e)).length = E ∧ comp.length = 2 * E ∧
        (T.triangles.filter (fun t => t.x ∈ comp)).length = F ∧ 3 * F = 2 * E ∧ p = (vs.filter (fun v => v.all (· ∈ comp))).length ∧
        2 - 2 * g = p - E + F ∧ chi = (F : Int) - E ∧ 0 ≤ g ∧ 0 < p := by
  obtain ⟨vs, cs, a1, a2, a3, _⟩ := hT.surface_spec
  refine ⟨vs, _, a1, a3, ?_, hT.surface_exact a1 a3⟩
  rw [a2, List.map_map]
  congr 1
  exact (List.map_id' cs).symm

/-- the torus and the sphere with three punctures; a flip of the torus is covered by the first theorem -/
example : torus.surface = .ok [([-3, -2, -1, 0, 1, 2], (1, 1, -1))] ∧ threePunctures.surface = .ok [([-3, -2, -1, 0, 1, 2], (0, 3, -1))] := by
  decide +kernel

example : torusTwist.Legal ∧ torusTwist.source = torus ∧ torusTwist.source.surface = .ok [([-3, -2, -1, 0, 1, 2], (1, 1, -1))] :=
  ⟨torusTwist_spec.2.1, by decide +kernel, by decide +kernel⟩

/-- a disconnected surface: two tori -/
example : (⟨[⟨-6, -4, -5⟩, ⟨-3, -1, -2⟩, ⟨0, 1, 2⟩, ⟨3, 4, 5⟩]⟩ : Triangulation).Valid ∧
    (⟨[⟨-6, -4, -5⟩, ⟨-3, -1, -2⟩, ⟨0, 1, 2⟩, ⟨3, 4, 5⟩]⟩ : Triangulation).surface.map (List.map Prod.snd) = .ok [(1, 1, -1), (1, 1, -1)] := by
  refine ⟨⟨by decide, by decide, by decide⟩, by decide +kernel⟩

end Curver
