import Verif.Proofs.PachnerEnc
import Verif.Proofs.PachnerTop
import Verif.Props.PL

/-!
# C37: 1-3 Pachner moves

`encode_pachner_1_3` subdivides the chosen triangles (all of them by default), and carries laminations without arcs along.
-/

namespace Curver
open Triangulation

/-- C37: the triangulation is subdivided in each of the chosen triangles, for whatever set of triangles. -/
theorem C37_subdivision (T : Triangulation) (hT : T.Valid) (hne : T.triangles ≠ []) (triangles : Option (List Tri)) :
    ∃ h, T.encodePachner13 triangles = .ok h ∧ h.source = T ∧ Subdivides T (triangles.getD T.triangles) h.target := by
  obtain ⟨T', hs, h⟩ := pachner_eq hT hne triangles
  refine ⟨_, h, rfl, hs.valid, hs.zeta, hs.kept, ?_⟩
  intro t ht hc
  obtain ⟨i, hi⟩ := List.getElem?_of_mem (List.mem_filter.2 ⟨ht, by simpa using hc⟩ : t ∈ T.triangles.filter (· ∈ triangles.getD T.triangles))
  exact ⟨_, _, _, by omega, by omega, by omega, hs.split i t hi⟩

/-- C37: each chosen triangle contributes a puncture; on a connected surface the genus stays the same. -/
theorem C37_surface (T : Triangulation) (hT : T.Valid) (hne : T.triangles ≠ []) (triangles : Option (List Tri)) (h : LinEnc)
    (hh : T.encodePachner13 triangles = .ok h) (k : Nat) (hk : (T.triangles.filter (· ∈ triangles.getD T.triangles)).length = k) :
    (∃ n, T.numVertices = .ok n ∧ h.target.numVertices = .ok (n + k)) ∧
    ∀ comp g p chi, T.surface = .ok [(comp, (g, p, chi))] → h.target.isConnected = .ok true ∧ h.target.surface = .ok [(h.target.labels, (g, p + k, chi - k))] := by
  obtain ⟨T', hs, h'⟩ := pachner_eq hT hne triangles
  rw [hh] at h'; cases h'
  subst hk
  obtain ⟨vs, hv, _⟩ := hT.comp.vertices_ok
  exact ⟨⟨vs.length, by unfold Triangulation.numVertices; rw [hv]; rfl, hs.numVertices hT hv⟩, fun comp g p chi hsf => hs.surface hT hsf⟩

section
variable {R : Type} [CommRing R] [LinearOrder R] [IsStrictOrderedRing R] [Halvable R] [IntTest R]

/-- C37: a lamination without arcs crosses the old edges as before and the new edges as often as it goes around the corners which
these divide; it has no arcs afterwards.  `P` is the classification of laminations done by `promote`. -/
theorem C37_lamination (P : Lam R → Py LamClass) (hP : ∀ L, ∃ c, P L = .ok c) (triangles : Option (List Tri)) (L : Lam R) (hL : L.NoArcs)
    (hne : L.tri.triangles ≠ []) (h : LinEnc) (hh : L.tri.encodePachner13 triangles = .ok h) :
    ∃ L', h.applyLam P L = .ok L' ∧ L'.tri = h.target ∧ CrossesAs L L' ∧ L'.NoArcs := by
  obtain ⟨T', hs, h'⟩ := pachner_eq hL.1.1 hne triangles
  rw [hh] at h'; cases h'
  obtain ⟨δ, L', hδ, h1, h2, h3, h4⟩ := pachner_apply hP hne hL hs
  refine ⟨L', h1, h2, ⟨h4.1.2, ?_, ?_⟩, h4⟩
  · intro e he
    have := splitWeights_old (ch := triangles.getD L.tri.triangles) (δ := δ) hL.1 he
    rw [← h3] at this
    exact this
  · subst h2
    have hc' := hs.valid.comp
    have key : ∀ τ ∈ L.tri.triangles, ∀ s t u, L'.tri.Glues τ.x (inv u) t → L'.tri.Glues τ.y (inv s) u → L'.tri.Glues τ.z (inv t) s →
        L'.w s = δ τ.x ∧ L'.w t = δ τ.y ∧ L'.w u = δ τ.z := by
      intro τ hτ s t u k1 k2 k3
      by_cases hc : τ ∈ triangles.getD L.tri.triangles
      · obtain ⟨i, hi⟩ := List.getElem?_of_mem (List.mem_filter.2 ⟨hτ, by simpa using hc⟩ : τ ∈ L.tri.triangles.filter (· ∈ triangles.getD L.tri.triangles))
        obtain ⟨g1, g2, g3⟩ := hs.split i τ hi
        have e1 := (hc'.glues_unique k1 g1).2
        have e2 := (hc'.glues_unique k2 g2).2
        have e3 := (hc'.glues_unique k3 g3).2
        obtain ⟨n1, n2, n3⟩ := splitWeights_new (δ := δ) hL.1 hi
        rw [← h3] at n1 n2 n3
        rw [e1, e2, e3]
        exact ⟨n1, n2, n3⟩
      · exfalso
        have g := hs.kept τ hτ hc
        obtain ⟨p1, p2⟩ := hc'.glues_unique k1 g
        obtain ⟨p3, p4⟩ := hc'.glues_unique k2 g.rot
        obtain ⟨p5, p6⟩ := hc'.glues_unique k3 g.rot.rot
        have hne' := hc'.glues_ne g
        unfold inv at p1 p3 p5
        omega
    intro a b c s t u hg k1 k2 k3
    obtain ⟨d1, _⟩ := hδ a b c hg
    obtain ⟨d2, _⟩ := hδ b c a hg.rot
    obtain ⟨d3, _⟩ := hδ c a b hg.rot.rot
    rw [d1, d2, d3]
    rcases hg with hg | hg | hg
    · obtain ⟨q1, q2, q3⟩ := key _ hg s t u k1 k2 k3; exact ⟨by rw [q1], by rw [q2], by rw [q3]⟩
    · obtain ⟨q1, q2, q3⟩ := key _ hg t u s k2 k3 k1; exact ⟨by rw [q3], by rw [q1], by rw [q2]⟩
    · obtain ⟨q1, q2, q3⟩ := key _ hg u s t k3 k1 k2; exact ⟨by rw [q2], by rw [q3], by rw [q1]⟩

/-- C37: the inverse takes the image back. -/
theorem C37_inverse (P : Lam R → Py LamClass) (hP : ∀ L, ∃ c, P L = .ok c) (triangles : Option (List Tri)) (L : Lam R) (hL : L.NoArcs)
    (hne : L.tri.triangles ≠ []) (h : LinEnc) (hh : L.tri.encodePachner13 triangles = .ok h) (L' : Lam R) (hL' : h.applyLam P L = .ok L') :
    ∃ h' L'', h.inverse = .ok h' ∧ h'.source = h.target ∧ h'.target = h.source ∧ h'.applyLam P L' = .ok L'' ∧ L''.tri = L.tri ∧ L''.geometric = L.geometric := by
  obtain ⟨T', hs, h'⟩ := pachner_eq hL.1.1 hne triangles
  rw [hh] at h'; cases h'
  obtain ⟨δ, L1, hδ, h1, h2, h3, h4⟩ := pachner_apply hP hne hL hs
  rw [hL'] at h1; cases h1
  obtain ⟨k, L2, b1, b2, b3, b4⟩ := pachner_back hP hL hs hδ h2 h3
  refine ⟨k, L2, b1, ?_, ?_, b2, b3, b4⟩
  · rw [pachner_inverse_eq] at b1; cases b1; rfl
  · rw [pachner_inverse_eq] at b1; cases b1; rfl

end

/-- C37: laminations with arcs are not carried along: the arc which is an edge of the torus has odd weights on the new edges. -/
theorem C37_arcs : ∃ h, torus.encodePachner13 none = .ok h ∧
    h.applyLam (fun _ => .ok .integral) (⟨torus, [-1, 0, 0], .arc⟩ : Lam Int) = .error .valueError := by
  exact ⟨_, rfl, by decide +kernel⟩

/-- the curve on the torus, all triangles or one triangle subdivided -/
example : torusCurve.NoArcs ∧ torusCurve.tri.triangles ≠ [] ∧
    (do let h ← torusCurve.tri.encodePachner13 none
        let L ← h.applyLam (fun _ => .ok .curve) torusCurve
        return (h.target.zeta, L.geometric)) = .ok (9, [1, 1, 2, 0, 1, 1, 1, 1, 0]) ∧
    (do let h ← torusCurve.tri.encodePachner13 (some [⟨0, 1, 2⟩])
        let L ← h.applyLam (fun _ => .ok .curve) torusCurve
        return (h.target.zeta, L.geometric)) = .ok (6, [1, 1, 2, 1, 1, 0]) :=
  ⟨torusCurve_noArcs, by decide, by decide +kernel, by decide +kernel⟩

end Curver
