import Verif.Model.BoundaryUnion
import Verif.Props.MultiCrush

/-!
# What `crush` does, for curves and multicurves
-/

namespace Curver
open Triangulation

namespace Lam
variable {P : Lam Int → Py LamClass} {dflt : Int → Int → Bool} {fuel : Nat} {c L M K N X Y S B : Lam Int} {f g : CrushEnc}

/-- `f` crushes along all essential components of `c` -/
def CrushesTo (P : Lam Int → Py LamClass) (c : Lam Int) (f : CrushEnc) : Prop :=
  Tidy P f ∧ f.source = c.tri ∧ ∃ E g, Crusher P E f g ∧ ∀ X, c.EssentialPart X ↔ ∃ Y ∈ E, Same Y X

theorem Connected.hasPart (h : c.Connected) (hc : c.WellFormed) (hX : c.HasPart X) : Same c X := by
  obtain ⟨x1, N, hN⟩ := hX
  rcases h.of_union hc hN with q | q
  · exact absurd q.1 x1.1
  · exact q.2

theorem crushOf_spec (hP : ∀ L, ∃ k, P L = .ok k) (hc : c.NoArcs) (hd : c.Describes c.cls) (h : c.crushOf P dflt fuel = .ok f) : CrushesTo P c f := by
  have cc := (noArcs_iff.1 hc).1
  unfold crushOf at h
  split at h
  · rename_i q
    rw [q] at hd
    have hcc : c.Connected := hd.1
    by_cases hp : c.Peripheral
    · unfold crush crushWith at h
      obtain ⟨p, p1, p2⟩ := isPeripheral_spec P cc
      have : p = true := p2.2 hp
      subst this
      obtain ⟨i, i1, i2, -, i3, i4, -⟩ := C14_identity c.tri hc.1.1
      rw [p1, py_bind_ok, if_pos rfl, i1, py_bind_ok] at h
      injection h with h
      subst h
      refine ⟨ofEnc_tidy i2, i3, [], _, ofEnc_crusher (P := P) i2, fun X => ⟨fun x => ?_, by simp⟩⟩
      exact absurd (hp.same (hcc.hasPart hc.1 x.1)) x.2
    · obtain ⟨g, H⟩ := crush_crusher hc hcc hp hP h
      refine ⟨crush_tidy hc hp h, (C88_surface P dflt fuel c hc hp f h).1, [c], g, H, fun X => ⟨fun x => ⟨c, by simp, hcc.hasPart hc.1 x.1⟩, ?_⟩⟩
      rintro ⟨Y, y1, y2⟩
      rw [List.mem_singleton.1 y1] at y2
      obtain ⟨Z, z1, -⟩ := Crusher.same_union hc.1 y2
      exact ⟨⟨hcc.same y2, Z, z1⟩, fun r => hp (r.same y2.symm)⟩
  · exact crushAll_full hP hc h
  · cases h

section
variable (hc : c.NoArcs) (h : CrushesTo P c f)
include hc h

theorem CrushesTo.crush (hL : L.Avoids c) : ∃ K, f.applyLam P L = .ok K ∧ K.tri = f.target ∧ K.Consistent ∧ (L.NoArcs → K.NoArcs) := by
  obtain ⟨-, s, E, g, H, hE⟩ := h
  exact H.apply L hL.1 (hL.2.1.trans s.symm) (fun d hd => hL.2.2 d ((hE d).2 ⟨d, hd, .refl⟩))

theorem CrushesTo.disjoint (hX : X.Avoids c) (hY : Y.Avoids c) (hd : X.DisjointFrom Y) : ∃ A B, f.applyLam P X = .ok A ∧ f.applyLam P Y = .ok B ∧ A.DisjointFrom B := by
  obtain ⟨-, s, E, g, H, hE⟩ := h
  have h1 : ∀ d ∈ E, X.DisjointFrom d := fun d hd => hX.2.2 d ((hE d).2 ⟨d, hd, .refl⟩)
  have h2 : ∀ d ∈ E, Y.DisjointFrom d := fun d hd => hY.2.2 d ((hE d).2 ⟨d, hd, .refl⟩)
  obtain ⟨A, a, -⟩ := H.apply X hX.1 (hX.2.1.trans s.symm) h1
  obtain ⟨B, b, -⟩ := H.apply Y hY.1 (hY.2.1.trans s.symm) h2
  exact ⟨A, B, a, b, H.disjoint h1 h2 (hX.2.1.trans s.symm) hd a b⟩

theorem CrushesTo.lift : ∃ g, f.inverse = .ok g ∧ ∀ N : Lam Int, N.NoArcs → N.tri = f.target → ∃ M, g.applyLam P N = .ok M ∧ M.tri = c.tri ∧ M.NoArcs ∧ M.DisjointFrom c := by
  obtain ⟨-, s, E, g, H, hE⟩ := h
  refine ⟨g, H.inverse, fun N hN ht => ?_⟩
  obtain ⟨M, m1, m2, m3, m4⟩ := H.lift N hN ht
  refine ⟨M, m1, m2.trans s, m3, (avoids_iff c M hc m3).1 ⟨(Lam.noArcs_iff.1 m3).1, m2.trans s, fun X hX => ?_⟩⟩
  obtain ⟨Y, y1, y2⟩ := (hE X).1 hX
  exact (m4 Y y1).same .refl y2

theorem CrushesTo.lift_union (hg : f.inverse = .ok g) (hN : N.NoArcs) (ht : N.tri = f.target) (hu : N.IsUnion X Y) :
    ∃ M A B, g.applyLam P N = .ok M ∧ g.applyLam P X = .ok A ∧ g.applyLam P Y = .ok B ∧ M.IsUnion A B := by
  obtain ⟨-, s, E, g', H, hE⟩ := h
  have := H.inverse
  rw [hg] at this
  injection this with this
  subst this
  obtain ⟨M, m1, -⟩ := H.lift N hN ht
  obtain ⟨A, B, a, b, u⟩ := H.lift_ok hN ht hu m1
  exact ⟨M, A, B, m1, a, b, u⟩

theorem CrushesTo.lift_disjoint (hg : f.inverse = .ok g) (hX : X.NoArcs) (hY : Y.NoArcs) (ht : X.tri = f.target) (hd : X.DisjointFrom Y) (ha : g.applyLam P X = .ok K) (hb : g.applyLam P Y = .ok L) : K.DisjointFrom L := by
  obtain ⟨-, s, E, g', H, hE⟩ := h
  have := H.inverse
  rw [hg] at this
  injection this with this
  subst this
  exact H.lift_disjoint hX hY ht hd ha hb

theorem CrushesTo.lift_crush (hL : L.NoArcs) (hd : L.DisjointFrom c) : ∃ g K M, ∃ Ds : List (Lam Int), f.inverse = .ok g ∧ f.applyLam P L = .ok K ∧ g.applyLam P K = .ok M ∧
    L.Unions (Ds ++ [M]) ∧ (∀ d ∈ Ds, c.EssentialPart d) ∧ ∀ X, c.EssentialPart X → ¬ M.HasPart X := by
  obtain ⟨-, s, E, g, H, hE⟩ := h
  have av := (avoids_iff c L hc hL).2 hd
  have hdE : ∀ d ∈ E, L.DisjointFrom d := fun d hd => av.2.2 d ((hE d).2 ⟨d, hd, .refl⟩)
  have ht := av.2.1.trans s.symm
  obtain ⟨K, k1, k2, k3, k4⟩ := H.apply L av.1 ht hdE
  obtain ⟨M, m1, -⟩ := H.lift K (k4 hL) k2
  obtain ⟨Ds, d1, d2, d3⟩ := H.lift_apply L K M hL ht hdE k1 m1
  refine ⟨g, K, M, Ds, H.inverse, k1, m1, d2, fun d hd => (hE d).2 ⟨d, d1 d hd, .refl⟩, fun X hX q => ?_⟩
  obtain ⟨Y, y1, y2⟩ := (hE X).1 hX
  obtain ⟨-, Z, hZ⟩ := q.same' y2.symm
  exact d3 Y y1 ⟨Z, hZ⟩

omit hc in
theorem CrushesTo.valid : f.target.Valid := by
  obtain ⟨-, s, E, g', H, hE⟩ := h
  exact H.valid.2

theorem CrushesTo.lift_blank (hg : f.inverse = .ok g) (hN : N.NoArcs) (ht : N.tri = f.target) (hb : N.Blank) (ha : g.applyLam P N = .ok M) : M.Blank := by
  obtain ⟨-, s, E, g', H, hE⟩ := h
  have := H.inverse
  rw [hg] at this
  injection this with this
  subst this
  exact H.lift_blank hN ht ha hb

end
end Lam
end Curver
