import Verif.Proofs.HomFlip

namespace Curver
open Triangulation

section
variable {R : Type} [CommRing R] [LinearOrder R] [IsStrictOrderedRing R] [Halvable R]

theorem flipOneByOne_ok : ∀ (es : List Int) (T : Triangulation), T.Valid → T.DisjointSupport es →
    ∃ ms, flipOneByOne T es = .ok ms ∧ T.IsMultiflip es (endOf T ms) ∧
      (∀ L L' : Lam R, L.WellFormed → L.tri = T → (performLam ms L = .ok L' ↔ L'.tri = endOf T ms ∧ Lam.FlipsTo es L L')) ∧
      (∀ h : Hom, h.WellFormed → h.tri = T → ∃ h', performHom ms h = .ok h' ∧ h'.tri = endOf T ms ∧ Hom.FlipsTo es h h') := by
  intro es
  induction es with
  | nil =>
    intro T hT _
    refine ⟨[], rfl, ⟨hT, rfl, fun x y z h _ => h, by simp⟩, ?_, ?_⟩
    · intro L L' hL ht
      simp only [performLam, endOf, Except.ok.injEq]
      constructor
      · rintro rfl; exact ⟨ht, rfl, rfl, fun _ _ _ => rfl, by simp⟩
      · rintro ⟨h1, h2⟩
        exact Lam.FlipsTo.unique hL (es := []) (by simp) ⟨rfl, rfl, fun _ _ _ => rfl, by simp⟩ h2 (by rw [h1, ht])
    · intro h _ ht
      exact ⟨h, rfl, ht, rfl, by simp⟩
  | cons e es ih =>
    intro T hT hd
    have hf := hd.flippable (e := e) (by simp)
    obtain ⟨T', h1, h2⟩ := hT.encodeFlip_eq hf
    have hdt := (h1.disjoint_tail hT hd).1
    obtain ⟨ms, h3, h4, h5, h6⟩ := ih T' h1.valid hdt
    refine ⟨⟨.flip ⟨T, T', e, T.sq e⟩, .flip ⟨T', T, inv e, T'.sq (inv e)⟩⟩ :: ms, ?_, ?_, ?_, ?_⟩
    · simp only [flipOneByOne, h2, py_bind_ok, Move.target, h3, py_pure]
    · simp only [endOf, Move.target]; exact h1.cons hT hd h4
    · intro L L' hL ht
      subst ht
      simp only [performLam, endOf, Move.target, Move.applyLam, py_bind_eq_ok]
      constructor
      · rintro ⟨L₁, g1, g2⟩
        obtain ⟨rfl, g3⟩ := (ef_applyLam_iff hL hf).1 g1
        have hw := g3.wellFormed hL h1
        obtain ⟨g4, g5⟩ := (h5 L₁ L' hw rfl).1 g2
        exact ⟨g4, g3.cons hL hd h1 g5⟩
      · rintro ⟨g1, g2⟩
        -- the lamination after the first flip
        have hle := hf.1
        have hlt : (norm e).toNat < L.geometric.length := by rw [hL.2]; exact idx_lt hle
        have g2' := (Lam.flipsTo_iff hL hd.1).1 g2
        obtain ⟨x, hx, hx'⟩ := g2'.2.2.2 e (by simp)
        have g3 : Lam.FlipsTo [e] L ⟨T', L.geometric.set (norm e).toNat x, L.cls⟩ := by
          rw [Lam.flipsTo_iff hL (by simpa using hle)]
          refine ⟨rfl, by simp, ?_, ?_⟩
          · intro i hi
            exact List.getElem?_set_ne (hi e (by simp))
          · intro f hf'
            simp only [List.mem_singleton] at hf'
            subst hf'
            exact ⟨x, hx, List.getElem?_set_self hlt⟩
        have hw : (⟨T', L.geometric.set (norm e).toNat x, L.cls⟩ : Lam R).WellFormed := g3.wellFormed hL h1
        refine ⟨_, (ef_applyLam_iff hL hf).2 ⟨rfl, g3⟩, (h5 _ _ hw rfl).2 ⟨g1, ?_⟩⟩
        rw [Lam.flipsTo_iff hw hdt.1]
        have hsn : (e :: inv e :: sides es).Nodup := hd.sides_nodup hT.comp
        refine ⟨g2'.1, by rw [g2'.2.1]; simp, ?_, ?_⟩
        · intro i hi
          by_cases hie : (norm e).toNat = i
          · subst hie; rw [hx']; exact (List.getElem?_set_self hlt).symm
          · rw [g2'.2.2.1 i (by intro f hf'; rw [List.mem_cons] at hf'; rcases hf' with rfl | hf'
                                · exact hie
                                · exact hi f hf')]
            exact (List.getElem?_set_ne hie).symm
        · intro f hf'
          obtain ⟨y, hy, hy'⟩ := g2'.2.2.2 f (by simp [hf'])
          refine ⟨y, ?_, hy'⟩
          rw [← hy]
          have sf : f ∈ sides es := mem_sides.2 (.inl hf')
          have hlf := hd.tail.1 f hf'
          have hgl := (h1.disjoint_tail hT hd).2
          have n1 := (hgl f sf _ _).2 (hT.comp.glues_nxt hlf)
          have n2 := (hgl (inv f) (inv_mem_sides.2 sf) _ _).2 (hT.comp.glues_nxt (isLabel_inv.2 hlf))
          have hd' := (hT.comp.disjoint_iff' hd.1).1 hd
          have hsub : ∀ u, u ∉ sides (e :: es) → u ∉ sides [e] := by
            intro u hu; simp only [sides, List.flatMap_cons, List.flatMap_nil, List.append_nil] at hu ⊢
            rw [List.mem_append] at hu; tauto
          have s1 : f ∈ sides (e :: es) := mem_sides.2 (.inl (by simp [hf']))
          have q1 := hd'.2 _ s1 _ _ (hT.comp.glues_nxt hlf)
          have q2 := hd'.2 _ (inv_mem_sides.2 s1) _ _ (hT.comp.glues_nxt (isLabel_inv.2 hlf))
          have lf := hT.comp.label_of_glues (hT.comp.glues_nxt hlf)
          have lf' := hT.comp.label_of_glues (hT.comp.glues_nxt (isLabel_inv.2 hlf))
          have hf1 : f ∉ sides [e] := by
            intro hu
            simp only [sides, List.flatMap_cons, List.flatMap_nil, List.append_nil] at hu
            rw [List.nodup_cons, List.nodup_cons] at hsn
            simp at hu
            rcases hu with rfl | rfl
            · exact hsn.1 (by simp only [List.mem_cons]; exact .inr sf)
            · exact hsn.2.1 sf
          unfold Lam.fw
          dsimp only
          rw [h1.valid.comp.nxt_of_glues n1, h1.valid.comp.nxt_of_glues n1.rot, h1.valid.comp.nxt_of_glues n2,
            h1.valid.comp.nxt_of_glues n2.rot, g3.kept' lf.1 hf1, g3.kept' lf.2.1 (hsub _ q1.1),
            g3.kept' lf.2.2 (hsub _ q1.2), g3.kept' lf'.2.1 (hsub _ q2.1), g3.kept' lf'.2.2 (hsub _ q2.2)]
    · intro h hh ht
      subst ht
      obtain ⟨h₁, k1, rfl, k3, k4⟩ := ef_applyHom hh hf h1
      obtain ⟨h₂, k5, k6, k7⟩ := h6 h₁ k3 rfl
      refine ⟨h₂, ?_, k6, k4.cons hh hd h1 k7⟩
      simp only [performHom, Move.applyHom, k1, py_bind_ok, k5]

end
end Curver
