import Verif.Proofs.PL

namespace Curver
open Triangulation

/-! ## laminations without arcs -/

section
variable {R : Type} [CommRing R] [LinearOrder R] [IsStrictOrderedRing R]

/-- in the absence of arcs a flip is given by one formula -/
theorem flipCase_taut {a b c d e x : R} (ha : 0 ≤ a) (hb : 0 ≤ b) (hc : 0 ≤ c) (hd : 0 ≤ d) (he : 0 ≤ e) (h1 : e ≤ a + b) (h2 : a ≤ b + e)
    (h3 : b ≤ e + a) (h4 : e ≤ c + d) (h5 : c ≤ d + e) (h6 : d ≤ e + c) (h : FlipCase a b c d e x) : x = max (a + c) (b + d) - e := by
  rcases le_total (a + c) (b + d) with hm | hm
  · rw [max_eq_right hm]; cases h <;> linarith
  · rw [max_eq_left hm]; cases h <;> linarith

variable [Halvable R]

namespace Lam
variable {L L' : Lam R} {es : List Int}

/-- the triangle inequalities -/
def Taut (L : Lam R) : Prop := ∀ a b c, L.tri.Glues a b c → 0 ≤ L.w a ∧ L.w a ≤ L.w b + L.w c

theorem noArcs_iff : L.NoArcs ↔ L.Consistent ∧ L.Taut := by
  unfold NoArcs Consistent Taut
  constructor
  · rintro ⟨hw, h⟩
    refine ⟨⟨hw, fun e he => ?_⟩, fun a b c hg => ?_⟩
    · obtain ⟨_, x, _, hx⟩ := h e he; exact ⟨x, hx⟩
    · have hl := hw.1.comp.label_of_glues hg
      obtain ⟨ha, x, hx, dx⟩ := h a hl.1
      obtain ⟨hb, y, hy, dy⟩ := h b hl.2.1
      obtain ⟨hc, z, hz, dz⟩ := h c hl.2.2
      have := (duals_iff hw hg).1 ⟨dx, dy, dz⟩
      rw [max_eq_left ha, max_eq_left hb, max_eq_left hc] at this
      refine ⟨ha, ?_⟩
      rcases this with h | h | h | h <;> linarith
  · rintro ⟨⟨hw, h⟩, ht⟩
    refine ⟨hw, fun e he => ?_⟩
    obtain ⟨b, c, hg⟩ := hw.1.comp.exists_glues he
    have hl := hw.1.comp.label_of_glues hg
    obtain ⟨h1, h2⟩ := ht _ _ _ hg
    obtain ⟨h3, h4⟩ := ht _ _ _ hg.rot
    obtain ⟨h5, h6⟩ := ht _ _ _ hg.rot.rot
    obtain ⟨x, dx⟩ := h e he
    obtain ⟨y, dy⟩ := h b hl.2.1
    obtain ⟨z, dz⟩ := h c hl.2.2
    refine ⟨h1, x, ?_, dx⟩
    have := (duals_iff hw hg).1 ⟨dx, dy, dz⟩
    rw [max_eq_left h1, max_eq_left h3, max_eq_left h5] at this
    rcases this with h | h | h | h <;> linarith

theorem Taut.flipWeight (hT : L.Taut) {e a b c d : Int} {x : R} (h1 : L.tri.Glues e a b) (h2 : L.tri.Glues (inv e) c d)
    (h : flipWeight (max (L.w a) 0) (max (L.w b) 0) (max (L.w c) 0) (max (L.w d) 0) (L.w e) = .ok x) :
    x = max (L.w a + L.w c) (L.w b + L.w d) - L.w e := by
  have e1 := hT _ _ _ h1; have e2 := hT _ _ _ h1.rot; have e3 := hT _ _ _ h1.rot.rot
  have f1 := hT _ _ _ h2; have f2 := hT _ _ _ h2.rot; have f3 := hT _ _ _ h2.rot.rot
  rw [w_inv] at f1 f2 f3
  rw [max_eq_left e2.1, max_eq_left e3.1, max_eq_left f2.1, max_eq_left f3.1, flipWeight_ok_iff e2.1 e3.1 f2.1 f3.1] at h
  exact flipCase_taut e2.1 e3.1 f2.1 f3.1 e1.1 e1.2 (by linarith [e2.2]) (by linarith [e3.2]) f1.2 (by linarith [f2.2]) (by linarith [f3.2]) h

theorem FlipsTo.taut (hw : L.WellFormed) (hT : L.Taut) (hd : L.tri.DisjointSupport es) (hm : L.tri.IsMultiflip es L'.tri) (hf : FlipsTo es L L') : L'.Taut := by
  have hc := hw.1.comp
  intro x y z hg
  have hlx : L.tri.IsLabel x := hm.isLabel_iff.1 (hm.valid.comp.label_of_glues hg).1
  have fin : ∀ {y' z'}, L'.tri.Glues x y' z' → (0 ≤ L'.w x ∧ L'.w x ≤ L'.w y' + L'.w z') → 0 ≤ L'.w x ∧ L'.w x ≤ L'.w y + L'.w z := by
    intro y' z' g1 g2
    obtain ⟨rfl, rfl⟩ := hm.valid.comp.glues_unique hg g1
    exact g2
  rcases hc.locate hd.1 hlx with ⟨y', z', g, hk⟩ | ⟨e, he, a, b, c, d, g1, g2, hmem⟩
  · apply fin (hm.kept _ _ _ g (kept_iff.2 hk))
    have hl := hc.label_of_glues g
    rw [hf.kept' hl.1 hk.1, hf.kept' hl.2.1 hk.2.1, hf.kept' hl.2.2 hk.2.2]
    exact hT _ _ _ g
  · have hle := hd.1 e he
    have n1 := hm.new e he _ _ _ _ g1 g2
    have n2 := hT.flipWeight g1 g2 (hf.new e he _ _ _ _ g1 g2)
    have hd' := ((hc.disjoint_iff' hd.1).1 hd).2
    have s1 : e ∈ sides es := mem_sides.2 (.inl he)
    have s2 : inv e ∈ sides es := inv_mem_sides.2 s1
    have l1 := hc.label_of_glues g1
    have l2 := hc.label_of_glues g2
    have ka := hf.kept' l1.2.1 (hd' _ s1 _ _ g1).1
    have kb := hf.kept' l1.2.2 (hd' _ s1 _ _ g1).2
    have kc := hf.kept' l2.2.1 (hd' _ s2 _ _ g2).1
    have kd := hf.kept' l2.2.2 (hd' _ s2 _ _ g2).2
    have ⟨e1, e1'⟩ := hT _ _ _ g1; have ⟨e2, e2'⟩ := hT _ _ _ g1.rot; have ⟨e3, e3'⟩ := hT _ _ _ g1.rot.rot
    have ⟨f1, f1'⟩ := hT _ _ _ g2; have ⟨f2, f2'⟩ := hT _ _ _ g2.rot; have ⟨f3, f3'⟩ := hT _ _ _ g2.rot.rot
    rw [w_inv] at f1 f1' f2' f3'
    have hie := L'.w_inv e
    have m1 := le_max_left (L.w a + L.w c) (L.w b + L.w d)
    have m2 := le_max_right (L.w a + L.w c) (L.w b + L.w d)
    have m3 : ∀ u, L.w a + L.w c ≤ u → L.w b + L.w d ≤ u → max (L.w a + L.w c) (L.w b + L.w d) ≤ u := fun u h h' => max_le h h'
    generalize max (L.w a + L.w c) (L.w b + L.w d) = mx at n2 m1 m2 m3
    have m3a := m3 (L.w a + L.w d + L.w e) (by linarith) (by linarith)
    have m3b := m3 (L.w b + L.w c + L.w e) (by linarith) (by linarith)
    simp only [List.mem_cons, List.not_mem_nil, or_false] at hmem
    rcases lt_or_ge e 0 with h0 | h0
    · obtain ⟨p1, p2⟩ := n1.2 h0
      rcases hmem with rfl | rfl | rfl | rfl | rfl | rfl
      · apply fin p2; rw [kb, kc, n2]; constructor <;> linarith
      · apply fin p1.rot.rot; rw [ka, kd, hie, n2]; constructor <;> linarith
      · apply fin p2.rot; rw [kb, kc, n2]; constructor <;> linarith
      · apply fin p1; rw [ka, kd, hie, n2]; constructor <;> linarith
      · apply fin p2.rot.rot; rw [kb, kc, n2]; constructor <;> linarith
      · apply fin p1.rot; rw [ka, kd, hie, n2]; constructor <;> linarith
    · obtain ⟨p1, p2⟩ := n1.1 h0
      rcases hmem with rfl | rfl | rfl | rfl | rfl | rfl
      · apply fin p1; rw [ka, kd, n2]; constructor <;> linarith
      · apply fin p1.rot.rot; rw [ka, kd, n2]; constructor <;> linarith
      · apply fin p2.rot; rw [kb, kc, hie, n2]; constructor <;> linarith
      · apply fin p2; rw [kb, kc, hie, n2]; constructor <;> linarith
      · apply fin p2.rot.rot; rw [kb, kc, hie, n2]; constructor <;> linarith
      · apply fin p1.rot; rw [ka, kd, n2]; constructor <;> linarith

theorem MapsTo.taut {f : Int → Int} (h : L.MapsTo f L') (hf : L.tri.IsIsometry L'.tri f) (hw : L.WellFormed) (hT' : L'.tri.Valid) (hT : L.Taut) : L'.Taut := by
  intro a b c hg
  have hl := hT'.comp.label_of_glues hg
  obtain ⟨u, hu, rfl⟩ := hf.surj hl.1
  obtain ⟨v, w, hg'⟩ := hw.1.comp.exists_glues hu
  obtain ⟨rfl, rfl⟩ := hT'.comp.glues_unique hg (hf.glues _ _ _ hg')
  have hl' := hw.1.comp.label_of_glues hg'
  rw [h.2.2 _ hl'.1, h.2.2 _ hl'.2.1, h.2.2 _ hl'.2.2]
  exact hT _ _ _ hg'

end Lam

theorem LMove.Legal.taut {m : LMove} (h : m.Legal) {L L' : Lam R} (hL : L.WellFormed) (hT : L.Taut) (ht : L.tri = m.move.source)
    (ha : m.move.applyLam L = .ok L') : L'.Taut := by
  cases h.shape with
  | flip S T e hS he hm =>
    replace ht : L.tri = S := ht
    subst ht
    obtain ⟨rfl, h4⟩ := (ef_applyLam_iff hL he).1 ha
    exact h4.taut hL hT (disjoint_singleton.2 he) hm
  | multiflip S T es hS he hm =>
    replace ht : L.tri = S := ht
    subst ht
    obtain ⟨rfl, h4⟩ := (mf_applyLam_iff hL he).1 ha
    exact h4.taut hL hT he hm
  | isometry S T f g i i' hS hT' hf hg hi hi' hgf hfg =>
    replace ht : L.tri = S := ht.trans hi.source
    subst ht
    obtain ⟨rfl, h2⟩ := (hi.applyLam_iff hf hL rfl).1 ha
    exact h2.taut hf hL hT' hT

end
end Curver
