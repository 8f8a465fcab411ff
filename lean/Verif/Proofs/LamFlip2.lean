import Verif.Proofs.Encode

namespace Curver
open Triangulation

section
variable {R : Type} [CommRing R] [LinearOrder R] [IsStrictOrderedRing R] [Halvable R]
variable {L L' L₁ L₂ : Lam R} {T T' T₁ T₂ : Triangulation} {es : List Int}

theorem triEven_max {e a b : R} : TriEven e (max a 0) (max b 0) ↔ TriEven e a b := by
  unfold TriEven; simp only [max_eq_left (le_max_right a 0), max_eq_left (le_max_right b 0)]

theorem triEven_max1 {e a b : R} : TriEven (max e 0) (max a 0) (max b 0) ↔ TriEven e a b := by
  unfold TriEven
  simp only [max_eq_left (le_max_right a 0), max_eq_left (le_max_right b 0), max_eq_left (le_max_right e 0)]

namespace Lam

theorem FlipsTo.wellFormed (hw : L.WellFormed) (hm : L.tri.IsMultiflip es L'.tri) (h : FlipsTo es L L') :
    L'.WellFormed := ⟨hm.valid, by rw [h.length, hm.zeta]; exact hw.2⟩

theorem FlipsTo.kept' (h : FlipsTo es L L') {u : Int} (hu : L.tri.IsLabel u) (hs : u ∉ sides es) : L'.w u = L.w u := by
  apply h.kept u hu
  intro e he
  rw [mem_sides] at hs
  constructor
  · rintro rfl; exact hs (.inl he)
  · rintro rfl; exact hs (.inr (by simpa using he))

theorem FlipsTo.inverse (hw : L.WellFormed) (hd : L.tri.DisjointSupport es) (hm : L.tri.IsMultiflip es L'.tri)
    (h : FlipsTo es L L') : FlipsTo (es.map inv) L' L := by
  have hc := hw.1.comp
  refine ⟨h.cls.symm, h.length.symm, ?_, ?_⟩
  · intro u hu hne
    refine (h.kept u (hm.isLabel_iff.1 hu) ?_).symm
    intro e he
    have := hne (inv e) (List.mem_map_of_mem he)
    rw [inv_inv] at this; exact ⟨this.2, this.1⟩
  · intro f hf a' b' c' d' g1 g2
    rw [List.mem_map] at hf
    obtain ⟨e, he, rfl⟩ := hf
    rw [inv_inv] at g2
    have hle := hd.1 e he
    have hg1 := hc.glues_nxt hle
    have hg2 := hc.glues_nxt (isLabel_inv.2 hle)
    have n1 := hm.new e he _ _ _ _ hg1 hg2
    have n2 := h.new e he _ _ _ _ hg1 hg2
    have hd' := ((hc.disjoint_iff' hd.1).1 hd).2
    have s1 : e ∈ sides es := mem_sides.2 (.inl he)
    have s2 : inv e ∈ sides es := inv_mem_sides.2 s1
    have l1 := hc.label_of_glues hg1
    have l2 := hc.label_of_glues hg2
    have ka := h.kept' l1.2.1 (hd' _ s1 _ _ hg1).1
    have kb := h.kept' l1.2.2 (hd' _ s1 _ _ hg1).2
    have kc := h.kept' l2.2.1 (hd' _ s2 _ _ hg2).1
    have kd := h.kept' l2.2.2 (hd' _ s2 _ _ hg2).2
    have n3 := flipWeight_inv (le_max_right _ _) (le_max_right _ _) (le_max_right _ _) (le_max_right _ _) n2
    rw [w_inv, w_inv]
    rcases lt_or_ge e 0 with h0 | h0
    · obtain ⟨p1, p2⟩ := n1.2 h0
      obtain ⟨rfl, rfl⟩ := hm.valid.comp.glues_unique g1 p1
      obtain ⟨rfl, rfl⟩ := hm.valid.comp.glues_unique g2 p2
      rw [ka, kb, kc, kd, flipWeight_rot (le_max_right _ _) (le_max_right _ _) (le_max_right _ _) (le_max_right _ _)]
      exact n3
    · obtain ⟨p1, p2⟩ := n1.1 h0
      obtain ⟨rfl, rfl⟩ := hm.valid.comp.glues_unique g1 p2
      obtain ⟨rfl, rfl⟩ := hm.valid.comp.glues_unique g2 p1
      rw [ka, kb, kc, kd]
      exact n3

theorem FlipsTo.unique (hw : L.WellFormed) (hl : ∀ e ∈ es, L.tri.IsLabel e) (h₁ : FlipsTo es L L₁) (h₂ : FlipsTo es L L₂)
    (ht : L₁.tri = L₂.tri) : L₁ = L₂ := by
  rw [flipsTo_iff hw hl] at h₁ h₂
  have : L₁.geometric = L₂.geometric := by
    apply List.ext_getElem?
    intro i
    by_cases hi : ∀ e ∈ es, (norm e).toNat ≠ i
    · rw [h₁.2.2.1 i hi, h₂.2.2.1 i hi]
    · push Not at hi
      obtain ⟨e, he, rfl⟩ := hi
      obtain ⟨w1, hw1, h1⟩ := h₁.2.2.2 e he
      obtain ⟨w2, hw2, h2⟩ := h₂.2.2.2 e he
      rw [hw1] at hw2; cases hw2
      rw [h1, h2]
  have hcls : L₁.cls = L₂.cls := by rw [h₁.1, h₂.1]
  cases L₁; cases L₂; simp_all

/-- the consistency condition in each triangle -/
theorem consistent_iff : L.Consistent ↔ L.WellFormed ∧ ∀ a b c, L.tri.Glues a b c → TriEven (L.w a) (L.w b) (L.w c) := by
  unfold Consistent
  refine and_congr_right (fun hw => ?_)
  have hc := hw.1.comp
  have hdw : ∀ a b c, L.tri.Glues a b c → L.dualWeight a = half (dual2 (L.w a) (L.w b) (L.w c)) := by
    intro a b c hg
    have hl := hc.label_of_glues hg
    unfold dualWeight dualWeight2
    rw [hc.corner_eq hg]
    simp only [py_bind_ok, wt_eq hw.2 hl.1, wt_eq hw.2 hl.2.1, wt_eq hw.2 hl.2.2, py_pure]
  constructor
  · intro h a b c hg h1 h2 h3
    obtain ⟨x, hx⟩ := h a (hc.label_of_glues hg).1
    rw [hdw a b c hg, half_ok_iff] at hx
    unfold dual2 at hx
    simp only at hx
    rw [min_eq_right (a := min (min _ _) _)] at hx
    · exact even_of ⟨x, hx.symm⟩ (max (L.w a) 0) (by ring)
    · refine le_min (le_min ?_ ?_) ?_ <;> linarith
  · intro h a hl
    have hg := hc.glues_nxt hl
    have hh := h _ _ _ hg
    rw [hdw _ _ _ hg]
    generalize L.w a = a at *
    generalize L.w (L.tri.nxt _) = b at *
    generalize L.w (L.tri.nxt _) = c at *
    unfold TriEven at hh
    simp only [half_ok_iff]
    unfold dual2
    dsimp only
    have ha := le_max_right a 0
    have hb := le_max_right b 0
    have hc := le_max_right c 0
    generalize max a 0 = a at *
    generalize max b 0 = b at *
    generalize max c 0 = c at *
    by_cases h1 : a ≤ b + c
    · by_cases h2 : b ≤ c + a
      · by_cases h3 : c ≤ a + b
        · obtain ⟨y, hy⟩ := hh h1 h2 h3
          refine ⟨y - a, ?_⟩
          rw [min_eq_right (a := min (min _ _) _)]
          · linarith
          · refine le_min (le_min ?_ ?_) ?_ <;> linarith
        · refine ⟨b, ?_⟩
          rw [min_eq_left (b := 0), min_eq_left (b := c + a - b), min_eq_left (b := b + c - a)]
          · ring
          · linarith
          · refine (min_le_left _ _).trans ?_; linarith
          · refine (min_le_left _ _).trans ((min_le_left _ _).trans ?_); linarith
      · refine ⟨c, ?_⟩
        rw [min_eq_left (b := 0), min_eq_right (b := c + a - b)]
        · ring
        · refine le_min ?_ ?_ <;> linarith
        · refine (min_le_right _ _).trans ?_; linarith
    · refine ⟨b + c - a, ?_⟩
      rw [min_eq_left (b := 0), min_eq_left (b := c + a - b), min_eq_right (b := b + c - a)]
      · linarith
      · refine (min_le_right _ _).trans ?_; linarith
      · refine (min_le_left _ _).trans ((min_le_right _ _).trans ?_); linarith

theorem Consistent.fw_ok (h : L.Consistent) {e : Int} (hl : L.tri.IsLabel e) : ∃ x, L.fw e = .ok x := by
  rw [consistent_iff] at h
  have hc := h.1.1.comp
  apply flip_exists (le_max_right _ _) (le_max_right _ _) (le_max_right _ _) (le_max_right _ _)
  · rw [triEven_max]; exact h.2 _ _ _ (hc.glues_nxt hl)
  · rw [triEven_max, ← L.w_inv]; exact h.2 _ _ _ (hc.glues_nxt (isLabel_inv.2 hl))

theorem flipFold_ok {F : Int → Py R} : ∀ (es : List Int) (g : List R), (∀ e ∈ es, ∃ x, F e = .ok x) →
    ∃ g', es.foldlM (fun g e => F e >>= fun w => (Except.ok (g.set (norm e).toNat w) : Py (List R))) g = .ok g' := by
  intro es
  induction es with
  | nil => intro g _; exact ⟨g, rfl⟩
  | cons e es ih =>
    intro g h
    obtain ⟨x, hx⟩ := h e (by simp)
    rw [List.foldlM_cons, hx]
    exact ih _ (fun f hf => h f (by simp [hf]))

theorem Consistent.flipsTo (h : L.Consistent) (hd : L.tri.DisjointSupport es) (T' : Triangulation) :
    ∃ L' : Lam R, L'.tri = T' ∧ FlipsTo es L L' := by
  obtain ⟨g', hg'⟩ := flipFold_ok es L.geometric (fun e he => h.fw_ok (hd.1 e he))
  refine ⟨⟨T', g', L.cls⟩, rfl, ?_⟩
  refine ((mf_applyLam_iff (T' := T') h.1 hd).1 ?_).2
  unfold MultiFlip.applyLam mf
  rw [multiflip_foldlM h.1 hd, hg']; rfl

theorem FlipsTo.consistent (h : L.Consistent) (hd : L.tri.DisjointSupport es) (hm : L.tri.IsMultiflip es L'.tri)
    (hf : FlipsTo es L L') : L'.Consistent := by
  have hw := h.1
  have hc := hw.1.comp
  rw [consistent_iff] at h ⊢
  refine ⟨hf.wellFormed hw hm, ?_⟩
  intro x y z hg
  have hlx : L.tri.IsLabel x := hm.isLabel_iff.1 (hm.valid.comp.label_of_glues hg).1
  have fin : ∀ {y' z'}, L'.tri.Glues x y' z' → TriEven (L'.w x) (L'.w y') (L'.w z') →
      TriEven (L'.w x) (L'.w y) (L'.w z) := by
    intro y' z' g1 g2
    obtain ⟨rfl, rfl⟩ := hm.valid.comp.glues_unique hg g1
    exact g2
  rcases hc.locate hd.1 hlx with ⟨y', z', g, hk⟩ | ⟨e, he, a, b, c, d, g1, g2, hmem⟩
  · apply fin (hm.kept _ _ _ g (kept_iff.2 hk))
    have hl := hc.label_of_glues g
    rw [hf.kept' hl.1 hk.1, hf.kept' hl.2.1 hk.2.1, hf.kept' hl.2.2 hk.2.2]
    exact h.2 _ _ _ g
  · have hle := hd.1 e he
    have n1 := hm.new e he _ _ _ _ g1 g2
    have n2 := hf.new e he _ _ _ _ g1 g2
    have hd' := ((hc.disjoint_iff' hd.1).1 hd).2
    have s1 : e ∈ sides es := mem_sides.2 (.inl he)
    have s2 : inv e ∈ sides es := inv_mem_sides.2 s1
    have l1 := hc.label_of_glues g1
    have l2 := hc.label_of_glues g2
    have ka := hf.kept' l1.2.1 (hd' _ s1 _ _ g1).1
    have kb := hf.kept' l1.2.2 (hd' _ s1 _ _ g1).2
    have kc := hf.kept' l2.2.1 (hd' _ s2 _ _ g2).1
    have kd := hf.kept' l2.2.2 (hd' _ s2 _ _ g2).2
    rw [flipWeight_ok_iff (le_max_right _ _) (le_max_right _ _) (le_max_right _ _) (le_max_right _ _)] at n2
    have t1 := triEven_max.2 (h.2 _ _ _ g1)
    have t2 := triEven_max.2 (h.2 _ _ _ g2)
    rw [L.w_inv] at t2
    have e1 := triEven_max.1 (flip_even (le_max_right _ _) (le_max_right _ _) (le_max_right _ _) (le_max_right _ _) t1 t2 n2)
    have e2 := triEven_max.1 (flip_even (le_max_right _ _) (le_max_right _ _) (le_max_right _ _) (le_max_right _ _) t2 t1 n2.rot)
    rw [← ka, ← kd] at e1
    rw [← kb, ← kc] at e2
    have e1' := e1
    have e2' := e2
    rw [← L'.w_inv e] at e1' e2'
    simp only [List.mem_cons, List.not_mem_nil, or_false] at hmem
    rcases lt_or_ge e 0 with h0 | h0
    · obtain ⟨p1, p2⟩ := n1.2 h0
      rcases hmem with rfl | rfl | rfl | rfl | rfl | rfl
      · exact fin p2 e2
      · exact fin p1.rot.rot e1'.rot.rot
      · exact fin p2.rot e2.rot
      · exact fin p1 e1'
      · exact fin p2.rot.rot e2.rot.rot
      · exact fin p1.rot e1'.rot
    · obtain ⟨p1, p2⟩ := n1.1 h0
      rcases hmem with rfl | rfl | rfl | rfl | rfl | rfl
      · exact fin p1 e1
      · exact fin p1.rot.rot e1.rot.rot
      · exact fin p2.rot e2'.rot
      · exact fin p2 e2'
      · exact fin p2.rot.rot e2'.rot.rot
      · exact fin p1.rot e1.rot

/-- one flip, then the others -/
theorem FlipsTo.cons {e : Int} (hw : L.WellFormed) (hd : L.tri.DisjointSupport (e :: es))
    (hm : L.tri.IsMultiflip [e] L₁.tri) (h₁ : FlipsTo [e] L L₁) (h₂ : FlipsTo es L₁ L₂) : FlipsTo (e :: es) L L₂ := by
  have hc := hw.1.comp
  have hd' := (hc.disjoint_iff' hd.1).1 hd
  have hdt := hm.disjoint_tail hw.1 hd
  refine ⟨h₂.cls.trans h₁.cls, h₂.length.trans h₁.length, ?_, ?_⟩
  · intro u hu hne
    rw [h₂.kept u (hm.isLabel_iff.2 hu) (fun f hf => hne f (by simp [hf])),
      h₁.kept u hu (fun f hf => hne f (by simp at hf; simp [hf]))]
  · intro f hf a b c d g1 g2
    have hlf := hd.1 f hf
    have l1 := hc.label_of_glues g1
    have l2 := hc.label_of_glues g2
    rw [List.mem_cons] at hf
    rcases hf with rfl | hf
    · rw [h₁.new f (by simp) a b c d g1 g2]
      congr 1
      symm
      apply h₂.kept' (hm.isLabel_iff.2 hlf)
      intro hs
      have := hd'.1
      rw [show sides (f :: es) = f :: inv f :: sides es from rfl, List.nodup_cons] at this
      exact this.1 (by simp only [List.mem_cons]; exact .inr hs)
    · have s1 : f ∈ sides es := mem_sides.2 (.inl hf)
      have s2 : inv f ∈ sides es := inv_mem_sides.2 s1
      have hh := h₂.new f hf a b c d ((hdt.2 f s1 _ _).2 g1) ((hdt.2 _ s2 _ _).2 g2)
      have s1' : f ∈ sides (e :: es) := by
        simp only [sides, List.flatMap_cons] at s1 ⊢; exact List.mem_append_right _ s1
      have s2' : inv f ∈ sides (e :: es) := inv_mem_sides.2 s1'
      have hsub : ∀ u, u ∉ sides (e :: es) → u ∉ sides [e] := by
        intro u hu; simp only [sides, List.flatMap_cons, List.flatMap_nil, List.append_nil] at hu ⊢
        rw [List.mem_append] at hu; tauto
      have hf1 : f ∉ sides [e] := by
        intro hu'
        have := hd'.1
        simp only [sides, List.flatMap_cons, List.flatMap_nil, List.append_nil] at this hu'
        exact (List.nodup_append.1 this).2.2 f hu' f s1 rfl
      rw [h₁.kept' l1.1 hf1, h₁.kept' l1.2.1 (hsub _ (hd'.2 _ s1' _ _ g1).1),
        h₁.kept' l1.2.2 (hsub _ (hd'.2 _ s1' _ _ g1).2), h₁.kept' l2.2.1 (hsub _ (hd'.2 _ s2' _ _ g2).1),
        h₁.kept' l2.2.2 (hsub _ (hd'.2 _ s2' _ _ g2).2)] at hh
      exact hh

end Lam
end
end Curver
