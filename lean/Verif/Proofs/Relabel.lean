import Verif.Proofs.Isometry

namespace Curver
open Triangulation

namespace Triangulation
variable {S T : Triangulation} {f g : Int → Int} {d : PyDict Int Int}

theorem completeMap_ok (hf : T.SignedBij f) : ∀ (is : List Int) (d : PyDict Int Int), (∀ i ∈ is, T.IsLabel i) →
    d.keys.Nodup → (∀ e v, (e, v) ∈ d → T.IsLabel e ∧ v = f e) → (∀ i ∈ is, i ∈ d.keys ∨ inv i ∈ d.keys) →
    ∃ d', completeMap d is = .ok d' ∧ d'.keys.Nodup ∧ (∀ e v, (e, v) ∈ d' → T.IsLabel e ∧ v = f e) ∧
      (∀ k ∈ d.keys, k ∈ d'.keys) ∧ ∀ i ∈ is, i ∈ d'.keys ∧ inv i ∈ d'.keys := by
  intro is
  induction is with
  | nil => intro d _ h1 h2 _; exact ⟨d, rfl, h1, h2, fun k h => h, by simp⟩
  | cons i is ih =>
    intro d hl h1 h2 h3
    have hget : ∀ k v, d.get? k = some v → v = f k := fun k v h => (h2 k v (PyDict.mem_of_get? h)).2
    have hset : ∀ k, T.IsLabel k → k ∉ d.keys → (d.set k (f k)).keys.Nodup ∧
        (∀ e v, (e, v) ∈ d.set k (f k) → T.IsLabel e ∧ v = f e) ∧ ∀ x, x ∈ (d.set k (f k)).keys ↔ x ∈ d.keys ∨ x = k := by
      intro k hk hkd
      refine ⟨PyDict.nodup_keys_set h1 _ _, ?_, ?_⟩
      · intro e v hm
        rw [PyDict.set_of_not_mem _ _ _ hkd, List.mem_append] at hm
        rcases hm with hm | hm
        · exact h2 e v hm
        · simp only [List.mem_singleton, Prod.mk.injEq] at hm
          obtain ⟨rfl, rfl⟩ := hm
          exact ⟨hk, rfl⟩
      · intro x
        rw [PyDict.set_of_not_mem _ _ _ hkd]; simp [PyDict.keys]
    have hli := hl i (by simp)
    have hl' : ∀ j ∈ is, T.IsLabel j := fun j hj => hl j (by simp [hj])
    unfold completeMap
    cases hg1 : d.get? i with
    | some v =>
      have hk1 : i ∈ d.keys := by rw [← PyDict.get?_isSome_iff, hg1]; rfl
      cases hg2 : d.get? (inv i) with
      | some v' =>
        have hk2 : inv i ∈ d.keys := by rw [← PyDict.get?_isSome_iff, hg2]; rfl
        obtain ⟨d', a1, a2, a3, a4, a5⟩ := ih d hl' h1 h2 (fun j hj => h3 j (by simp [hj]))
        refine ⟨d', a1, a2, a3, a4, ?_⟩
        intro j hj
        rw [List.mem_cons] at hj
        rcases hj with rfl | hj
        · exact ⟨a4 _ hk1, a4 _ hk2⟩
        · exact a5 j hj
      | none =>
        have hk2 : inv i ∉ d.keys := PyDict.get?_eq_none_iff.1 hg2
        have hv : inv v = f (inv i) := by rw [hget i v hg1, hf.inverts i hli]
        simp only [hv]
        obtain ⟨b1, b2, b3⟩ := hset (inv i) (isLabel_inv.2 hli) hk2
        obtain ⟨d', a1, a2, a3, a4, a5⟩ := ih _ hl' b1 b2 (fun j hj => by
          rw [b3, b3]; have := h3 j (by simp [hj]); tauto)
        refine ⟨d', a1, a2, a3, fun k hk => a4 k ((b3 k).2 (.inl hk)), ?_⟩
        intro j hj
        rw [List.mem_cons] at hj
        rcases hj with rfl | hj
        · exact ⟨a4 _ ((b3 _).2 (.inl hk1)), a4 _ ((b3 _).2 (.inr rfl))⟩
        · exact a5 j hj
    | none =>
      have hk1 : i ∉ d.keys := PyDict.get?_eq_none_iff.1 hg1
      cases hg2 : d.get? (inv i) with
      | some v =>
        have hk2 : inv i ∈ d.keys := by rw [← PyDict.get?_isSome_iff, hg2]; rfl
        have hv : inv v = f i := by
          rw [hget _ v hg2, ← hf.inverts _ (isLabel_inv.2 hli), inv_inv]
        simp only [hv]
        obtain ⟨b1, b2, b3⟩ := hset i hli hk1
        obtain ⟨d', a1, a2, a3, a4, a5⟩ := ih _ hl' b1 b2 (fun j hj => by
          rw [b3, b3]; have := h3 j (by simp [hj]); tauto)
        refine ⟨d', a1, a2, a3, fun k hk => a4 k ((b3 k).2 (.inl hk)), ?_⟩
        intro j hj
        rw [List.mem_cons] at hj
        rcases hj with rfl | hj
        · exact ⟨a4 _ ((b3 _).2 (.inr rfl)), a4 _ ((b3 _).2 (.inl hk2))⟩
        · exact a5 j hj
      | none =>
        have hk2 : inv i ∉ d.keys := PyDict.get?_eq_none_iff.1 hg2
        rcases h3 i (by simp) with h | h
        · exact absurd h hk1
        · exact absurd h hk2

theorem completeMap_error : ∀ (is : List Int) (d : PyDict Int Int), (∀ i ∈ is, 0 ≤ i) → is.Nodup →
    (∃ i ∈ is, i ∉ d.keys ∧ inv i ∉ d.keys) → completeMap d is = .error .valueError := by
  intro is
  induction is with
  | nil => rintro d _ _ ⟨i, hi, _⟩; simp at hi
  | cons j is ih =>
    rintro d h0 hn ⟨i, hi, h1, h2⟩
    rw [List.nodup_cons] at hn
    have hj0 := h0 j (by simp)
    have h0' : ∀ i ∈ is, 0 ≤ i := fun i hi => h0 i (by simp [hi])
    unfold completeMap
    by_cases hij : i = j
    · subst hij
      rw [PyDict.get?_eq_none_iff.2 h1, PyDict.get?_eq_none_iff.2 h2]
    · have hi' : i ∈ is := by simpa [hij] using hi
      have hi0 := h0' i hi'
      have hne : inv i ≠ inv j := by rwa [ne_eq, inv_inj]
      have hne2 : i ≠ inv j := by unfold inv; omega
      have hne3 : inv i ≠ j := by unfold inv; omega
      have key : ∀ k v, i ≠ k → inv i ≠ k → ∃ i ∈ is, i ∉ (d.set k v).keys ∧ inv i ∉ (d.set k v).keys := by
        intro k v hk1 hk2
        refine ⟨i, hi', ?_, ?_⟩
        · rw [PyDict.keys_set]; split <;> simp_all
        · rw [PyDict.keys_set]; split <;> simp_all
      cases d.get? j with
      | some v =>
        cases d.get? (inv j) with
        | some v' => exact ih d h0' hn.2 ⟨i, hi', h1, h2⟩
        | none => exact ih _ h0' hn.2 (key _ _ hne2 hne)
      | none =>
        cases d.get? (inv j) with
        | some v' => exact ih _ h0' hn.2 (key _ _ hij hne3)
        | none => rfl

theorem SignedBij.perm (h : T.SignedBij f) : (T.labels.map f).Perm T.labels := by
  have hn : (T.labels.map f).Nodup := by
    rw [List.nodup_map_iff_inj_on nodup_labels]
    intro x hx y hy
    exact h.inj x y (mem_labels.1 hx) (mem_labels.1 hy)
  have hsub : T.labels.map f ⊆ T.labels := by
    intro x hx
    rw [List.mem_map] at hx
    obtain ⟨e, he, rfl⟩ := hx
    exact mem_labels.2 (h.maps e (mem_labels.1 he))
  exact (List.subperm_of_subset hn hsub).perm_of_length_le (by simp)

/-- the relabelled triangulation -/
theorem SignedBij.target (h : T.SignedBij f) (hT : T.Valid) : ∃ T',
    create (T.triangles.map (fun t => Tri.create (f t.x) (f t.y) (f t.z))) = .ok T' ∧ T'.Valid ∧ T.IsIsometry T' f := by
  have hc : (⟨T.triangles.map (fun t => Tri.create (f t.x) (f t.y) (f t.z))⟩ : Triangulation).Complete := by
    unfold Complete
    rw [labels_eq_of_length (T := T) (by simp)]
    refine List.Perm.trans ?_ h.perm
    refine List.Perm.trans ?_ (hT.complete.map f)
    unfold signature
    simp only [List.flatMap_map, List.map_flatMap]
    apply List.Perm.flatMap_left
    intro t _
    simpa [Tri.labels] using Tri.create_labels_perm (f t.x) (f t.y) (f t.z)
  obtain ⟨T', h1, h2, h3⟩ := create_ok (by
    intro t ht
    rw [List.mem_map] at ht
    obtain ⟨s, _, rfl⟩ := ht
    exact Tri.create_canonical _ _ _) hc
  have hz : T'.zeta = T.zeta := by
    rw [zeta_eq_of_perm (T := ⟨_⟩) h3]; simp [zeta]
  refine ⟨T', h1, h2, hz, ?_, h.inj, h.inverts, ?_⟩
  · intro e he
    have := h.maps e he
    unfold IsLabel at *; rw [hz]; exact this
  · intro a b c hg
    have key : ∀ t ∈ T.triangles, T'.Glues (f t.x) (f t.y) (f t.z) := by
      intro t ht
      apply glues_create
      rw [h3.mem_iff]
      exact List.mem_map.2 ⟨t, ht, rfl⟩
    rcases hg with hg | hg | hg
    · exact key _ hg
    · exact (key _ hg).rot.rot
    · exact (key _ hg).rot

theorem SignedBij.encodeRelabel (h : T.SignedBij f) (hT : T.Valid) (hd : d.keys.Nodup)
    (hd1 : ∀ e v, (e, v) ∈ d → T.IsLabel e ∧ v = f e) (hd2 : ∀ i ∈ T.indices, i ∈ d.keys ∨ inv i ∈ d.keys) :
    ∃ T' m m' g, T.encodeRelabel d = .ok ⟨.isometry m, .isometry m'⟩ ∧ T'.Valid ∧ T.IsIsometry T' f ∧
      m.Acts T T' f ∧ m'.Acts T' T g ∧ T'.IsIsometry T g ∧ (∀ e, T.IsLabel e → g (f e) = e) ∧
      (∀ e, T'.IsLabel e → f (g e) = e) := by
  obtain ⟨d', a1, a2, a3, a4, a5⟩ := completeMap_ok h T.indices d (fun i hi => mem_indices_isLabel hi) hd hd1 hd2
  have hkeys : ∀ e, T.IsLabel e → e ∈ d'.keys := by
    intro e he
    have hn : norm e ∈ T.indices := norm_mem_indices.2 he
    rcases lt_or_ge e 0 with h0 | h0
    · rw [norm_of_neg h0] at hn
      simpa using (a5 _ hn).2
    · rw [norm_of_nonneg h0] at hn
      exact (a5 _ hn).1
  have hfun : d'.IsFun T f := by
    refine ⟨a2, fun e v => ⟨a3 e v, ?_⟩⟩
    rintro ⟨he, rfl⟩
    have := hkeys e he
    unfold PyDict.keys at this
    rw [List.mem_map] at this
    obtain ⟨⟨a, b⟩, hm, rfl⟩ := this
    rw [(a3 a b hm).2] at hm
    exact hm
  obtain ⟨T', b1, b2, b3⟩ := h.target hT
  obtain ⟨m, m', g, c1, c2, c3, _, c4, c5, c6⟩ := LMove.isometry_ok hT.comp b2.comp hfun b3
  refine ⟨T', m, m', g, ?_, b2, b3, c2, c3, c4, c5, c6⟩
  unfold Triangulation.encodeRelabel
  rw [PyDict.ofList_of_nodup _ hd, a1, py_bind_ok, mapM_ok (g := fun t => Tri.create (f t.x) (f t.y) (f t.z))]
  · simp only [py_bind_ok, b1, c1]
  · intro t ht
    have hl : ∀ e ∈ t.labels, T.IsLabel e := fun e he => hT.comp.mem_labels_of_mem ht he
    rw [PyDict.get_eq_ok_iff.2 (hfun.get? (hl t.x (by simp [Tri.labels]))),
      PyDict.get_eq_ok_iff.2 (hfun.get? (hl t.y (by simp [Tri.labels]))),
      PyDict.get_eq_ok_iff.2 (hfun.get? (hl t.z (by simp [Tri.labels])))]
    rfl

/-- the move made by `encode_relabel_edges` is the isometry of a complete dictionary -/
theorem SignedBij.encodeRelabel_isometry (h : T.SignedBij f) (hT : T.Valid) (hd : d.keys.Nodup)
    (hd1 : ∀ e v, (e, v) ∈ d → T.IsLabel e ∧ v = f e) (hd2 : ∀ i ∈ T.indices, i ∈ d.keys ∨ inv i ∈ d.keys) :
    ∃ T' d', T'.Valid ∧ T.IsIsometry T' f ∧ d'.IsFun T f ∧ T.encodeRelabel d = LMove.isometry T T' d' ∧
      completeMap d T.indices = .ok d' := by
  obtain ⟨d', a1, a2, a3, a4, a5⟩ := completeMap_ok h T.indices d (fun i hi => mem_indices_isLabel hi) hd hd1 hd2
  have hkeys : ∀ e, T.IsLabel e → e ∈ d'.keys := by
    intro e he
    have hn : norm e ∈ T.indices := norm_mem_indices.2 he
    rcases lt_or_ge e 0 with h0 | h0
    · rw [norm_of_neg h0] at hn
      simpa using (a5 _ hn).2
    · rw [norm_of_nonneg h0] at hn
      exact (a5 _ hn).1
  have hfun : d'.IsFun T f := by
    refine ⟨a2, fun e v => ⟨a3 e v, ?_⟩⟩
    rintro ⟨he, rfl⟩
    have := hkeys e he
    unfold PyDict.keys at this
    rw [List.mem_map] at this
    obtain ⟨⟨a, b⟩, hm, rfl⟩ := this
    rw [(a3 a b hm).2] at hm
    exact hm
  obtain ⟨T', b1, b2, b3⟩ := h.target hT
  refine ⟨T', d', b2, b3, hfun, ?_, a1⟩
  unfold Triangulation.encodeRelabel
  rw [PyDict.ofList_of_nodup _ hd, a1, py_bind_ok, mapM_ok (g := fun t => Tri.create (f t.x) (f t.y) (f t.z))]
  · simp only [py_bind_ok, b1]
  · intro t ht
    have hl : ∀ e ∈ t.labels, T.IsLabel e := fun e he => hT.comp.mem_labels_of_mem ht he
    rw [PyDict.get_eq_ok_iff.2 (hfun.get? (hl t.x (by simp [Tri.labels]))),
      PyDict.get_eq_ok_iff.2 (hfun.get? (hl t.y (by simp [Tri.labels]))),
      PyDict.get_eq_ok_iff.2 (hfun.get? (hl t.z (by simp [Tri.labels])))]
    rfl

theorem SignedBij.encodeRelabel_legal (h : T.SignedBij f) (hT : T.Valid) (hd : d.keys.Nodup)
    (hd1 : ∀ e v, (e, v) ∈ d → T.IsLabel e ∧ v = f e) (hd2 : ∀ i ∈ T.indices, i ∈ d.keys ∨ inv i ∈ d.keys) :
    ∃ m, T.encodeRelabel d = .ok m ∧ m.Legal := by
  obtain ⟨T', d', h1, h2, h3, h4, _⟩ := h.encodeRelabel_isometry hT hd hd1 hd2
  obtain ⟨m, m', g, c1, c2, c3, _, c4, c5, c6⟩ := LMove.isometry_ok hT.comp h1.comp h3 h2
  rw [c1] at h4
  exact ⟨_, h4, .isometry T T' f d' _ hT h1 h3 h2 c1⟩

theorem encodeRelabel_error (hd : d.keys.Nodup) (h : ∃ i ∈ T.indices, i ∉ d.keys ∧ inv i ∉ d.keys) :
    T.encodeRelabel d = .error .valueError := by
  unfold Triangulation.encodeRelabel
  rw [PyDict.ofList_of_nodup _ hd, completeMap_error T.indices d (fun i hi => (mem_indices.1 hi).1) nodup_indices h]; rfl

/-- null-homologous chains are transported -/
theorem IsIsometry.null {x x' : Int → Int} (h : S.IsIsometry T f) (hS : S.Complete) (hT : T.Complete)
    (hx : ∀ e, S.IsLabel e → x' (f e) = x e) (hn : S.NullHomologous x) : T.NullHomologous x' := by
  obtain ⟨g, hg, hgf, hfg⟩ := h.exists_inverse hS hT
  obtain ⟨c, h1, h2⟩ := hn
  refine ⟨fun e => c (g e), fun a b d hgl => h1 _ _ _ (hg.glues _ _ _ hgl), ?_⟩
  intro e he
  have := h2 (g e) (hg.maps e he)
  rw [← hx _ (hg.maps e he), hfg e he] at this
  rw [this]; simp only [hg.inverts e he]

end Triangulation

section
variable {R : Type} [CommRing R] [LinearOrder R] [IsStrictOrderedRing R] [Halvable R] {f : Int → Int}

theorem Lam.MapsTo.consistent {L L' : Lam R} (h : L.MapsTo f L') (hf : L.tri.IsIsometry L'.tri f) (hL : L.Consistent)
    (hT : L'.tri.Valid) : L'.Consistent := by
  rw [Lam.consistent_iff] at hL ⊢
  obtain ⟨g, hg, hgf, hfg⟩ := hf.exists_inverse hL.1.1.comp hT.comp
  refine ⟨⟨hT, by rw [h.2.1, hL.1.2, hf.zeta]⟩, ?_⟩
  intro a b c hgl
  have hl := hT.comp.label_of_glues hgl
  have := hL.2 _ _ _ (hg.glues _ _ _ hgl)
  rw [← h.2.2 _ (hg.maps a hl.1), ← h.2.2 _ (hg.maps b hl.2.1), ← h.2.2 _ (hg.maps c hl.2.2), hfg a hl.1, hfg b hl.2.1,
    hfg c hl.2.2] at this
  exact this

end

theorem Hom.MapsTo.homologous_iff {h₁ h₂ h₁' h₂' : Hom} {f : Int → Int} (m₁ : h₁.MapsTo f h₁') (m₂ : h₂.MapsTo f h₂')
    (hf : h₁.tri.IsIsometry h₁'.tri f) (hS : h₁.tri.Valid) (hT : h₁'.tri.Valid) (ht : h₁.tri = h₂.tri) (ht' : h₁'.tri = h₂'.tri) :
    Homologous h₁' h₂' ↔ Homologous h₁ h₂ := by
  obtain ⟨g, hg, hgf, hfg⟩ := hf.exists_inverse hS.comp hT.comp
  constructor
  · rintro ⟨_, hn⟩
    refine ⟨ht, hg.null hT.comp hS.comp ?_ hn⟩
    intro e he
    rw [← m₁.2 _ (hg.maps e he), ← m₂.2 _ (ht ▸ hg.maps e he), hfg e he]
  · rintro ⟨_, hn⟩
    refine ⟨ht', hf.null hS.comp hT.comp ?_ hn⟩
    intro e he
    rw [m₁.2 _ he, m₂.2 _ (ht ▸ he)]

end Curver
