import Verif.Proofs.Flip

namespace Curver
namespace Triangulation
variable {T T' T₁ T₂ : Triangulation} {es : List Int}

/-- the flipped edges in both orientations -/
abbrev sides (es : List Int) : List Int := es.flatMap (fun e => [e, inv e])

theorem inv_mem_sides {u : Int} : inv u ∈ sides es ↔ u ∈ sides es := by
  rw [mem_sides, mem_sides, inv_inv]; exact or_comm

theorem mem_sides_map_inv {u : Int} : u ∈ sides (es.map inv) ↔ u ∈ sides es := by
  rw [mem_sides, mem_sides]
  simp only [List.mem_map]
  constructor
  · rintro (⟨a, ha, rfl⟩ | ⟨a, ha, h⟩)
    · right; simpa using ha
    · left; rw [inv_inj] at h; rwa [← h]
  · rintro (h | h)
    · right; exact ⟨u, h, rfl⟩
    · left; exact ⟨inv u, h, by simp⟩

theorem sides_map_inv_perm (es : List Int) : (sides (es.map inv)).Perm (sides es) := by
  induction es with
  | nil => exact .refl _
  | cons e es ih =>
    simp only [sides, List.map_cons, List.flatMap_cons, inv_inv]
    exact (List.Perm.swap _ _ _).append ih

theorem kept_iff {x y z : Int} : (∀ e ∈ es, ∀ u ∈ [x, y, z], u ≠ e ∧ u ≠ inv e) ↔
    x ∉ sides es ∧ y ∉ sides es ∧ z ∉ sides es := by
  have key : ∀ u, u ∉ sides es ↔ ∀ e ∈ es, u ≠ e ∧ u ≠ inv e := by
    intro u
    rw [mem_sides]
    constructor
    · intro h e he
      refine ⟨fun h' => h (.inl (h' ▸ he)), fun h' => h (.inr ?_)⟩
      rw [h', inv_inv]; exact he
    · rintro h (h' | h')
      · exact (h _ h').1 rfl
      · exact (h _ h').2 (by simp)
  rw [key, key, key]
  constructor
  · intro h
    refine ⟨fun e he => h e he x (by simp), fun e he => h e he y (by simp), fun e he => h e he z (by simp)⟩
  · rintro ⟨h1, h2, h3⟩ e he u hu
    simp only [List.mem_cons, List.not_mem_nil, or_false] at hu
    rcases hu with rfl | rfl | rfl
    · exact h1 e he
    · exact h2 e he
    · exact h3 e he

theorem DisjointSupport.isLabel_sides (h : T.DisjointSupport es) {u : Int} (hu : u ∈ sides es) : T.IsLabel u := by
  rcases mem_sides.1 hu with h' | h'
  · exact h.1 _ h'
  · exact isLabel_inv.1 (h.1 _ h')

/-- disjointness in terms of the sides -/
theorem Complete.disjoint_iff' (hT : T.Complete) (hl : ∀ e ∈ es, T.IsLabel e) : T.DisjointSupport es ↔
    (sides es).Nodup ∧ ∀ u ∈ sides es, ∀ a b, T.Glues u a b → a ∉ sides es ∧ b ∉ sides es := by
  have hsl : ∀ u ∈ sides es, T.IsLabel u := by
    intro u hu
    rcases mem_sides.1 hu with h' | h'
    · exact hl _ h'
    · exact isLabel_inv.1 (hl _ h')
  constructor
  · intro h
    have hn := h.sides_nodup hT
    refine ⟨hn, ?_⟩
    have hp : ∀ u ∈ sides es, ∀ v ∈ sides es, u ≠ v → ¬ T.SameTriangle u v := by
      have := h.2
      intro u hu v hv huv
      exact List.Pairwise.forall_of_forall_of_flip (R := fun u v => u ≠ v → ¬ T.SameTriangle u v)
        (fun x _ h => absurd rfl h) (this.imp (S := fun u v => u ≠ v → ¬ T.SameTriangle u v) (fun {_ _} h _ => h))
        (this.imp (S := fun u v => v ≠ u → ¬ T.SameTriangle v u) (fun {_ _} h _ h' => h (by obtain ⟨t, h1, h2, h3⟩ := h'; exact ⟨t, h1, h3, h2⟩))) hu hv huv
    intro u hu a b hg
    obtain ⟨t, ht, h1, h2, h3, _⟩ := hg.exists_tri
    have hne := hT.glues_ne hg
    exact ⟨fun ha => hp u hu a ha hne.1 ⟨t, ht, h1, h2⟩, fun hb => hp u hu b hb hne.2.2.symm ⟨t, ht, h1, h3⟩⟩
  · rintro ⟨hn, hg⟩
    refine ⟨hl, ?_⟩
    refine hn.imp_of_mem ?_
    intro u v hu hv huv hs
    have hlu := hsl u hu
    rcases (hT.sameTriangle_iff hlu).1 hs with h | h | h
    · exact huv h.symm
    · exact (hg u hu _ _ (hT.glues_nxt hlu)).1 (h ▸ hv)
    · exact (hg u hu _ _ (hT.glues_nxt hlu)).2 (h ▸ hv)

/-! ## the target of a multiflip -/

theorem perm_filter_append [DecidableEq α] {l m : List α} (hl : l.Nodup) (hm : m.Nodup) (h : ∀ x ∈ m, x ∈ l) :
    l.Perm (l.filter (fun t => t ∉ m) ++ m) := by
  rw [List.perm_ext_iff_of_nodup hl]
  · intro a
    rw [List.mem_append, List.mem_filter]
    constructor
    · intro ha
      by_cases hm : a ∈ m
      · exact .inr hm
      · exact .inl ⟨ha, by simpa using hm⟩
    · rintro (h' | h')
      · exact h'.1
      · exact h a h'
  · rw [List.nodup_append]
    refine ⟨hl.filter _, hm, ?_⟩
    intro a ha b hb hab
    subst hab
    rw [List.mem_filter] at ha
    simpa using ha.2 |> fun h => (of_decide_eq_true h) hb

theorem Complete.support_labels (hT : T.Complete) : ∀ {es : List Int}, (∀ e ∈ es, T.IsLabel e) →
    (((sides es).map T.triOf).flatMap Tri.labels).Perm ((es.map T.newTris).flatten.flatMap Tri.labels) := by
  intro es
  induction es with
  | nil => intro _; exact .refl _
  | cons e es ih =>
    intro h
    have he := h e (by simp)
    simp only [sides, List.flatMap_cons, List.map_append, List.flatMap_append, List.map_cons, List.flatten_cons]
    refine List.Perm.append ?_ (ih (fun x hx => h x (by simp [hx])))
    refine List.Perm.trans ?_ (newTris_labels T e).symm
    simp only [List.map_nil, List.flatMap_nil, List.append_nil]
    exact (hT.triOf_labels he).append (hT.triOf_labels (isLabel_inv.2 he))

theorem Valid.multiflipTarget_perm (hT : T.Valid) (h : T.DisjointSupport es) : ∃ T', T.multiflipTarget es = .ok T' ∧
    T'.Valid ∧ T'.triangles.Perm (T.triangles.filter (fun t => t ∉ (sides es).map T.triOf) ++ (es.map T.newTris).flatten) := by
  have hc := hT.comp
  have hn := (hc.disjoint_iff h.1).1 h
  have hsub : ∀ t ∈ (sides es).map T.triOf, t ∈ T.triangles := by
    intro t ht
    rw [List.mem_map] at ht
    obtain ⟨u, hu, rfl⟩ := ht
    exact (hc.triOf_mem (h.isLabel_sides hu)).1
  have hp := perm_filter_append hc.nodup_triangles hn hsub
  have hkept : (T.triangles.filter (fun t => t ∉ (sides es).map T.triOf)).map (fun t => Tri.create t.x t.y t.z) =
      T.triangles.filter (fun t => t ∉ (sides es).map T.triOf) := by
    conv_rhs => rw [← List.map_id (T.triangles.filter (fun t => t ∉ (sides es).map T.triOf))]
    apply List.map_congr_left
    intro t ht
    exact Tri.create_of_canonical (hT.canonical t (List.mem_of_mem_filter ht))
  have hlen : (es.map T.newTris).flatten.length = ((sides es).map T.triOf).length := by
    rw [List.length_map, length_sides, List.length_flatten]
    simp only [List.map_map]
    rw [show (List.length ∘ T.newTris) = fun _ => 2 from funext (fun e => newTris_length T e)]
    simp [mul_comm]
  have hcomp : (⟨T.triangles.filter (fun t => t ∉ (sides es).map T.triOf) ++ (es.map T.newTris).flatten⟩ :
      Triangulation).Complete := by
    unfold Complete
    rw [labels_eq_of_length (T := T)]
    · refine List.Perm.trans ?_ hT.complete
      refine List.Perm.trans ?_ (signature_perm (S := ⟨_⟩) hp).symm
      unfold signature
      simp only [List.flatMap_append]
      exact List.Perm.append (.refl _) (hc.support_labels h.1).symm
    · rw [hp.length_eq, List.length_append, List.length_append, hlen]
  have hcan : ∀ t ∈ T.triangles.filter (fun t => t ∉ (sides es).map T.triOf) ++ (es.map T.newTris).flatten,
      t.x ≤ t.y ∧ t.x ≤ t.z := by
    intro t ht
    rw [List.mem_append] at ht
    rcases ht with ht | ht
    · exact hT.canonical t (List.mem_of_mem_filter ht)
    · rw [List.mem_flatten] at ht
      obtain ⟨l, hl, ht⟩ := ht
      rw [List.mem_map] at hl
      obtain ⟨e, _, rfl⟩ := hl
      exact newTris_canonical ht
  obtain ⟨T', h1, h2, h3⟩ := create_ok hcan hcomp
  refine ⟨T', ?_, h2, h3⟩
  unfold multiflipTarget
  rw [hc.support_eq h.1, hn.dedup]
  simp only [py_bind_ok, List.length_map, length_sides, beq_self_eq_true]
  rw [mapM_ok (g := T.newTris) (fun e he => hc.flippedTriangles_eq (h.flippable he))]
  simp only [pyAssert, if_true, py_bind_ok]
  rw [hkept]; exact h1

theorem glues_create {a b c : Int} (h : Tri.create a b c ∈ T.triangles) : T.Glues a b c := by
  unfold Glues
  rcases Tri.create_mem a b c with h' | h' | h' <;> rw [h'] at h <;> tauto

/-- `encode_multiflip` gives the flipped triangulation -/
theorem Valid.multiflipTarget_ok (hT : T.Valid) (h : T.DisjointSupport es) : ∃ T', T.multiflipTarget es = .ok T' ∧
    T.IsMultiflip es T' := by
  obtain ⟨T', h1, h2, h3⟩ := hT.multiflipTarget_perm h
  have hc := hT.comp
  refine ⟨T', h1, h2, ?_, ?_, ?_⟩
  · have hn := (hc.disjoint_iff h.1).1 h
    have h4 := h2.comp.three_length
    have h5 := hc.three_length
    suffices T'.triangles.length = T.triangles.length by omega
    have hsub : ∀ t ∈ (sides es).map T.triOf, t ∈ T.triangles := by
      intro t ht
      rw [List.mem_map] at ht
      obtain ⟨u, hu, rfl⟩ := ht
      exact (hc.triOf_mem (h.isLabel_sides hu)).1
    have hlen : (es.map T.newTris).flatten.length = ((sides es).map T.triOf).length := by
      rw [List.length_map, length_sides, List.length_flatten]
      simp only [List.map_map]
      rw [show (List.length ∘ T.newTris) = fun _ => 2 from funext (fun e => newTris_length T e)]
      simp [mul_comm]
    rw [h3.length_eq, (perm_filter_append hc.nodup_triangles hn hsub).length_eq, List.length_append,
      List.length_append, hlen]
  · intro x y z hg hk
    rw [kept_iff] at hk
    have key : ∀ t ∈ T.triangles, (∀ u ∈ t.labels, u ∉ sides es) → t ∈ T'.triangles := by
      intro t ht hu
      rw [h3.mem_iff, List.mem_append, List.mem_filter]
      left
      refine ⟨ht, ?_⟩
      simp only [decide_eq_true_eq]
      intro hm
      rw [List.mem_map] at hm
      obtain ⟨u, hu', rfl⟩ := hm
      exact hu u (hc.triOf_mem (h.isLabel_sides hu')).2 hu'
    unfold Glues at hg ⊢
    rcases hg with hg | hg | hg
    · exact .inl (key _ hg (by simp only [Tri.labels, List.mem_cons, List.not_mem_nil, or_false, forall_eq_or_imp, forall_eq]; tauto))
    · exact .inr (.inl (key _ hg (by simp only [Tri.labels, List.mem_cons, List.not_mem_nil, or_false, forall_eq_or_imp, forall_eq]; tauto)))
    · exact .inr (.inr (key _ hg (by simp only [Tri.labels, List.mem_cons, List.not_mem_nil, or_false, forall_eq_or_imp, forall_eq]; tauto)))
  · intro e he a b c d h1 h2
    have hl := hc.label_of_glues h1
    have hl' := hc.label_of_glues h2
    obtain ⟨rfl, rfl⟩ := (hc.glues_iff hl.1).1 h1
    obtain ⟨rfl, rfl⟩ := (hc.glues_iff hl'.1).1 h2
    have key : ∀ t ∈ T.newTris e, t ∈ T'.triangles := by
      intro t ht
      rw [h3.mem_iff, List.mem_append, List.mem_flatten]
      exact .inr ⟨_, List.mem_map_of_mem he, ht⟩
    unfold newTris at key
    constructor
    · intro h0
      rw [if_pos (sign_of_nonneg h0)] at key
      exact ⟨glues_create (key _ (by simp)), glues_create (key _ (by simp))⟩
    · intro h0
      rw [if_neg (by rw [sign_of_neg h0]; decide)] at key
      exact ⟨glues_create (key _ (by simp)), glues_create (key _ (by simp))⟩

/-! ## consequences of the specification -/

theorem Complete.locate (hc : T.Complete) (hl : ∀ e ∈ es, T.IsLabel e) {x : Int} (hx : T.IsLabel x) :
    (∃ y z, T.Glues x y z ∧ x ∉ sides es ∧ y ∉ sides es ∧ z ∉ sides es) ∨
    ∃ e ∈ es, ∃ a b c d, T.Glues e a b ∧ T.Glues (inv e) c d ∧ x ∈ [e, a, b, inv e, c, d] := by
  by_cases hk : x ∉ sides es ∧ T.nxt x ∉ sides es ∧ T.nxt (T.nxt x) ∉ sides es
  · exact .inl ⟨_, _, hc.glues_nxt hx, hk⟩
  right
  have hg := hc.glues_nxt hx
  have key : ∀ u v w, T.Glues u v w → u ∈ sides es → x ∈ [u, v, w] →
      ∃ e ∈ es, ∃ a b c d, T.Glues e a b ∧ T.Glues (inv e) c d ∧ x ∈ [e, a, b, inv e, c, d] := by
    intro u v w hg hu hx
    simp only [List.mem_cons, List.not_mem_nil, or_false] at hx
    rcases mem_sides.1 hu with h | h
    · refine ⟨u, h, v, w, _, _, hg, hc.glues_nxt (isLabel_inv.2 (hl _ h)), ?_⟩
      simp only [List.mem_cons]; tauto
    · refine ⟨inv u, h, _, _, v, w, hc.glues_nxt (hl _ h), by rw [inv_inv]; exact hg, ?_⟩
      simp only [List.mem_cons, inv_inv]; tauto
  by_cases h1 : x ∈ sides es
  · exact key _ _ _ hg h1 (by simp)
  by_cases h2 : T.nxt x ∈ sides es
  · exact key _ _ _ hg.rot h2 (by simp)
  · exact key _ _ _ hg.rot.rot (by tauto) (by simp)

theorem IsMultiflip.unique (hc : T.Complete) (hl : ∀ e ∈ es, T.IsLabel e) (h₁ : T.IsMultiflip es T₁)
    (h₂ : T.IsMultiflip es T₂) : T₁ = T₂ := by
  have key : ∀ {T₁ T₂ : Triangulation}, T.IsMultiflip es T₁ → T.IsMultiflip es T₂ → ∀ a b c, T₁.Glues a b c →
      T₂.Glues a b c := by
    intro T₁ T₂ h₁ h₂ x y z hg
    have hx : T.IsLabel x := by
      have := (h₁.valid.comp.label_of_glues hg).1
      unfold IsLabel at *; rw [h₁.zeta] at this; exact this
    have fin : ∀ {y' z'}, T₁.Glues x y' z' → T₂.Glues x y' z' → T₂.Glues x y z := by
      intro y' z' g1 g2
      obtain ⟨rfl, rfl⟩ := h₁.valid.comp.glues_unique hg g1
      exact g2
    rcases hc.locate hl hx with ⟨y', z', g, hk⟩ | ⟨e, he, a, b, c, d, g1, g2, hm⟩
    · exact fin (h₁.kept _ _ _ g (kept_iff.2 hk)) (h₂.kept _ _ _ g (kept_iff.2 hk))
    · have n1 := h₁.new e he a b c d g1 g2
      have n2 := h₂.new e he a b c d g1 g2
      simp only [List.mem_cons, List.not_mem_nil, or_false] at hm
      rcases lt_or_ge e 0 with h0 | h0
      · obtain ⟨p1, p2⟩ := n1.2 h0
        obtain ⟨q1, q2⟩ := n2.2 h0
        rcases hm with rfl | rfl | rfl | rfl | rfl | rfl
        · exact fin p2 q2
        · exact fin p1.rot.rot q1.rot.rot
        · exact fin p2.rot q2.rot
        · exact fin p1 q1
        · exact fin p2.rot.rot q2.rot.rot
        · exact fin p1.rot q1.rot
      · obtain ⟨p1, p2⟩ := n1.1 h0
        obtain ⟨q1, q2⟩ := n2.1 h0
        rcases hm with rfl | rfl | rfl | rfl | rfl | rfl
        · exact fin p1 q1
        · exact fin p1.rot.rot q1.rot.rot
        · exact fin p2.rot q2.rot
        · exact fin p2 q2
        · exact fin p2.rot.rot q2.rot.rot
        · exact fin p1.rot q1.rot
  exact h₁.valid.ext h₂.valid (fun a b c => ⟨key h₁ h₂ a b c, key h₂ h₁ a b c⟩)

theorem IsMultiflip.isLabel_iff (h : T.IsMultiflip es T') {x : Int} : T'.IsLabel x ↔ T.IsLabel x := by
  unfold IsLabel; rw [h.zeta]

/-- triangles without flipped edges are the same -/
theorem IsMultiflip.kept_iff (hc : T.Complete) (hd : T.DisjointSupport es) (h : T.IsMultiflip es T') {x y z : Int}
    (hx : x ∉ sides es) (hy : y ∉ sides es) (hz : z ∉ sides es) : T'.Glues x y z ↔ T.Glues x y z := by
  have hd' := ((hc.disjoint_iff' hd.1).1 hd).2
  constructor
  · intro hg
    have hlx : T.IsLabel x := h.isLabel_iff.1 (h.valid.comp.label_of_glues hg).1
    have hu : ∀ {y' z'}, T'.Glues x y' z' → y = y' ∧ z = z' := fun h' => h.valid.comp.glues_unique hg h'
    rcases hc.locate hd.1 hlx with ⟨y', z', g, hk⟩ | ⟨e, he, a, b, c, d, g1, g2, hm⟩
    · obtain ⟨rfl, rfl⟩ := hu (h.kept _ _ _ g (Triangulation.kept_iff.2 hk))
      exact g
    · exfalso
      have s1 : e ∈ sides es := mem_sides.2 (.inl he)
      have s2 : inv e ∈ sides es := inv_mem_sides.2 s1
      have n1 := h.new e he a b c d g1 g2
      simp only [List.mem_cons, List.not_mem_nil, or_false] at hm
      have hw : (T'.Glues e d a ∨ T'.Glues (inv e) d a) ∧ (T'.Glues (inv e) b c ∨ T'.Glues e b c) := by
        rcases lt_or_ge e 0 with h0 | h0
        · have := n1.2 h0; tauto
        · have := n1.1 h0; tauto
      have aux : ∀ u v w, u ∈ sides es → T'.Glues u v w → x ≠ v ∧ x ≠ w := by
        intro u v w hu' hg'
        constructor
        · rintro rfl
          exact hz ((hu hg'.rot).2 ▸ hu')
        · rintro rfl
          exact hy ((hu hg'.rot.rot).1 ▸ hu')
      rcases hm with rfl | rfl | rfl | rfl | rfl | rfl
      · exact hx s1
      · rcases hw.1 with w | w
        · exact (aux _ _ _ s1 w).2 rfl
        · exact (aux _ _ _ s2 w).2 rfl
      · rcases hw.2 with w | w
        · exact (aux _ _ _ s2 w).1 rfl
        · exact (aux _ _ _ s1 w).1 rfl
      · exact hx s2
      · rcases hw.2 with w | w
        · exact (aux _ _ _ s2 w).2 rfl
        · exact (aux _ _ _ s1 w).2 rfl
      · rcases hw.1 with w | w
        · exact (aux _ _ _ s1 w).1 rfl
        · exact (aux _ _ _ s2 w).1 rfl
  · intro hg; exact h.kept _ _ _ hg (Triangulation.kept_iff.2 ⟨hx, hy, hz⟩)

/-- flipping back -/
theorem IsMultiflip.inverse (hT : T.Valid) (hd : T.DisjointSupport es) (h : T.IsMultiflip es T') :
    T'.IsMultiflip (es.map inv) T := by
  refine ⟨hT, h.zeta.symm, ?_, ?_⟩
  · intro x y z hg hk
    rw [Triangulation.kept_iff, mem_sides_map_inv, mem_sides_map_inv, mem_sides_map_inv] at hk
    exact (h.kept_iff hT.comp hd hk.1 hk.2.1 hk.2.2).1 hg
  · intro f hf a' b' c' d' g1 g2
    rw [List.mem_map] at hf
    obtain ⟨e, he, rfl⟩ := hf
    rw [inv_inv] at g2 ⊢
    have hle := hd.1 e he
    have n1 := h.new e he _ _ _ _ (hT.comp.glues_nxt hle) (hT.comp.glues_nxt (isLabel_inv.2 hle))
    constructor
    · intro h0
      obtain ⟨p1, p2⟩ := n1.2 (by unfold inv at h0; omega)
      obtain ⟨rfl, rfl⟩ := h.valid.comp.glues_unique g1 p1
      obtain ⟨rfl, rfl⟩ := h.valid.comp.glues_unique g2 p2
      exact ⟨hT.comp.glues_nxt (isLabel_inv.2 hle), hT.comp.glues_nxt hle⟩
    · intro h0
      obtain ⟨p1, p2⟩ := n1.1 (by unfold inv at h0; omega)
      obtain ⟨rfl, rfl⟩ := h.valid.comp.glues_unique g1 p2
      obtain ⟨rfl, rfl⟩ := h.valid.comp.glues_unique g2 p1
      exact ⟨hT.comp.glues_nxt hle, hT.comp.glues_nxt (isLabel_inv.2 hle)⟩

theorem IsMultiflip.glues_side (hc : T.Complete) (hd : T.DisjointSupport es) (h : T.IsMultiflip es T') {u a b : Int}
    (hu : u ∈ sides es) (hg : T'.Glues u a b) : a ∉ sides es ∧ b ∉ sides es := by
  have hd' := ((hc.disjoint_iff' hd.1).1 hd).2
  have key : ∀ e ∈ es, ∀ a b c d, T.Glues e a b → T.Glues (inv e) c d →
      a ∉ sides es ∧ b ∉ sides es ∧ c ∉ sides es ∧ d ∉ sides es ∧
      ((T'.Glues e d a ∧ T'.Glues (inv e) b c) ∨ (T'.Glues (inv e) d a ∧ T'.Glues e b c)) := by
    intro e he a b c d g1 g2
    have n1 := h.new e he a b c d g1 g2
    have s1 : e ∈ sides es := mem_sides.2 (.inl he)
    have s2 : inv e ∈ sides es := inv_mem_sides.2 s1
    refine ⟨(hd' _ s1 _ _ g1).1, (hd' _ s1 _ _ g1).2, (hd' _ s2 _ _ g2).1, (hd' _ s2 _ _ g2).2, ?_⟩
    rcases lt_or_ge e 0 with h0 | h0
    · exact .inr (n1.2 h0)
    · exact .inl (n1.1 h0)
  have fin : ∀ {a' b'}, a' ∉ sides es → b' ∉ sides es → T'.Glues u a' b' → a ∉ sides es ∧ b ∉ sides es := by
    intro a' b' h1 h2 hg'
    obtain ⟨rfl, rfl⟩ := h.valid.comp.glues_unique hg hg'
    exact ⟨h1, h2⟩
  rcases mem_sides.1 hu with he | he
  · have hle := hd.1 _ he
    obtain ⟨k1, k2, k3, k4, k5⟩ := key u he _ _ _ _ (hc.glues_nxt hle) (hc.glues_nxt (isLabel_inv.2 hle))
    rcases k5 with k | k
    · exact fin k4 k1 k.1
    · exact fin k2 k3 k.2
  · have hle := hd.1 _ he
    obtain ⟨k1, k2, k3, k4, k5⟩ := key (inv u) he _ _ _ _ (hc.glues_nxt hle) (hc.glues_nxt (isLabel_inv.2 hle))
    simp only [inv_inv] at k3 k4 k5
    rcases k5 with k | k
    · exact fin k2 k3 k.2
    · exact fin k4 k1 k.1

theorem IsMultiflip.disjoint (hT : T.Valid) (hd : T.DisjointSupport es) (h : T.IsMultiflip es T') :
    T'.DisjointSupport (es.map inv) := by
  rw [h.valid.comp.disjoint_iff']
  · refine ⟨(sides_map_inv_perm es).nodup_iff.2 (hd.sides_nodup hT.comp), ?_⟩
    intro u hu a b hg
    rw [mem_sides_map_inv] at hu ⊢
    rw [mem_sides_map_inv]
    exact h.glues_side hT.comp hd hu hg
  · intro e he
    rw [List.mem_map] at he
    obtain ⟨e, he, rfl⟩ := he
    rw [h.isLabel_iff, isLabel_inv]; exact hd.1 e he

theorem DisjointSupport.perm {es es' : List Int} (h : T.DisjointSupport es) (hc : T.Complete) (hp : es.Perm es') :
    T.DisjointSupport es' := by
  have hl : ∀ e ∈ es', T.IsLabel e := fun e he => h.1 e (hp.mem_iff.2 he)
  rw [hc.disjoint_iff hl]
  rw [hc.disjoint_iff h.1] at h
  exact ((hp.flatMap_right _).map _).nodup_iff.1 h

theorem IsMultiflip.of_mem_iff {es es' : List Int} (hm : ∀ e, e ∈ es ↔ e ∈ es') (h : T.IsMultiflip es T') :
    T.IsMultiflip es' T' :=
  ⟨h.valid, h.zeta, fun x y z hg hk => h.kept x y z hg (fun e he => hk e ((hm e).1 he)),
    fun e he => h.new e ((hm e).2 he)⟩

theorem DisjointSupport.tail {e : Int} (h : T.DisjointSupport (e :: es)) : T.DisjointSupport es := by
  refine ⟨fun x hx => h.1 x (by simp [hx]), ?_⟩
  have := h.2
  rw [List.flatMap_cons, List.pairwise_append] at this
  exact this.2.1

theorem DisjointSupport.head {e : Int} (h : T.DisjointSupport (e :: es)) : T.DisjointSupport [e] :=
  disjoint_singleton.2 (h.flippable (by simp))

/-- after flipping `e` the other edges still have disjoint support -/
theorem IsMultiflip.disjoint_tail {e : Int} (hT : T.Valid) (hd : T.DisjointSupport (e :: es)) (h : T.IsMultiflip [e] T₁) :
    T₁.DisjointSupport es ∧ (∀ u ∈ sides es, ∀ a b, T₁.Glues u a b ↔ T.Glues u a b) := by
  have hd' := (hT.comp.disjoint_iff' hd.1).1 hd
  have hd1 := hd.head
  have ht := (hT.comp.disjoint_iff' hd.tail.1).1 hd.tail
  have hsub : ∀ u, u ∈ sides [e] → u ∈ sides (e :: es) := by
    intro u hu; simp only [sides, List.flatMap_cons, List.flatMap_nil, List.append_nil] at hu ⊢
    exact List.mem_append_left _ hu
  have hsub' : ∀ u, u ∈ sides es → u ∈ sides (e :: es) := by
    intro u hu; simp only [sides, List.flatMap_cons] at hu ⊢
    exact List.mem_append_right _ hu
  have hdis : ∀ u ∈ sides es, u ∉ sides [e] := by
    intro u hu hu'
    have := hd'.1
    simp only [sides, List.flatMap_cons, List.flatMap_nil, List.append_nil] at this hu'
    exact (List.nodup_append.1 this).2.2 u hu' u hu rfl
  have key : ∀ u ∈ sides es, ∀ a b, T₁.Glues u a b ↔ T.Glues u a b := by
    intro u hu a b
    have hlu := hd.tail.isLabel_sides hu
    have hg := hT.comp.glues_nxt hlu
    have hn := hd'.2 u (hsub' u hu) _ _ hg
    have hg1 := (h.kept_iff hT.comp hd1 (hdis u hu) (fun h => hn.1 (hsub _ h)) (fun h => hn.2 (hsub _ h))).2 hg
    constructor
    · intro hg'
      obtain ⟨rfl, rfl⟩ := h.valid.comp.glues_unique hg' hg1
      exact hg
    · intro hg'
      obtain ⟨rfl, rfl⟩ := hT.comp.glues_unique hg' hg
      exact hg1
  refine ⟨?_, key⟩
  rw [h.valid.comp.disjoint_iff' (fun x hx => h.isLabel_iff.2 (hd.tail.1 x hx))]
  refine ⟨ht.1, ?_⟩
  intro u hu a b hg
  exact ht.2 u hu a b ((key u hu a b).1 hg)

/-- one flip, then the others -/
theorem IsMultiflip.cons {e : Int} (hT : T.Valid) (hd : T.DisjointSupport (e :: es)) (h₁ : T.IsMultiflip [e] T₁)
    (h₂ : T₁.IsMultiflip es T₂) : T.IsMultiflip (e :: es) T₂ := by
  have hd' := (hT.comp.disjoint_iff' hd.1).1 hd
  have hdt := h₁.disjoint_tail hT hd
  have hdis : ∀ u ∈ sides [e], u ∉ sides es := by
    intro u hu' hu
    have := hd'.1
    simp only [sides, List.flatMap_cons, List.flatMap_nil, List.append_nil] at this hu'
    exact (List.nodup_append.1 this).2.2 u hu' u hu rfl
  have hsub : ∀ u, u ∉ sides (e :: es) → u ∉ sides [e] ∧ u ∉ sides es := by
    intro u hu; simp only [sides, List.flatMap_cons, List.flatMap_nil, List.append_nil] at hu ⊢
    rw [List.mem_append] at hu; tauto
  refine ⟨h₂.valid, h₂.zeta.trans h₁.zeta, ?_, ?_⟩
  · intro x y z hg hk
    rw [Triangulation.kept_iff] at hk
    have k1 := hsub _ hk.1
    have k2 := hsub _ hk.2.1
    have k3 := hsub _ hk.2.2
    exact h₂.kept _ _ _ (h₁.kept _ _ _ hg (Triangulation.kept_iff.2 ⟨k1.1, k2.1, k3.1⟩))
      (Triangulation.kept_iff.2 ⟨k1.2, k2.2, k3.2⟩)
  · intro f hf a b c d g1 g2
    rw [List.mem_cons] at hf
    rcases hf with rfl | hf
    · have n := h₁.new f (by simp) a b c d g1 g2
      have s0 : f ∈ sides [f] := by simp [sides]
      have s0' : inv f ∈ sides [f] := by simp [sides]
      have s1 : f ∈ sides (f :: es) := by simp [sides]
      have s2 : inv f ∈ sides (f :: es) := by simp [sides]
      have k1 := hd'.2 _ s1 _ _ g1
      have k2 := hd'.2 _ s2 _ _ g2
      have ka := (hsub _ k1.1).2
      have kb := (hsub _ k1.2).2
      have kc := (hsub _ k2.1).2
      have kd := (hsub _ k2.2).2
      have k : ∀ {x y z}, x ∈ sides [f] → y ∉ sides es → z ∉ sides es → T₁.Glues x y z → T₂.Glues x y z :=
        fun hx hy hz hg => h₂.kept _ _ _ hg (Triangulation.kept_iff.2 ⟨hdis _ hx, hy, hz⟩)
      exact ⟨fun h0 => ⟨k s0 kd ka (n.1 h0).1, k s0' kb kc (n.1 h0).2⟩,
        fun h0 => ⟨k s0' kd ka (n.2 h0).1, k s0 kb kc (n.2 h0).2⟩⟩
    · exact h₂.new f hf a b c d ((hdt.2 f (mem_sides.2 (.inl hf)) _ _).2 g1)
        ((hdt.2 (inv f) (mem_sides.2 (.inr (by simpa using hf))) _ _).2 g2)

end Triangulation
end Curver
