import Verif.Proofs.Canonical
import Verif.Proofs.Components
import Verif.Props.Triangulation

/-!
# C32, C34, C35: homology classes, the dual tree, components

The vocabulary (`DualConnected`, `Joined`, `Homologous`, `NullHomologous`) is in `Verif/Spec/DualTree.lean`,
`Verif/Spec/Components.lean` and `Verif/Spec/Flip.lean`.
-/

namespace Curver
open Triangulation

/-! ## C35 -/

/-- C35: `components()` terminates and partitions the oriented edges: each occurs exactly once; and the component of an
edge is the set of edges that can be reached from it by reversing and by turning inside triangles.  Each component is
sorted, and components are listed by increasing first edge. -/
theorem C35_components (T : Triangulation) (hT : T.Valid) : ∃ cs, T.components = .ok cs ∧
    (∀ e, T.IsLabel e ↔ e ∈ cs.flatten) ∧ cs.flatten.Nodup ∧
    (∀ g ∈ cs, g ≠ [] ∧ g.Pairwise (· < ·) ∧ ∀ x ∈ g, ∀ y, y ∈ g ↔ T.Joined x y) ∧
    (cs.filterMap List.head?).Pairwise (· < ·) := by
  obtain ⟨cs, h1, h2, h3, h4⟩ := hT.comp.components_ok
  exact ⟨cs, h1, fun e => by rw [h2.mem_iff, mem_labels], h2.nodup_iff.2 nodup_labels, h3, h4⟩

/-- C35: `is_connected()` says whether one can walk from any edge to any other (and there is an edge). -/
theorem C35_connected (T : Triangulation) (hT : T.Valid) (hne : T.triangles ≠ []) : ∃ b, T.isConnected = .ok b ∧
    (b = true ↔ ∀ e f, T.IsLabel e → T.IsLabel f → T.Joined e f) := by
  obtain ⟨cs, h1, h2, h3, h4, h5⟩ := C35_components T hT
  refine ⟨cs.length == 1, by unfold isConnected; rw [h1]; rfl, ?_⟩
  have hz : T.IsLabel 0 := by
    have := hT.comp.three_length
    have : T.triangles.length ≠ 0 := by simpa using hne
    unfold IsLabel; omega
  rw [beq_iff_eq]
  constructor
  · intro hl e f he hf
    obtain ⟨g, rfl⟩ := List.length_eq_one_iff.1 hl
    rw [h2, List.flatten_cons, List.flatten_nil, List.append_nil] at he hf
    exact ((h4 g (by simp)).2.2 e he f).1 hf
  · intro h
    match cs, h2, h3, h4 with
    | [], h2, _, _ => simp [h2] at hz
    | [_], _, _, _ => rfl
    | g :: g' :: cs, h2, h3, h4 =>
      exfalso
      obtain ⟨x, hx⟩ := List.exists_mem_of_ne_nil _ (h4 g (by simp)).1
      obtain ⟨y, hy⟩ := List.exists_mem_of_ne_nil _ (h4 g' (by simp)).1
      have hxy : y ∈ g := ((h4 g (by simp)).2.2 x hx y).2 (h x y ((h2 x).2 (by simp [hx])) ((h2 y).2 (by simp [hy])))
      rw [List.flatten_cons, List.nodup_append] at h3
      exact h3.2.2 y hxy y (by simp [hy]) rfl

example : torus.components = .ok [[-3, -2, -1, 0, 1, 2]] := by decide
example : (⟨[⟨-6, -4, -5⟩, ⟨-3, -1, -2⟩, ⟨0, 1, 2⟩, ⟨3, 4, 5⟩]⟩ : Triangulation).components =
    .ok [[-6, -5, -4, 3, 4, 5], [-3, -2, -1, 0, 1, 2]] := by decide

/-! ## C34 -/

/-- C34: `dual_tree(avoid)` is an increasing list of indices, none of them avoided; it contains no cycle of the dual
graph (removing an edge of the tree disconnects the triangles on its sides); it connects any two triangles that can be
connected without crossing an avoided edge. -/
theorem C34_forest (T : Triangulation) (hT : T.Valid) (avoid : List Int) : ∃ tree, T.dualTree avoid = .ok tree ∧
    tree.Pairwise (· < ·) ∧ (∀ i ∈ tree, i ∈ T.indices ∧ i ∉ avoid) ∧
    (∀ i ∈ tree, ∀ s ∈ T.triangles, ∀ t ∈ T.triangles, i ∈ s.labels → inv i ∈ t.labels →
      ¬ T.DualConnected (fun j => j ∈ tree ∧ j ≠ i) s t) ∧
    (∀ s t, T.DualConnected (fun j => j ∉ avoid) s t ↔ T.DualConnected (fun j => j ∈ tree) s t) := by
  have hc := hT.comp
  obtain ⟨u, tree, h1, h2⟩ := hc.dualTree_ok avoid
  have hsub : ∀ i ∈ tree, i ∈ T.indices := fun i hi => h2.sub.subset hi
  have hnd : tree.Nodup := h2.sub.nodup nodup_indices
  have hrev : ∀ s t, T.DualConnected (fun j => j ∈ tree) s t ↔ Conn T.triOf (fun i => T.triOf (inv i)) tree.reverse s t := by
    intro s t
    rw [← hc.dualConnected_iff (by simpa using hsub)]
    exact ⟨DualConnected.mono (by simp) hc, DualConnected.mono (by simp) hc⟩
  refine ⟨tree, h1, sorted_indices.sublist h2.sub, fun i hi => ⟨hsub i hi, h2.avoids i hi⟩, ?_, ?_⟩
  · intro i hi s hs t ht his hit hcon
    have hl := mem_indices_isLabel (hsub i hi)
    rw [← hc.triOf_eq hs his, ← hc.triOf_eq ht hit] at hcon
    apply h2.forest.bridge (i := i) (by simpa using hi)
    rw [← hc.dualConnected_iff (by intro j hj; exact hsub j (by simpa using List.mem_of_mem_erase hj))]
    refine DualConnected.mono ?_ hc hcon
    intro j _ hj
    rw [(List.nodup_reverse.2 hnd).mem_erase_iff]
    exact ⟨hj.2, by simpa using hj.1⟩
  · intro s t
    constructor
    · intro h
      rw [hrev]
      induction h with
      | rel s t h =>
        obtain ⟨hs, ht, i, h0, hia, his, hit⟩ := h
        have hl := hc.mem_labels_of_mem hs his
        have := h2.covers i (by rw [mem_indices]; unfold IsLabel at hl; omega) hia
        rwa [hc.triOf_eq hs his, hc.triOf_eq ht hit] at this
      | refl s => exact .refl _
      | symm _ _ _ ih => exact .symm _ _ ih
      | trans _ _ _ _ _ ih ih' => exact .trans _ _ _ ih ih'
    · exact DualConnected.mono (fun i _ hi => h2.avoids i hi) hc

/-- C34: the tree is the numerically first such set: an index that is not avoided is in the tree iff the triangles on its
sides are not already connected by smaller indices of the tree. -/
theorem C34_greedy (T : Triangulation) (hT : T.Valid) (avoid tree : List Int) (h : T.dualTree avoid = .ok tree) (i : Int)
    (hi : i ∈ T.indices) (ha : i ∉ avoid) (s t : Tri) (hs : s ∈ T.triangles) (ht : t ∈ T.triangles) (his : i ∈ s.labels)
    (hit : inv i ∈ t.labels) : i ∈ tree ↔ ¬ T.DualConnected (fun j => j < i ∧ j ∉ avoid) s t := by
  have hc := hT.comp
  obtain ⟨u, tree', h1, h2⟩ := hc.dualTree_ok avoid
  rw [h] at h1; cases h1
  have hsub : ∀ i ∈ tree, i ∈ T.indices := fun i hi => h2.sub.subset hi
  rw [h2.greedy i hi ha, ← hc.triOf_eq hs his, ← hc.triOf_eq ht hit, not_iff_not]
  have hd := hc.dualConnected_iff (l := (tree.filter (· < i)).reverse) (by
    intro j hj; simp at hj; exact hsub j hj.1) (s := T.triOf i) (t := T.triOf (inv i))
  rw [← hd]
  constructor
  · refine DualConnected.mono ?_ hc
    intro j _ hj
    simp at hj
    exact ⟨hj.2, h2.avoids j hj.1⟩
  · intro h
    -- strong induction: every index below `i` that is not avoided is connected by the part of the tree below `i`
    have key : ∀ j, j ∈ T.indices → j < i → j ∉ avoid →
        Conn T.triOf (fun i => T.triOf (inv i)) (tree.filter (· < i)).reverse (T.triOf j) (T.triOf (inv j)) := by
      intro j hj hji hja
      by_cases hjt : j ∈ tree
      · exact Conn.edge (a := T.triOf) (b := fun i => T.triOf (inv i)) (by simp [hjt, hji])
      · have := h2.greedy j hj hja
        refine Conn.mono ?_ (not_not.1 (fun hn => hjt (this.2 hn)))
        intro k hk
        simp at hk ⊢
        exact ⟨hk.1, by omega⟩
    rw [hd]
    generalize T.triOf i = s' at h
    generalize T.triOf (inv i) = t' at h
    induction h with
    | rel s t h =>
      obtain ⟨hs, ht, j, h0, hj, hjs, hjt⟩ := h
      have hl := hc.mem_labels_of_mem hs hjs
      have := key j (by rw [mem_indices]; unfold IsLabel at hl; omega) hj.1 hj.2
      rwa [hc.triOf_eq hs hjs, hc.triOf_eq ht hjt] at this
    | refl s => exact .refl _
    | symm _ _ _ ih => exact .symm _ _ ih
    | trans _ _ _ _ _ ih ih' => exact .trans _ _ _ ih ih'

example : torus.dualTree [] = .ok [0] ∧ torus.dualTree [0] = .ok [1] ∧ torus.dualTree [0, 1, 2] = .ok [] := by decide

/-! ## C32 -/

/-- C32: `homology_matrix()` terminates without error. -/
theorem C32_matrix (T : Triangulation) (hT : T.Valid) : ∃ rows, T.homologyRows = .ok rows ∧ rows.length = T.zeta ∧
    ∀ row ∈ rows, row.length = T.zeta := by
  obtain ⟨tree, rows, s, _, h2, _, h4, h5⟩ := hT.comp.homologyRows_ok
  exact ⟨rows, h2, by rw [← h4.length_eq]; simp [indices], fun row hr => (h5 row hr).1⟩

/-- C32: `canonical()` is a homologous class that is zero on the edges of the dual tree, and it is the only one. -/
theorem C32_canonical (h : Hom) (hw : h.WellFormed) : ∃ c tree, h.canonical = .ok c ∧ h.tri.dualTree [] = .ok tree ∧
    c.WellFormed ∧ h.Homologous c ∧ (∀ i ∈ tree, c.v i = 0) ∧
    (∀ c' : Hom, c'.WellFormed → h.Homologous c' → (∀ i ∈ tree, c'.v i = 0) → c' = c) := by
  obtain ⟨c, tree, h1, h2, h3, h4, h5⟩ := Hom.canonical_ok hw
  obtain ⟨u, tree', k1, k2⟩ := hw.1.comp.dualTree_ok []
  rw [h2] at k1; cases k1
  refine ⟨c, tree, h1, h2, h3, h4, ?_, ?_⟩
  · intro i hi
    have := k2.sub.subset hi
    exact h5 i (mem_indices_isLabel this) (by rw [norm_of_nonneg (mem_indices.1 this).1]; exact hi)
  · intro c' hw' hh h0
    have h0' : ∀ e, h.tri.IsLabel e → norm e ∈ tree → c'.v e = 0 := by
      intro e _ hm
      have := h0 _ hm
      rcases lt_or_ge e 0 with he | he
      · rw [norm_of_neg he] at this
        change gv c'.algebraic _ = 0 at this
        rw [gv_inv] at this
        change gv c'.algebraic _ = 0
        omega
      · rwa [norm_of_nonneg he] at this
    exact Hom.eq_of_homologous hw' h3 (hh.symm.trans h4) (by rw [← hh.1]; exact h2) (by rw [← hh.1]; exact h0')
      (by rw [← hh.1]; exact h5)

/-- C32: `==` holds exactly for homologous classes on the same triangulation, and never raises an error. -/
theorem C32_eq (h h' : Hom) (hw : h.WellFormed) (hw' : h'.WellFormed) : ∃ b, h.eq h' = .ok b ∧ (b = true ↔ h.Homologous h') :=
  Hom.eq_ok hw hw'

/-- C32: being homologous is an equivalence relation; hence so is `==`. -/
theorem C32_equivalence : Equivalence Hom.Homologous := ⟨Hom.Homologous.refl, Hom.Homologous.symm, Hom.Homologous.trans⟩

/-- C32: equal classes have equal hashes. -/
theorem C32_hash (h h' : Hom) (hw : h.WellFormed) (hw' : h'.WellFormed) (he : h.eq h' = .ok true) :
    ∃ k, h.hashKey = .ok k ∧ h'.hashKey = .ok k := by
  obtain ⟨b, h1, h2⟩ := Hom.eq_ok hw hw'
  rw [he] at h1; cases h1
  have hh := h2.1 rfl
  obtain ⟨c, _, k1, _⟩ := Hom.canonical_ok hw
  obtain ⟨c', _, k1', _⟩ := Hom.canonical_ok hw'
  have := (Hom.canonical_eq_iff hw hw' k1 k1' hh.1).2 hh
  exact ⟨c.algebraic, by unfold Hom.hashKey; rw [k1]; rfl, by unfold Hom.hashKey; rw [k1', this]; rfl⟩

theorem Hom.add_ok {h h' : Hom} (hw : h.WellFormed) (hw' : h'.WellFormed) (ht : h.tri = h'.tri) :
    ∃ s, h.add h' = .ok s ∧ s.WellFormed ∧ s.tri = h.tri ∧ ∀ e, h.tri.IsLabel e → s.v e = h.v e + h'.v e := by
  have hl : (List.zipWith (· + ·) h.algebraic h'.algebraic).length = h.tri.zeta := by
    rw [List.length_zipWith, hw.2, hw'.2, ← ht, Nat.min_self]
  refine ⟨⟨h.tri, List.zipWith (· + ·) h.algebraic h'.algebraic⟩, ?_, ⟨hw.1, hl⟩, rfl, ?_⟩
  · unfold Hom.add
    rw [if_neg (by rw [ht]; simp [Triangulation.eq]), Hom.create_ok hl]
  · intro e he
    have hlt := idx_lt he
    unfold Hom.v
    dsimp only
    rw [List.getElem?_zipWith, List.getElem?_eq_getElem (by rw [hw.2]; exact hlt),
      List.getElem?_eq_getElem (by rw [hw'.2, ← ht]; exact hlt)]
    simp only [Option.getD_some]
    ring

theorem Hom.neg_ok {h : Hom} (hw : h.WellFormed) :
    ∃ s, h.neg = .ok s ∧ s.WellFormed ∧ s.tri = h.tri ∧ ∀ e, s.v e = - h.v e := by
  have hl : (h.algebraic.map (- ·)).length = h.tri.zeta := by rw [List.length_map, hw.2]
  refine ⟨⟨h.tri, h.algebraic.map (- ·)⟩, Hom.create_ok hl, ⟨hw.1, hl⟩, rfl, ?_⟩
  intro e
  unfold Hom.v
  dsimp only
  rw [List.getElem?_map]
  cases h.algebraic[(norm e).toNat]? <;> simp

/-- C32: `+`, `-` and unary `-` are coordinatewise, and raise `ValueError` on different triangulations. -/
theorem C32_arithmetic (h h' : Hom) (hw : h.WellFormed) (hw' : h'.WellFormed) :
    (h.tri = h'.tri → ∃ s d, h.add h' = .ok s ∧ h.sub h' = .ok d ∧ s.WellFormed ∧ d.WellFormed ∧ s.tri = h.tri ∧ d.tri = h.tri ∧
      ∀ e, h.tri.IsLabel e → s.v e = h.v e + h'.v e ∧ d.v e = h.v e - h'.v e) ∧
    (h.tri ≠ h'.tri → h.add h' = .error .valueError ∧ h.sub h' = .error .valueError) ∧
    (∃ n, h.neg = .ok n ∧ n.WellFormed ∧ n.tri = h.tri ∧ ∀ e, n.v e = - h.v e) := by
  obtain ⟨n', n1, n2, n3, n4⟩ := Hom.neg_ok hw'
  refine ⟨?_, ?_, Hom.neg_ok hw⟩
  · intro ht
    obtain ⟨s, s1, s2, s3, s4⟩ := Hom.add_ok hw hw' ht
    obtain ⟨d, d1, d2, d3, d4⟩ := Hom.add_ok hw n2 (ht.trans n3.symm)
    exact ⟨s, d, s1, by unfold Hom.sub; rw [n1, py_bind_ok, d1], s2, d2, s3, d3, fun e he => ⟨s4 e he, by rw [d4 e he, n4 e]; ring⟩⟩
  · intro ht
    have key : ∀ x : Hom, x.tri = h'.tri → h.add x = .error .valueError := by
      intro x hx
      unfold Hom.add
      rw [if_pos]
      simp only [Bool.not_eq_true', Bool.eq_false_iff]
      intro hh
      apply ht
      unfold Triangulation.eq at hh
      rw [beq_iff_eq] at hh
      rw [← signature_inj hh, hx]
    exact ⟨key h' rfl, by unfold Hom.sub; rw [n1, py_bind_ok, key n' n3]⟩

/-- C32: the sum of classes, and their difference, depend only on the homology classes. -/
theorem C32_compatible (h h' g g' s t : Hom) (hw : h.WellFormed) (hw' : h'.WellFormed) (gw : g.WellFormed) (gw' : g'.WellFormed)
    (hh : h.Homologous h') (gg : g.Homologous g') :
    (h.add g = .ok s → h'.add g' = .ok t → s.Homologous t) ∧ (h.sub g = .ok s → h'.sub g' = .ok t → s.Homologous t) ∧
    (h.neg = .ok s → h'.neg = .ok t → s.Homologous t) := by
  have key : ∀ {g g' : Hom}, g.WellFormed → g'.WellFormed → g.Homologous g' → ∀ s t, h.add g = .ok s → h'.add g' = .ok t →
      s.Homologous t := by
    intro g g' gw gw' gg s t hs ht
    by_cases htri : h.tri = g.tri
    · obtain ⟨s', s1, s2, s3, s4⟩ := Hom.add_ok hw gw htri
      obtain ⟨t', t1, t2, t3, t4⟩ := Hom.add_ok hw' gw' (hh.1.symm.trans (htri.trans gg.1))
      rw [hs] at s1; cases s1
      rw [ht] at t1; cases t1
      refine ⟨by rw [s3, t3, hh.1], ?_⟩
      rw [s3]
      refine (hh.2.add (by rw [htri]; exact gg.2)).congr ?_
      intro e he
      rw [s4 e he, t4 e (by rw [← hh.1]; exact he)]; ring
    · rw [((C32_arithmetic h g hw gw).2.1 htri).1] at hs; cases hs
  obtain ⟨n, n1, n2, n3, n4⟩ := Hom.neg_ok gw
  obtain ⟨m, m1, m2, m3, m4⟩ := Hom.neg_ok gw'
  refine ⟨key gw gw' gg s t, ?_, ?_⟩
  · intro hs ht
    unfold Hom.sub at hs ht
    rw [n1, py_bind_ok] at hs
    rw [m1, py_bind_ok] at ht
    refine key n2 m2 ⟨by rw [n3, m3, gg.1], ?_⟩ s t hs ht
    rw [n3]
    exact gg.2.neg.congr (by intro e _; rw [n4, m4]; ring)
  · intro hs ht
    obtain ⟨n, n1, n2, n3, n4⟩ := Hom.neg_ok hw
    obtain ⟨m, m1, m2, m3, m4⟩ := Hom.neg_ok hw'
    rw [hs] at n1; cases n1
    rw [ht] at m1; cases m1
    refine ⟨by rw [n3, m3, hh.1], ?_⟩
    rw [n3]
    exact hh.2.neg.congr (by intro e _; rw [n4, m4]; ring)

/-- C32: `is_canonical()` holds exactly for the classes that are zero on the dual tree. -/
theorem C32_is_canonical (h : Hom) (hw : h.WellFormed) : ∃ b tree, h.isCanonical = .ok b ∧ h.tri.dualTree [] = .ok tree ∧
    (b = true ↔ ∀ i ∈ tree, h.v i = 0) := by
  obtain ⟨c, tree, h1, h2, h3, h4, h5, h6⟩ := C32_canonical h hw
  refine ⟨c.algebraic == h.algebraic, tree, by unfold Hom.isCanonical; rw [h1]; rfl, h2, ?_⟩
  rw [beq_iff_eq]
  constructor
  · intro he i hi
    have := h5 i hi
    unfold Hom.v at this ⊢
    rwa [he] at this
  · intro h0
    rw [← h6 h hw (.refl _) h0]

example : (Hom.canonical ⟨torus, [1, 0, 0]⟩) = .ok ⟨torus, [0, -1, -1]⟩ := by decide
example : Hom.eq ⟨torus, [1, 1, 1]⟩ ⟨torus, [0, 0, 0]⟩ = .ok true ∧ Hom.eq ⟨torus, [1, 0, 1]⟩ ⟨torus, [0, 0, 0]⟩ = .ok false := by decide
example : (⟨torus, [1, 0, 0]⟩ : Hom).WellFormed := ⟨torus_valid, rfl⟩

end Curver
