import Verif.Proofs.PLMoves2

namespace Curver
open Triangulation

theorem isometry_describes {S T : Triangulation} {f : Int → Int} {i : Isometry} (hS : S.Valid) (hT : T.Valid) (hf : S.IsIsometry T f) (hi : i.Acts S T f)
    {c : Lam Int} (hc : c.NoArcs) (ht : c.tri = S) (hn : 0 < S.zeta) : ∃ F, i.plAction c = .ok F ∧
      F.Describes S.zeta S T (fun _ _ _ _ L => i.applyLam L) ∧ F.Domain c.geometric := by
  let n := S.zeta
  let images : List Int := (List.range n).map (fun (j : Nat) => norm (f j))
  let A : Mat := (List.range n).map (fun (j : Nat) => images.map (fun (v : Int) => if (j : Int) = v then 1 else 0))
  have him : (List.range n).mapM (fun (j : Nat) => i.indexMap.get (j : Int)) = .ok images := by
    apply mapM_ok
    intro j hj
    have hj' : ((j : Nat) : Int) ∈ S.indices := by
      rw [mem_indices]; have := List.mem_range.1 hj; exact ⟨by omega, by omega⟩
    rw [PyDict.get_eq_ok_iff]
    exact hi.index _ hj'
  have hA : A.HasShape n n := by
    refine ⟨by simp [A], hn, ?_⟩
    intro row hr
    simp only [A, List.mem_map] at hr
    obtain ⟨j, _, rfl⟩ := hr
    simp [images]
  -- entries
  have hlab : ∀ j, j < n → S.IsLabel ((j : Nat) : Int) := by
    intro j hj; have : j < S.zeta := hj; unfold IsLabel; omega
  have hinj : ∀ j k, j < n → k < n → norm (f (j : Nat)) = norm (f (k : Nat)) → j = k := by
    intro j k hj hk h
    have lj := hlab j hj; have lk := hlab k hk
    have := norm_eq_iff.1 h
    rw [← hf.inverts _ lk] at this
    rcases this with h | h
    · have := hf.inj _ _ lj lk h; omega
    · have := hf.inj _ _ lj (isLabel_inv.2 lk) h
      unfold inv at this; omega
  have ent : ∀ (R : Type) [CommRing R] (x : List R), x.length = n → ∀ k < n, (A.image x).getD (norm (f (k : Nat))).toNat 0 = x.getD k 0 := by
    intro R _ x hx k hk
    have hj : (norm (f (k : Nat))).toNat < n := by
      have := idx_lt (hf.maps _ (hlab k hk)); rw [hf.zeta] at this; exact this
    have h0 := norm_nonneg (f (k : Nat))
    rw [Mat.image_getD]
    have hrow : A.getD (norm (f (k : Nat))).toNat [] = images.map (fun (v : Int) => if norm (f (k : Nat)) = v then 1 else 0) := by
      simp only [A, List.getD, List.getElem?_map, List.getElem?_range hj, Option.map_some, Option.getD_some]
      rw [Int.toNat_of_nonneg h0]
    rw [hrow, Mat.dot_eq (n := n) (by simp [images]) hx, Finset.sum_eq_single k]
    · simp [images, List.getD, hk]
    · intro l hl hne
      have hl' : l < n := Finset.mem_range.1 hl
      have : norm (f (k : Nat)) ≠ norm (f (l : Nat)) := fun h => hne (hinj k l hk hl' h).symm
      simp [images, List.getD, hl', this]
    · intro h; exact absurd (Finset.mem_range.2 hk) h
  have hsurj : ∀ j < n, ∃ k < n, (norm (f ((k : Nat) : Int))).toNat = j := by
    intro j hj
    obtain ⟨e, he, hfe⟩ := hf.surj (x := ((j : Nat) : Int)) (by unfold IsLabel; rw [hf.zeta]; have : j < S.zeta := hj; omega)
    refine ⟨(norm e).toNat, idx_lt he, ?_⟩
    rw [Int.toNat_of_nonneg (norm_nonneg e)]
    rcases lt_or_ge e 0 with h0 | h0
    · rw [norm_of_neg h0, hf.inverts e he, norm_inv, hfe, norm_of_nonneg (by omega)]; simp
    · rw [norm_of_nonneg h0, hfe, norm_of_nonneg (by omega)]; simp
  have hon : ∀ y : List Int, y.length = n → ∃ x : List Int, x.length = n ∧ A.image x = y := by
    intro y hy
    refine ⟨(List.range n).map (fun (k : Nat) => y.getD (norm (f (k : Int))).toNat 0), by simp, ?_⟩
    apply List.ext_getElem (by rw [Mat.length_image, hA.1, hy])
    intro j h1 h2
    obtain ⟨k, hk, rfl⟩ := hsurj j (by omega)
    have := ent Int ((List.range n).map (fun (k : Nat) => y.getD (norm (f (k : Int))).toNat 0)) (by simp) k hk
    have h3 : ((List.range n).map (fun (k : Nat) => y.getD (norm (f (k : Int))).toNat 0)).getD k 0 = y.getD (norm (f ((k : Nat) : Int))).toNat 0 := by
      simp [List.getD, hk]
    rw [h3] at this
    rw [List.getD_eq_getElem?_getD, List.getD_eq_getElem?_getD, List.getElem?_eq_getElem h1, List.getElem?_eq_getElem h2] at this
    exact this
  have hdom : ∀ (R : Type) [CommRing R] [LinearOrder R] (x : List R), (PLF.create A [List.replicate n 0]).Domain x := by
    intro R _ _ x
    unfold PLF.Domain PLF.create
    simp only
    rw [Mat.keepRows_nonneg, Mat.image_eq]
    simp [Mat.dot_replicate]
  refine ⟨PLF.create A [List.replicate n 0], ?_, ⟨⟨⟨?_, ?_⟩, ?_⟩, ?_⟩, hdom _ _⟩
  · unfold Isometry.plAction
    rw [hi.source]
    simp only
    rw [him]; rfl
  · simp only [PLF.create, PLF.keepRows_of_onto hA hon]; exact hA
  · exact ⟨1, rfl, by simp, by simp [PLF.create, Mat.keepRows, n]⟩
  · simp only [PLF.create, PLF.keepRows_of_onto hA hon]; exact hon
  · intro R _ _ _ _ L hL hLt _
    subst hLt
    obtain ⟨hLc, hLT⟩ := Lam.noArcs_iff.1 hL
    obtain ⟨L', h1, rfl, h3⟩ := hi.applyLam hf hLc.1 rfl
    refine ⟨L', h1, rfl, Lam.noArcs_iff.2 ⟨h3.consistent hf hLc hT, h3.taut hf hLc.1 hT hLT⟩, ?_⟩
    simp only [PLF.create, PLF.keepRows_of_onto hA hon]
    apply List.ext_getElem (by rw [Mat.length_image, hA.1, h3.2.1, hLc.1.2])
    intro j k1 k2
    obtain ⟨k, hk, rfl⟩ := hsurj j (by rw [Mat.length_image, hA.1] at k1; exact k1)
    have e1 := ent R L.geometric hLc.1.2 k hk
    have e2 := h3.2.2 _ (hlab k hk)
    rw [Lam.w_eq_vat, Lam.w_eq_vat] at e2
    unfold vat ix at e2
    rw [norm_of_nonneg (by omega : (0 : Int) ≤ (k : Nat))] at e2
    simp only [Int.toNat_natCast] at e2
    rw [← e2] at e1
    simpa only [List.getD, List.getElem?_eq_getElem k1, List.getElem?_eq_getElem k2, Option.getD_some] using e1

theorem LMove.Legal.plAction {m : LMove} (h : m.Legal) (hn : ∀ f, m.move = .multiflip f → f.edges ≠ []) (hz : 0 < m.move.source.zeta) {c : Lam Int}
    (hc : c.NoArcs) (ht : c.tri = m.move.source) : ∃ F, m.move.plAction c = .ok F ∧
      F.Describes m.move.source.zeta m.move.source m.move.target (fun _ _ _ _ L => m.move.applyLam L) ∧ F.Domain c.geometric := by
  cases h.shape with
  | flip S T e hS he hm =>
    replace ht : c.tri = S := ht
    obtain ⟨A, C, h1, h2, h3⟩ := multiflip_describes hS (disjoint_singleton.2 he) hm (by simp) hc ht (fun e => .ok (S.sq e)) (by simp)
    refine ⟨PLF.create A C, ?_, ⟨h2.onto, ?_⟩, h3⟩
    · simp only [List.foldlM_cons, List.foldlM_nil, py_bind_ok] at h1
      simp only [Move.plAction, EdgeFlip.plAction]
      rw [show plStep S.zeta c (S.sq e) (Mat.identity S.zeta, []) = .ok (A, C) by
        cases hp : plStep S.zeta c (S.sq e) (Mat.identity S.zeta, []) with
        | error err => rw [hp] at h1; cases h1
        | ok v => rw [hp] at h1; exact h1]
      rfl
    · intro R _ _ _ _ L hL hLt hD
      obtain ⟨L', k1, k2, k3, k4⟩ := h2.apply R L hL hLt hD
      refine ⟨L', ?_, k2, k3, k4⟩
      replace hLt : L.tri = S := hLt
      subst hLt
      exact (ef_applyLam_iff hL.1 he).2 ((mf_applyLam_iff hL.1 (disjoint_singleton.2 he)).1 k1)
  | multiflip S T es hS he hm =>
    replace ht : c.tri = S := ht
    have hsq : ∀ e ∈ es, (mf S T es).squares.get e = .ok (S.sq e) := by
      intro e hee
      rw [PyDict.get_eq_ok_iff]
      apply PyDict.get?_of_mem
      · simpa [PyDict.keys, mf, List.map_map, Function.comp_def] using he.nodup hS.comp
      · exact List.mem_map.2 ⟨e, hee, rfl⟩
    obtain ⟨A, C, h1, h2, h3⟩ := multiflip_describes hS he hm (hn _ rfl) hc ht (fun e => (mf S T es).squares.get e) hsq
    refine ⟨PLF.create A C, ?_, h2, h3⟩
    simp only [Move.plAction, MultiFlip.plAction]
    rw [show (mf S T es).edges = es from rfl, show (mf S T es).source = S from rfl, h1]; rfl
  | isometry S T f g i i' hS hT hf hg hi hi' hgf hfg =>
    have h1 : (Move.isometry i).source = S := hi.source
    have h2 : (Move.isometry i).target = T := hi.target
    simp only [h1, h2] at hz ht ⊢
    exact isometry_describes hS hT hf hi hc ht hz

/-- the function that the loop returns after some moves -/
theorem plFold {S : Triangulation} : ∀ (ms : List LMove) (T U : Triangulation) (_ : Path T ms U) (_ : ∀ m ∈ ms, ∀ f, m.move = .multiflip f → f.edges ≠ [])
    (_ : 0 < S.zeta) (F : PLF) (c c' : Lam Int) (act : ∀ (R : Type) [CommRing R] [LinearOrder R] [Halvable R], Lam R → Py (Lam R))
    (_ : F.Describes S.zeta S T act) (_ : c.NoArcs) (_ : c.tri = S) (_ : F.Domain c.geometric) (_ : act Int c = .ok c') (_ : T.zeta = S.zeta),
    ∃ G c'', ms.foldlM (fun (st : Option PLF × Lam Int) m => do
      let F ← m.move.plAction st.2
      let current ← F.mul st.1
      let multicurve ← m.move.applyLam st.2
      return (some current, multicurve)) (some F, c') = .ok (some G, c'') ∧ G.Domain c.geometric ∧
      G.Describes S.zeta S U (fun R _ _ _ L => do
        let L' ← act R L
        performLam ms L') := by
  intro ms
  induction ms with
  | nil =>
    intro T U hp _ _ F c c' act hF hc ht hd _ _
    cases hp.eq_of_nil
    refine ⟨F, c', rfl, hd, hF.onto, ?_⟩
    intro R _ _ _ _ L hL hLt hD
    obtain ⟨L', h1, h2⟩ := hF.apply R L hL hLt hD
    exact ⟨L', by simp only [h1, py_bind_ok]; rfl, h2⟩
  | cons m ms ih =>
    intro T U hp hn hz F c c' act hF hc ht hd hc' hzT
    obtain ⟨hm, rfl, hp'⟩ := Path.cons_iff.1 hp
    obtain ⟨c₁, p1, p2, p3, p4⟩ := hF.apply Int c hc ht hd
    rw [hc'] at p1; cases p1
    obtain ⟨G, g1, g2, g3⟩ := hm.plAction (hn m (by simp)) (by omega) p3 p2
    obtain ⟨c'', q1, q2, q3, q4⟩ := g2.apply Int c' p3 p2 g3
    obtain ⟨H, k1, k2, k3, k4⟩ := PLF.Onto.mul (hzT ▸ g2.onto) hF.onto
    have hlen : c.geometric.length = S.zeta := by rw [hc.1.2, ht]
    have hHD : H.Domain c.geometric := by
      rw [k4 Int _ hlen]; exact ⟨hd, by rw [p4]; exact g3⟩
    have hHd : H.Describes S.zeta S m.move.target (fun R _ _ _ L => do
        let L' ← act R L
        m.move.applyLam L') := by
      refine ⟨k2, ?_⟩
      intro R _ _ _ _ L hL hLt hD
      have hl : L.geometric.length = S.zeta := by rw [hL.1.2, hLt]
      rw [k4 R _ hl] at hD
      obtain ⟨L', r1, r2, r3, r4⟩ := hF.apply R L hL hLt hD.1
      rw [r4] at hD
      obtain ⟨L'', s1, s2, s3, s4⟩ := g2.apply R L' r3 r2 hD.2
      exact ⟨L'', by simp only [r1, py_bind_ok]; exact s1, s2, s3, by rw [k3 R _ hl, r4, s4]⟩
    obtain ⟨K, c₃, t1, t2, t3⟩ := ih m.move.target U hp' (fun m' hm' => hn m' (by simp [hm'])) hz H c c'' _ hHd hc ht hHD
      (by simp only [hc', py_bind_ok]; exact q1) (by rw [hm.valid.2.2.1]; exact hzT)
    refine ⟨K, c₃, ?_, t2, t3.onto, ?_⟩
    · rw [List.foldlM_cons]
      simp only [g1, py_bind_ok, k1, py_pure]
      rw [q1]
      exact t1
    · intro R _ _ _ _ L hL hLt hD
      obtain ⟨L', u1, u2⟩ := t3.apply R L hL hLt hD
      refine ⟨L', ?_, u2⟩
      rw [← u1]
      simp only [performLam]
      cases act R L <;> rfl

theorem Enc.Legal.plAction {h : Enc} (hh : h.Legal) (hk : h.kind.isMapping = true) (hn : h.NoEmptyMultiflip) {c : Lam Int} (hc : c.NoArcs)
    (ht : c.tri = h.source) (hcls : c.cls.isMultiCurve = true) (hz : 0 < h.source.zeta) : ∃ F, h.plAction c = .ok (some F) ∧ F.Domain c.geometric ∧
      F.Describes h.source.zeta h.source h.target (fun _ _ _ _ L => h.applyLam L) := by
  have hperf : ∀ (R : Type) [CommRing R] [LinearOrder R] [Halvable R] (L : Lam R), L.tri = h.source → h.applyLam L = performLam h.performed L := by
    intro R _ _ _ L hL
    rw [Enc.applyLam_eq, if_pos hL.symm]
  have hp := hh.path
  unfold Enc.performed at hp hperf
  match hr : h.sequence.reverse, (by simpa using hh.nonempty : h.sequence.reverse ≠ []) with
  | m :: ms, _ =>
    rw [hr] at hp hperf
    obtain ⟨hm, hsrc, hp'⟩ := Path.cons_iff.1 hp
    have hmem : ∀ m' ∈ m :: ms, m' ∈ h.sequence := by
      intro m' h'; rw [← hr] at h'; simpa using h'
    rw [hsrc] at ht hz
    obtain ⟨F, f1, f2, f3⟩ := hm.plAction (hn m (hmem m (by simp))) hz hc ht
    obtain ⟨c', q1, q2, q3, q4⟩ := f2.apply Int c hc ht f3
    obtain ⟨G, c'', g1, g2, g3⟩ := plFold ms m.move.target h.target hp' (fun m' h' => hn m' (hmem m' (by simp [h']))) hz F c c' _ f2 hc ht f3 q1 hm.valid.2.2.1
    refine ⟨G, ?_, g2, ?_⟩
    · unfold Enc.plAction
      rw [hk, hcls, hr, List.foldlM_cons]
      have hmul : F.mul none = .ok F := rfl
      simp only [f1, py_bind_ok, hmul, py_pure, Bool.not_true, Bool.false_eq_true, if_false, pyAssert, if_true]
      rw [q1]
      simp only [py_bind_ok]
      have : (List.foldlM (fun (st : Option PLF × Lam Int) (m : LMove) => (do
          let F ← m.move.plAction st.2
          let current ← F.mul st.1
          let multicurve ← m.move.applyLam st.2
          Except.ok (some current, multicurve) : Py (Option PLF × Lam Int))) (some F, c') ms) = .ok (some G, c'') := g1
      rw [this]
      rfl
    · rw [hsrc]
      refine ⟨g3.onto, ?_⟩
      intro R _ _ _ _ L hL hLt hD
      obtain ⟨L', u1, u2⟩ := g3.apply R L hL hLt hD
      refine ⟨L', ?_, u2⟩
      rw [hperf R L (by rw [hsrc]; exact hLt), ← u1]
      rfl

end Curver
