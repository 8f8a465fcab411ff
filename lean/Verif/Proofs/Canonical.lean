import Verif.Proofs.Homology
import Verif.Proofs.TriangulationBuild

namespace Curver
open Triangulation

namespace Triangulation
variable {T : Triangulation}

theorem gv_transposeDot {rows : List (List Int)} {n : Nat} {v : List Int} {u : Int} (hu : (norm u).toNat < n) :
    gv (Hom.transposeDot rows n v) u = ((rows.zip v).map (fun p => gv p.1 u * p.2)).sum := by
  unfold gv Hom.transposeDot
  rw [List.getElem?_map, List.getElem?_range hu]
  simp only [Option.map_some, Option.getD_some]
  rw [← List.sum_map_mul_right]
  congr 1
  apply List.map_congr_left
  intro p _
  ring

theorem nullHomologous_rows {is : List Int} {rows : List (List Int)}
    (h : List.Forall₂ (fun i row => T.NullHomologous (fun u => ind1 i u - gv row u)) is rows) :
    ∀ v : List Int, T.NullHomologous (fun u => ((is.zip v).map (fun p => ind1 p.1 u * p.2)).sum -
      ((rows.zip v).map (fun p => gv p.1 u * p.2)).sum) := by
  induction h with
  | nil => intro v; exact NullHomologous.zero.congr (by simp)
  | cons h _ ih =>
    intro v
    cases v with
    | nil => exact NullHomologous.zero.congr (by simp)
    | cons x v =>
      refine ((h.smul x).add (ih v)).congr ?_
      intro e _
      simp only [List.zip_cons_cons, List.map_cons, List.sum_cons]
      ring

theorem sum_unit (u : Int) : ∀ (v : List Int) (a : Nat), (∀ k, k < a → ((k : Nat) : Int) ≠ norm u) →
    ((((List.range' a v.length).map Int.ofNat).zip v).map (fun p => ind1 p.1 u * p.2)).sum =
      (v[(norm u).toNat - a]?).getD 0 * sign u := by
  intro v
  induction v with
  | nil => intro a _; simp
  | cons x v ih =>
    intro a ha
    have h0 := norm_nonneg u
    simp only [List.length_cons, List.range'_succ, List.map_cons, List.zip_cons_cons, List.sum_cons]
    have hnu : norm (Int.ofNat a) = a := norm_of_nonneg (by simp)
    by_cases hu : (a : Int) = norm u
    · have h1 : (norm u).toNat - a = 0 := by omega
      rw [h1]
      have hz : ((((List.range' (a + 1) v.length).map Int.ofNat).zip v).map (fun p => ind1 p.1 u * p.2)).sum = 0 := by
        apply List.sum_eq_zero
        intro y hy
        rw [List.mem_map] at hy
        obtain ⟨⟨i, z⟩, hp, rfl⟩ := hy
        have := (List.of_mem_zip hp).1
        rw [List.mem_map] at this
        obtain ⟨k, hk, rfl⟩ := this
        rw [List.mem_range'_1] at hk
        have hnk : norm (Int.ofNat k) = k := norm_of_nonneg (by simp)
        have h2 : u ≠ Int.ofNat k := by rintro rfl; omega
        have h3 : u ≠ inv (Int.ofNat k) := by rintro rfl; rw [norm_inv] at hu; omega
        simp [ind1, h2, h3] at *
        left
        rw [if_neg h2, if_neg h3]; rfl
      rw [hz]
      rcases (norm_eq_iff (y := Int.ofNat a)).1 (by rw [← hu, hnu] : norm u = norm (Int.ofNat a)) with rfl | rfl
      · rw [sign_of_nonneg (by simp)]; unfold ind1; rw [if_pos rfl, if_neg (inv_ne _).symm]; simp
      · rw [sign_inv, sign_of_nonneg (by simp)]; unfold ind1; rw [if_pos rfl, if_neg (inv_ne _)]; simp
    · have h2 : u ≠ Int.ofNat a := by rintro rfl; omega
      have h3 : u ≠ inv (Int.ofNat a) := by rintro rfl; rw [norm_inv] at hu; omega
      rw [ih (a + 1) (by intro k hk; rcases Nat.lt_succ_iff_lt_or_eq.1 hk with h | rfl; exacts [ha k h, hu])]
      have h4 : ind1 (Int.ofNat a) u = 0 := by unfold ind1; rw [if_neg h2, if_neg h3]; rfl
      have h5 : ¬ (norm u).toNat < a := fun h => ha _ h (by omega)
      obtain ⟨k, hk⟩ : ∃ k, (norm u).toNat - a = k + 1 := ⟨(norm u).toNat - a - 1, by omega⟩
      rw [h4, hk, List.getElem?_cons_succ, show (norm u).toNat - (a + 1) = k by omega]
      ring

theorem Complete.homologyRows_ok (hT : T.Complete) : ∃ tree rows s, T.dualTree [] = .ok tree ∧ T.homologyRows = .ok rows ∧
    T.TreeInv [] T.indices s tree ∧ List.Forall₂ (fun i row => T.NullHomologous (fun u => ind1 i u - gv row u)) T.indices rows ∧
    ∀ row ∈ rows, row.length = T.zeta ∧ ∀ u, norm u ∈ tree → gv row u = 0 := by
  obtain ⟨s, tree, h1, h2⟩ := hT.dualTree_ok []
  have key : ∀ l : List Int, (∀ i ∈ l, i ∈ T.indices) → ∃ rows, l.mapM (T.homologyRow tree) = .ok rows ∧
      List.Forall₂ (fun i row => T.NullHomologous (fun u => ind1 i u - gv row u)) l rows ∧
      ∀ row ∈ rows, row.length = T.zeta ∧ ∀ u, norm u ∈ tree → gv row u = 0 := by
    intro l
    induction l with
    | nil => intro _; exact ⟨[], rfl, .nil, by simp⟩
    | cons i l ih =>
      intro hl
      obtain ⟨row, r1, r2, r3, r4⟩ := hT.homologyRow_ok h2 (hl i (by simp))
      obtain ⟨rows, k1, k2, k3⟩ := ih (fun j hj => hl j (by simp [hj]))
      refine ⟨row :: rows, ?_, .cons r4 k2, ?_⟩
      · rw [List.mapM_cons, r1, py_bind_ok, k1, py_bind_ok]; rfl
      · intro r hr
        rw [List.mem_cons] at hr
        rcases hr with rfl | hr
        · exact ⟨r2, r3⟩
        · exact k3 r hr
  obtain ⟨rows, k1, k2, k3⟩ := key T.indices (fun _ h => h)
  refine ⟨tree, rows, s, h1, ?_, h2, k2, k3⟩
  unfold homologyRows
  rw [h1, py_bind_ok, k1]

/-- a boundary vanishing on the tree vanishes -/
theorem Complete.eq_zero_of_null (hT : T.Complete) {s : UnionFind Tri} {tree : List Int} (h : T.TreeInv [] T.indices s tree)
    {x : Int → Int} (hx : T.NullHomologous x) (h0 : ∀ e, T.IsLabel e → norm e ∈ tree → x e = 0) :
    ∀ e, T.IsLabel e → x e = 0 := by
  obtain ⟨c, hc1, hc2⟩ := hx
  have hnx : ∀ e, T.IsLabel e → c (T.nxt e) = c e := fun e he => (hc1 _ _ _ (hT.glues_nxt he)).symm
  have htri : ∀ e f, T.IsLabel e → T.IsLabel f → T.triOf e = T.triOf f → c e = c f := by
    intro e f he hf h
    rw [hT.triOf_eq_iff' he hf] at h
    rcases h with rfl | rfl | rfl
    · rfl
    · exact (hnx _ he).symm
    · rw [hnx _ (hT.isLabel_nxt he), hnx _ he]
  have hconn : ∀ s t, Conn T.triOf (fun i => T.triOf (inv i)) tree.reverse s t →
      ∀ e f, T.IsLabel e → T.IsLabel f → T.triOf e = s → T.triOf f = t → c e = c f := by
    intro s t hst
    have : ∀ s t, Conn T.triOf (fun i => T.triOf (inv i)) tree.reverse s t →
      (s = t ∨ (∃ e f, T.IsLabel e ∧ T.IsLabel f ∧ T.triOf e = s ∧ T.triOf f = t ∧ c e = c f)) := by
      intro s t hst
      induction hst with
      | rel s t h =>
        obtain ⟨i, hi, rfl, rfl⟩ := h
        have hii := h0 i
        have hi' : i ∈ T.indices := (by assumption : T.TreeInv [] T.indices _ tree).sub.subset (by simpa using hi)
        have hl := mem_indices_isLabel hi'
        have h3 := hii hl (by rw [norm_of_nonneg (mem_indices.1 hi').1]; simpa using hi)
        have h4 := hc2 i hl
        exact .inr ⟨i, inv i, hl, isLabel_inv.2 hl, rfl, rfl, by omega⟩
      | refl s => exact .inl rfl
      | symm s t _ ih =>
        rcases ih with rfl | ⟨e, f, h1, h2, h3, h4, h5⟩
        · exact .inl rfl
        · exact .inr ⟨f, e, h2, h1, h4, h3, h5.symm⟩
      | trans s t r _ _ ih ih' =>
        rcases ih with rfl | ⟨e, f, h1, h2, h3, h4, h5⟩
        · exact ih'
        · rcases ih' with rfl | ⟨e', f', k1, k2, k3, k4, k5⟩
          · exact .inr ⟨e, f, h1, h2, h3, h4, h5⟩
          · exact .inr ⟨e, f', h1, k2, h3, k4, h5.trans ((htri _ _ h2 k1 (h4.trans k3.symm)).trans k5)⟩
    intro e f he hf h1 h2
    rcases this s t hst with rfl | ⟨e', f', k1, k2, k3, k4, k5⟩
    · exact htri _ _ he hf (h1.trans h2.symm)
    · exact (htri _ _ he k1 (h1.trans k3.symm)).trans (k5.trans (htri _ _ k2 hf (k4.trans h2.symm)))
  intro e he
  have key : ∀ i ∈ T.indices, c i = c (inv i) := by
    intro i hi
    have hl := mem_indices_isLabel hi
    exact hconn _ _ (h.covers i hi (by simp)) _ _ hl (isLabel_inv.2 hl) rfl rfl
  rw [hc2 e he]
  have hm : norm e ∈ T.indices := norm_mem_indices.2 he
  have := key _ hm
  rcases lt_or_ge e 0 with h' | h'
  · rw [norm_of_neg h', inv_inv] at this; omega
  · rw [norm_of_nonneg h'] at this; omega

end Triangulation

namespace Hom
variable {h h' : Hom}

theorem create_ok {T : Triangulation} {g : List Int} (hg : g.length = T.zeta) : Hom.create T g = .ok ⟨T, g⟩ := by
  unfold create
  rw [hg]; simp [pyAssert]

theorem canonical_ok (hw : h.WellFormed) : ∃ c tree, h.canonical = .ok c ∧ h.tri.dualTree [] = .ok tree ∧ c.WellFormed ∧
    h.Homologous c ∧ ∀ e, h.tri.IsLabel e → norm e ∈ tree → c.v e = 0 := by
  have hT := hw.1.comp
  obtain ⟨tree, rows, s, h1, h2, h3, h4, h5⟩ := hT.homologyRows_ok
  have hl : (transposeDot rows h.tri.zeta h.algebraic).length = h.tri.zeta := by simp [transposeDot]
  refine ⟨⟨h.tri, transposeDot rows h.tri.zeta h.algebraic⟩, tree, ?_, h1, ⟨hw.1, hl⟩, ⟨rfl, ?_⟩, ?_⟩
  · unfold canonical
    rw [h2, py_bind_ok, create_ok hl]
  · refine (nullHomologous_rows h4 h.algebraic).congr ?_
    intro e he
    have hlt := idx_lt he
    change _ = gv h.algebraic e - gv _ e
    rw [gv_transposeDot hlt]
    congr 1
    have := sum_unit e h.algebraic 0 (by intro k hk; omega)
    rw [← List.range_eq_range', hw.2] at this
    exact this
  · intro e he ht
    change gv _ e = 0
    rw [gv_transposeDot (idx_lt he)]
    apply List.sum_eq_zero
    intro y hy
    rw [List.mem_map] at hy
    obtain ⟨⟨r, z⟩, hp, rfl⟩ := hy
    rw [(h5 r (List.of_mem_zip hp).1).2 e ht, zero_mul]

theorem Homologous.refl (h : Hom) : h.Homologous h := ⟨rfl, NullHomologous.zero.congr (by intro e _; ring)⟩
theorem Homologous.symm (hh : h.Homologous h') : h'.Homologous h :=
  ⟨hh.1.symm, hh.1 ▸ hh.2.neg.congr (by intro e _; ring)⟩
theorem Homologous.trans {h'' : Hom} (hh : h.Homologous h') (hh' : h'.Homologous h'') : h.Homologous h'' :=
  ⟨hh.1.trans hh'.1, (hh.2.add (hh.1 ▸ hh'.2)).congr (by intro e _; ring)⟩

/-- classes zero on the tree that are homologous are equal -/
theorem eq_of_homologous (hw : h.WellFormed) (hw' : h'.WellFormed) (hh : h.Homologous h') {tree : List Int}
    (ht : h.tri.dualTree [] = .ok tree) (h0 : ∀ e, h.tri.IsLabel e → norm e ∈ tree → h.v e = 0)
    (h0' : ∀ e, h.tri.IsLabel e → norm e ∈ tree → h'.v e = 0) : h = h' := by
  obtain ⟨s, tree', h1, h2⟩ := hw.1.comp.dualTree_ok []
  rw [ht] at h1; cases h1
  have := hw.1.comp.eq_zero_of_null h2 hh.2 (by intro e he hm; rw [h0 e he hm, h0' e he hm]; rfl)
  have hl : h.algebraic = h'.algebraic := by
    apply gv_ext (by rw [hw.2, hw'.2, hh.1])
    intro i hi
    rw [hw.2] at hi
    have := this i (by unfold IsLabel; omega)
    change h.v i = h'.v i
    omega
  have ht := hh.1
  cases h; cases h'; simp_all

theorem canonical_eq_iff (hw : h.WellFormed) (hw' : h'.WellFormed) {c c' : Hom} (hc : h.canonical = .ok c) (hc' : h'.canonical = .ok c')
    (ht : h.tri = h'.tri) : c.algebraic = c'.algebraic ↔ h.Homologous h' := by
  obtain ⟨c0, tree, h1, h2, h3, h4, h5⟩ := canonical_ok hw
  obtain ⟨c0', tree', h1', h2', h3', h4', h5'⟩ := canonical_ok hw'
  rw [hc] at h1; cases h1
  rw [hc'] at h1'; cases h1'
  have htc : c.tri = c'.tri := h4.1.symm.trans (ht.trans h4'.1)
  constructor
  · intro h
    have : c = c' := by cases c; cases c'; simp_all
    exact h4.trans (this ▸ h4'.symm)
  · intro hh
    rw [← ht, h2] at h2'; cases h2'
    have := eq_of_homologous h3 h3' ((h4.symm.trans hh).trans h4') (tree := tree) (by rw [← h4.1]; exact h2)
      (by rw [← h4.1]; exact h5) (by rw [← h4.1, ht]; exact h5')
    rw [this]

theorem eq_ok (hw : h.WellFormed) (hw' : h'.WellFormed) : ∃ b, h.eq h' = .ok b ∧ (b = true ↔ h.Homologous h') := by
  unfold Hom.eq
  obtain ⟨c, _, h1, _⟩ := canonical_ok hw
  obtain ⟨c', _, h1', _⟩ := canonical_ok hw'
  by_cases ht : h.tri = h'.tri
  · have : h.tri.eq h'.tri = true := by rw [ht]; simp [Triangulation.eq]
    rw [if_pos this, h1, py_bind_ok, h1', py_bind_ok]
    refine ⟨_, rfl, ?_⟩
    rw [beq_iff_eq, canonical_eq_iff hw hw' h1 h1' ht]
  · have : ¬ h.tri.eq h'.tri = true := by
      intro hh; apply ht; unfold Triangulation.eq at hh; exact Triangulation.signature_inj (by simpa using hh)
    rw [if_neg this]
    exact ⟨false, rfl, by simp [Homologous, ht]⟩

end Hom
end Curver
