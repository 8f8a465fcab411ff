import Verif.Proofs.UnionLeft

/-!
# The flips that `shorten` makes come to an end

Lines 706-747 of lamination.py: an edge with an arc across it, or with a bipod, is flipped.  While the new weight is positive the next edge to be flipped is determined, and it is larger than the
new weight.
-/

namespace Curver
open Triangulation

/-- the flip of an edge with an arc of the lamination that ends in the triangle -/
theorem FlipCase.arc {a b c d e x : Int} (ha : 0 ≤ a) (hb : 0 ≤ b) (hc : 0 ≤ c) (hd : 0 ≤ d) (h : FlipCase a b c d e x) (h2 : a + b < e) :
    x ≤ 0 ∨ (b + x < c) ∨ (¬ b + x < c ∧ a + x < d) := by
  cases h <;> omega

/-- the flip of a bipod when no arc ends in the triangles -/
theorem FlipCase.bipod {a b c d e x : Int} (ha : 0 ≤ a) (hb : 0 ≤ b) (hc : 0 ≤ c) (hd : 0 ≤ d) (h : FlipCase a b c d e x) (h2 : e = a + b) (ha' : 0 < a) (hb' : 0 < b)
    (h3 : e ≤ c + d) (h4 : c ≤ d + e) (h5 : d ≤ e + c) :
    (x ≤ 0 ∨ c = b + x ∨ (c ≠ b + x ∧ d = a + x)) ∧ max x 0 ≤ d + a ∧ d ≤ a + max x 0 ∧ a ≤ max x 0 + d ∧ max x 0 ≤ b + c ∧ b ≤ c + max x 0 ∧ c ≤ max x 0 + b := by
  cases h <;> omega

theorem FlipCase.bound {a b c d e x : Int} (ha : 0 ≤ a) (hb : 0 ≤ b) (hc : 0 ≤ c) (hd : 0 ≤ d) (h : FlipCase a b c d e x) (h2 : a + b ≤ e) : x ≤ c ∨ x ≤ d ∨ x ≤ 0 := by
  cases h <;> omega

/-! ## `maximum` -/

theorem maximumFrom_total {k : Int → Int} {key : Int → Py Int} {ub : Int} : ∀ (l : List Int), (∀ x ∈ l, key x = .ok (k x)) → ∀ b : Int × Int, ∃ r, maximumFrom key ub b l = .ok r ∧
    (r = b ∨ (r.1 ∈ l ∧ r.2 = k r.1 ∧ b.2 < r.2)) ∧ (r.2 < ub → ∀ x ∈ l, k x ≤ r.2) ∧ (∀ x ∈ l, k x ≤ ub → k x ≤ r.2 ∨ ub ≤ r.2) ∧ b.2 ≤ r.2
  | [], _, b => ⟨b, rfl, .inl rfl, by simp, by simp, le_refl _⟩
  | x :: l, h, b => by
    have hx := h x (by simp)
    simp only [maximumFrom, hx, py_bind_ok]
    by_cases q : ub ≤ k x
    · rw [if_pos q]
      refine ⟨_, rfl, ?_⟩
      by_cases p : b.2 < k x
      · rw [if_pos p]
        exact ⟨.inr ⟨by simp, rfl, p⟩, fun h => by dsimp only at h; omega, fun y _ _ => .inr q, p.le⟩
      · rw [if_neg p]
        exact ⟨.inl rfl, fun h => by omega, fun y _ _ => .inr (by omega), le_refl _⟩
    · rw [if_neg q]
      by_cases p : b.2 < k x
      · rw [if_pos p]
        obtain ⟨r, h1, h2, h3, h4, h5⟩ := maximumFrom_total (ub := ub) l (fun y hy => h y (by simp [hy])) (x, k x)
        dsimp only at h5 h2
        refine ⟨r, h1, ?_, ?_, ?_, by omega⟩
        · rcases h2 with rfl | ⟨a1, a2, a3⟩
          · exact .inr ⟨by simp, rfl, p⟩
          · exact .inr ⟨by simp [a1], a2, by omega⟩
        · intro hr y hy
          rcases List.mem_cons.1 hy with rfl | hy
          · exact h5
          · exact h3 hr y hy
        · intro y hy hyu
          rcases List.mem_cons.1 hy with rfl | hy
          · exact .inl h5
          · exact h4 y hy hyu
      · rw [if_neg p]
        obtain ⟨r, h1, h2, h3, h4, h5⟩ := maximumFrom_total (ub := ub) l (fun y hy => h y (by simp [hy])) b
        refine ⟨r, h1, ?_, ?_, ?_, by omega⟩
        · rcases h2 with rfl | ⟨a1, a2, a3⟩
          · exact .inl rfl
          · exact .inr ⟨by simp [a1], a2, by omega⟩
        · intro hr y hy
          rcases List.mem_cons.1 hy with rfl | hy
          · omega
          · exact h3 hr y hy
        · intro y hy hyu
          rcases List.mem_cons.1 hy with rfl | hy
          · exact .inl (by omega)
          · exact h4 y hy hyu

/-- when no key is larger than the bound, the result is an item with the largest key -/
theorem maximumM_total {k : Int → Int} {key : Int → Py Int} {ub : Int} {l : List Int} (h : ∀ x ∈ l, key x = .ok (k x)) (hl : l ≠ []) (hu : ∀ x ∈ l, k x ≤ ub) :
    ∃ e, maximumM key ub l = .ok (e, k e) ∧ e ∈ l ∧ ∀ x ∈ l, k x ≤ k e := by
  cases l with
  | nil => exact absurd rfl hl
  | cons x l =>
    have hx := h x (by simp)
    simp only [maximumM, hx, py_bind_ok]
    by_cases q : ub ≤ k x
    · rw [if_pos q]
      exact ⟨x, rfl, by simp, fun y hy => (hu y hy).trans q⟩
    · rw [if_neg q]
      obtain ⟨⟨r, n⟩, h1, h2, h3, h4, h5⟩ := maximumFrom_total (ub := ub) l (fun y hy => h y (by simp [hy])) (x, k x)
      dsimp only at h2 h3 h4 h5
      have hr : n = k r ∧ r ∈ x :: l := by
        rcases h2 with h2 | ⟨a1, a2, -⟩
        · injection h2 with e1 e2
          subst e1 e2
          exact ⟨rfl, by simp⟩
        · exact ⟨a2, by simp [a1]⟩
      refine ⟨r, by rw [h1, hr.1], hr.2, ?_⟩
      intro y hy
      rcases List.mem_cons.1 hy with rfl | hy
      · omega
      · have := h4 y hy (hu y (by simp [hy]))
        have := hu y (by simp [hy])
        omega

theorem maximumFrom_first {k : Int → Int} {key : Int → Py Int} {ub : Int} : ∀ (l : List Int), (∀ x ∈ l, key x = .ok (k x)) → ∀ b : Int × Int, (∀ x ∈ l, k x ≤ b.2) → maximumFrom key ub b l = .ok b
  | [], _, _, _ => rfl
  | x :: l, h, b, hb => by
    simp only [maximumFrom, h x (by simp), py_bind_ok]
    have := hb x (by simp)
    simp only [if_neg (show ¬ b.2 < k x by omega)]
    split
    · rfl
    · exact maximumFrom_first l (fun y hy => h y (by simp [hy])) b (fun y hy => hb y (by simp [hy]))

/-- the first item, when its key is the largest -/
theorem maximumM_first {k : Int → Int} {key : Int → Py Int} {ub x : Int} {l : List Int} (h : ∀ y ∈ x :: l, key y = .ok (k y)) (hm : ∀ y ∈ l, k y ≤ k x) : maximumM key ub (x :: l) = .ok (x, k x) := by
  simp only [maximumM, h x (by simp), py_bind_ok]
  split
  · rfl
  · exact maximumFrom_first l (fun y hy => h y (by simp [hy])) _ hm

/-- the second item, when its key is the largest -/
theorem maximumM_second {k : Int → Int} {key : Int → Py Int} {ub x z : Int} {l : List Int} (h : ∀ y ∈ x :: z :: l, key y = .ok (k y)) (hm : ∀ y ∈ l, k y ≤ k z) (hx : k x < k z) (hu : k z ≤ ub) :
    maximumM key ub (x :: z :: l) = .ok (z, k z) := by
  simp only [maximumM, h x (by simp), py_bind_ok]
  rw [if_neg (by omega)]
  simp only [maximumFrom, h z (by simp), py_bind_ok]
  rw [if_pos hx]
  split
  · rfl
  · exact maximumFrom_first l (fun y hy => h y (by simp [hy])) _ hm

namespace Lam
variable {L L' : Lam Int}

/-- the value of an edge: 2 when an arc ends at the vertex opposite it, 1 for a bipod -/
def val (L : Lam Int) (e : Int) : Int :=
  let a := max (L.w (L.tri.nxt e)) 0
  let b := max (L.w (L.tri.nxt (L.tri.nxt e))) 0
  let p := max (L.w e) 0
  if a + b < p then 2 else if p = a + b ∧ 0 < a ∧ 0 < b then 1 else 0

theorem val_eq (hL : L.WellFormed) {e a b : Int} (hg : L.tri.Glues e a b) : L.val e = if max (L.w a) 0 + max (L.w b) 0 < max (L.w e) 0 then 2 else
    if max (L.w e) 0 = max (L.w a) 0 + max (L.w b) 0 ∧ 0 < max (L.w a) 0 ∧ 0 < max (L.w b) 0 then 1 else 0 := by
  unfold val
  rw [hL.1.comp.nxt_of_glues hg, hL.1.comp.nxt_of_glues hg.rot]

theorem val_two (hL : L.WellFormed) {e a b : Int} (hg : L.tri.Glues e a b) : L.val e = 2 ↔ max (L.w a) 0 + max (L.w b) 0 < max (L.w e) 0 := by
  rw [val_eq hL hg]
  split_ifs with h1 h2 <;> simp [h1]

theorem val_one (hL : L.WellFormed) {e a b : Int} (hg : L.tri.Glues e a b) : L.val e = 1 ↔ max (L.w e) 0 = max (L.w a) 0 + max (L.w b) 0 ∧ 0 < max (L.w a) 0 ∧ 0 < max (L.w b) 0 := by
  rw [val_eq hL hg]
  split_ifs with h1 h2
  · simp; omega
  · simpa using h2
  · simpa using h2

theorem val_range (L : Lam Int) (e : Int) : L.val e = 0 ∨ L.val e = 1 ∨ L.val e = 2 := by
  unfold val
  dsimp only
  split_ifs <;> simp

theorem val_flippable (hL : L.WellFormed) {e : Int} (he : L.tri.IsLabel e) (h : L.val e ≠ 0) : L.tri.Flippable e ∧ 0 < L.w e := by
  have hc := hL.1.comp
  have hg := hc.glues_nxt he
  have hv := val_eq hL hg
  refine ⟨⟨he, ?_⟩, ?_⟩
  · rw [hc.sameTriangle_iff he]
    rintro (q | q | q)
    · exact inv_ne e q
    · rw [← q, w_inv] at hv
      apply h
      rw [hv, if_neg (by omega), if_neg (by omega)]
    · rw [← q, w_inv] at hv
      apply h
      rw [hv, if_neg (by omega), if_neg (by omega)]
  · by_contra q
    apply h
    rw [hv, if_neg (by omega), if_neg (by omega)]

theorem shortenStrategy_eq (hL : L.Consistent) {e : Int} (he : L.tri.IsLabel e) : L.shortenStrategy e = .ok (L.val e) := by
  have hc := hL.1.1.comp
  unfold Lam.shortenStrategy
  by_cases hf : L.tri.Flippable e
  · rw [(hc.isFlippable_iff he).2 hf, py_bind_ok, if_pos rfl, hc.square_eq hf, py_bind_ok]
    have hg := hc.glues_nxt he
    have l1 := hc.label_of_glues hg
    have l2 := hc.label_of_glues (hc.glues_nxt (isLabel_inv.2 he))
    obtain ⟨ad, h1⟩ := hL.2 _ l1.2.1
    obtain ⟨bd, h2⟩ := hL.2 _ l1.2.2
    obtain ⟨cd, h3⟩ := hL.2 _ l2.2.1
    obtain ⟨dd, h4⟩ := hL.2 _ l2.2.2
    obtain ⟨ed, h5⟩ := hL.2 _ he
    dsimp only
    rw [h1, h2, h3, h4, h5]
    simp only [py_bind_ok]
    have ht := (duals_iff hL.1 hg).1 ⟨h5, h1, h2⟩
    rw [val_eq hL.1 hg]
    unfold TriDual at ht
    generalize max (L.w (L.tri.nxt e)) 0 = a at *
    generalize max (L.w (L.tri.nxt (L.tri.nxt e))) 0 = b at *
    generalize max (L.w e) 0 = p at *
    split_ifs <;> first | rfl | (exfalso; omega)
  · have : L.tri.isFlippable e = .ok false := by
      rw [hc.isFlippable_eq he]
      congr 1
      by_contra q
      apply hf
      rw [← hc.isFlippable_iff he, hc.isFlippable_eq he]
      simpa using q
    rw [this, py_bind_ok, if_neg (by simp)]
    by_contra q
    refine hf (val_flippable hL.1 he ?_).1
    intro q'
    rw [q'] at q
    exact q rfl

/-- no arc ends in a triangle -/
def NoNeg (L : Lam Int) : Prop := ∀ x y z, L.tri.Glues x y z → max (L.w x) 0 ≤ max (L.w y) 0 + max (L.w z) 0

theorem noNeg_iff (hL : L.WellFormed) : L.NoNeg ↔ ∀ e, L.tri.IsLabel e → L.val e ≤ 1 := by
  have hc := hL.1.comp
  constructor
  · intro h e he
    have := h _ _ _ (hc.glues_nxt he)
    have h2 := val_two hL (hc.glues_nxt he)
    have := L.val_range e
    omega
  · intro h x y z hg
    have := h x (hc.label_of_glues hg).1
    have h2 := val_two hL hg
    by_contra q
    have := h2.2 (by omega)
    omega

/-- the number of edges that the lamination crosses -/
def crossed (L : Lam Int) : Nat := (List.range L.tri.zeta).countP (fun i : Nat => decide (0 < L.w (i : Int)))

theorem crossed_le (hz : L'.tri.zeta = L.tri.zeta) (h : ∀ x, L.tri.IsLabel x → 0 < L'.w x → 0 < L.w x) : L'.crossed ≤ L.crossed := by
  unfold crossed
  rw [hz]
  apply List.countP_mono_left
  intro i hi
  rw [List.mem_range] at hi
  simp only [decide_eq_true_eq]
  exact h i (by unfold Triangulation.IsLabel; omega)

theorem crossed_lt (hz : L'.tri.zeta = L.tri.zeta) (h : ∀ x, L.tri.IsLabel x → 0 < L'.w x → 0 < L.w x) {x : Int} (hx : L.tri.IsLabel x) (h1 : L'.w x ≤ 0) (h2 : 0 < L.w x) :
    L'.crossed < L.crossed := by
  obtain ⟨i, hi, e1, e2⟩ : ∃ i : Nat, i < L.tri.zeta ∧ L'.w i = L'.w x ∧ L.w i = L.w x := by
    by_cases q : 0 ≤ x
    · refine ⟨x.toNat, ?_, ?_, ?_⟩
      · unfold Triangulation.IsLabel at hx; omega
      · rw [Int.toNat_of_nonneg q]
      · rw [Int.toNat_of_nonneg q]
    · have e : ((Curver.inv x).toNat : Int) = Curver.inv x := Int.toNat_of_nonneg (by unfold Curver.inv; omega)
      refine ⟨(Curver.inv x).toNat, ?_, ?_, ?_⟩
      · unfold Triangulation.IsLabel at hx; unfold Curver.inv; omega
      · rw [e, w_inv]
      · rw [e, w_inv]
  have hle : ∀ j ∈ List.range L.tri.zeta, decide (0 < L'.w (j : Int)) = true → decide (0 < L.w (j : Int)) = true := by
    intro j hj
    rw [List.mem_range] at hj
    simp only [decide_eq_true_eq]
    exact h j (by unfold Triangulation.IsLabel; omega)
  unfold crossed
  rw [hz]
  rw [List.countP_eq_length_filter, List.countP_eq_length_filter]
  refine lt_of_le_of_ne ?_ ?_
  · rw [← List.countP_eq_length_filter, ← List.countP_eq_length_filter]
    exact List.countP_mono_left hle
  · intro q
    have hsub : ((List.range L.tri.zeta).filter (fun j : Nat => decide (0 < L'.w (j : Int)))).Sublist ((List.range L.tri.zeta).filter (fun j : Nat => decide (0 < L.w (j : Int)))) := by
      have : (List.range L.tri.zeta).filter (fun j : Nat => decide (0 < L'.w (j : Int))) =
          ((List.range L.tri.zeta).filter (fun j : Nat => decide (0 < L.w (j : Int)))).filter (fun j : Nat => decide (0 < L'.w (j : Int))) := by
        rw [List.filter_filter]
        refine List.filter_congr ?_
        intro j hj
        have := hle j hj
        cases h1 : decide (0 < L'.w (j : Int))
        · rfl
        · rw [this h1]; rfl
      rw [this]
      exact List.filter_sublist
    have := hsub.eq_of_length q
    have hm : i ∈ (List.range L.tri.zeta).filter (fun j : Nat => decide (0 < L.w (j : Int))) := by
      rw [List.mem_filter, List.mem_range]
      exact ⟨hi, by simpa using (by omega : 0 < L.w i)⟩
    rw [← this, List.mem_filter] at hm
    have := hm.2
    simp at this
    omega

/-- the number of points on the edges -/
def total (L : Lam Int) : Int := ∑ i ∈ Finset.range L.tri.zeta, max (L.w (i : Int)) 0

theorem w_norm (L : Lam Int) (e : Int) : L.w (norm e) = L.w e := by
  have : norm e = e ∨ norm e = Curver.inv e := by unfold norm Curver.inv; omega
  rcases this with h | h <;> rw [h]
  rw [w_inv]

theorem total_ge {e : Int} (he : L.tri.IsLabel e) : max (L.w e) 0 ≤ L.total := by
  have hi : (norm e).toNat ∈ Finset.range L.tri.zeta := by
    rw [Finset.mem_range]; exact idx_lt he
  have := Finset.single_le_sum (f := fun i : Nat => max (L.w (i : Int)) 0) (fun i _ => le_max_right _ _) hi
  rw [Int.toNat_of_nonneg (by unfold norm Curver.inv; omega), w_norm] at this
  exact this

theorem total_change {e : Int} (he : L.tri.IsLabel e) (hz : L'.tri.zeta = L.tri.zeta) (h : ∀ x, L.tri.IsLabel x → x ≠ e → x ≠ Curver.inv e → L'.w x = L.w x) :
    L'.total + max (L.w e) 0 = L.total + max (L'.w e) 0 := by
  have hi : (norm e).toNat ∈ Finset.range L.tri.zeta := by
    rw [Finset.mem_range]; exact idx_lt he
  have hc : (((norm e).toNat : Nat) : Int) = norm e := Int.toNat_of_nonneg (by unfold norm Curver.inv; omega)
  unfold total
  rw [hz, ← Finset.add_sum_erase _ _ hi, ← Finset.add_sum_erase _ (fun i : Nat => max (L.w (i : Int)) 0) hi]
  rw [hc, w_norm, w_norm]
  have : ∑ i ∈ (Finset.range L.tri.zeta).erase (norm e).toNat, max (L'.w (i : Int)) 0 = ∑ i ∈ (Finset.range L.tri.zeta).erase (norm e).toNat, max (L.w (i : Int)) 0 := by
    refine Finset.sum_congr rfl ?_
    intro i hi
    rw [Finset.mem_erase, Finset.mem_range] at hi
    have hne : (i : Int) ≠ norm e := by
      intro q
      apply hi.1
      rw [← q]; rfl
    rw [h i (by unfold Triangulation.IsLabel; omega) ?_ ?_]
    · rintro rfl; apply hne; unfold norm Curver.inv; omega
    · intro q
      apply hne
      rw [q]; unfold norm Curver.inv at *; omega
  rw [this]
  omega

end Lam
end Curver
