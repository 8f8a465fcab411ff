import Verif.Proofs.LoadLow

namespace Curver
open Triangulation

/-- the cut sequence of `c_i`, from the start of the handle -/
def cBase : List Int := [0, 2, 4, 3, 2, 1, 4, 2, 0, 5, 6, 8, 7, 5]

theorem FB_cw {l : List Int} (h : ∀ x ∈ l, 0 ≤ x ∧ x < 10)
    (h0 : Tri3 (cw l 0) (cw l 1) (cw l 2) ∧ Tri3 (cw l 1) (cw l 3) (cw l 4) ∧ Tri3 (cw l 2) (cw l 3) (cw l 4))
    (h1 : Tri3 (cw l 5) (cw l 6) (cw l 7) ∧ Tri3 (cw l 6) (cw l 8) (cw l 9) ∧ Tri3 (cw l 7) (cw l 8) (cw l 9)) : FB (cw l) := by
  intro q
  by_cases c0 : q = 0
  · subst c0; exact h0
  by_cases c1 : q = 1
  · subst c1; exact h1
  · have z : ∀ k, k < 0 ∨ 10 ≤ k → cw l k = 0 := fun k hk => cw_zero (fun hm => by have := h k hm; omega)
    rw [z (5 * q) (by omega), z (5 * q + 1) (by omega), z (5 * q + 2) (by omega), z (5 * q + 3) (by omega), z (5 * q + 4) (by omega)]
    decide

/-- the weights of `d_i`, from the start of the handle -/
def dBase (k : Int) : Int := if k ≤ 0 then 2 else if k ≤ 3 then 1 else 0

theorem FB_d : FB dBase := by
  intro q
  unfold dBase Tri3
  split_ifs <;> omega

theorem centre_of {g z : Int} (hg : 4 ≤ g) {W : Int → Int} (e zz : Int → Int) (he : ∀ j, 0 ≤ j → j < g → W (5 * j) = e j) (hz : ∀ t, 0 ≤ t → t ≤ g - 4 → W (z + t) = zz t)
    (h0 : Tri3 (e 0) (e 1) (zz 0)) (h1 : ∀ t, 0 ≤ t → t < g - 4 → Tri3 (zz (t + 1)) (zz t) (e (t + 2))) (h2 : Tri3 (zz (g - 4)) (e (g - 2)) (e (g - 1))) : Centre g z W := by
  refine ⟨?_, ?_, ?_⟩
  · have a := he 0 (by omega) (by omega)
    have b := he 1 (by omega) (by omega)
    have c := hz 0 (by omega) (by omega)
    simp only [mul_zero, mul_one, add_zero] at a b c
    rw [a, b, c]; exact h0
  · intro t t1 t2
    rw [show z + 1 + t = z + (t + 1) by ring, show 5 * t + 10 = 5 * (t + 2) by ring, hz _ (by omega) (by omega), hz _ (by omega) (by omega), he _ (by omega) (by omega)]
    exact h1 t t1 t2
  · rw [show z + g - 4 = z + (g - 4) by ring, show 5 * g - 10 = 5 * (g - 2) by ring, show 5 * g - 5 = 5 * (g - 1) by ring, hz _ (by omega) (by omega), he _ (by omega) (by omega), he _ (by omega) (by omega)]
    exact h2

theorem centre_zero {g z : Int} (hg : 4 ≤ g) {W : Int → Int} (he : ∀ j, 0 ≤ j → j < g → W (5 * j) = 0) (hz : ∀ t, 0 ≤ t → t ≤ g - 4 → W (z + t) = 0) : Centre g z W :=
  centre_of hg (fun _ => 0) (fun _ => 0) he hz (by decide) (fun _ _ _ => by decide) (by decide)

theorem centre_c {g z i : Int} (hg : 4 ≤ g) (h0 : 0 ≤ i) (h1 : i ≤ g - 2) {W : Int → Int} (he : ∀ j, 0 ≤ j → j < g → W (5 * j) = if j = i ∨ j = i + 1 then 2 else 0)
    (hz : ∀ t, 0 ≤ t → t ≤ g - 4 → W (z + t) = if t = i - 1 ∧ i ≤ g - 3 then 2 else 0) : Centre g z W := by
  refine centre_of hg _ _ he hz ?_ ?_ ?_
  · unfold Tri3; split_ifs <;> omega
  · intro t _ _; unfold Tri3; split_ifs <;> omega
  · unfold Tri3; split_ifs <;> omega

theorem centre_d {g z i : Int} (hg : 4 ≤ g) (h0 : 1 ≤ i) (h1 : i ≤ g - 1) {W : Int → Int} (he : ∀ j, 0 ≤ j → j < g → W (5 * j) = if j ≤ i then 2 else 0)
    (hz : ∀ t, 0 ≤ t → t ≤ g - 4 → W (z + t) = if t ≤ i - 2 then 2 else 0) : Centre g z W := by
  refine centre_of hg _ _ he hz ?_ ?_ ?_
  · unfold Tri3; split_ifs <;> omega
  · intro t _ _; unfold Tri3; split_ifs <;> omega
  · unfold Tri3; split_ifs <;> omega

theorem cw_shift_zero {l : List Int} {c k : Int} (h : k - c ∉ l) : cw (l.map (fun j => c + j)) k = 0 := by rw [cw_shift, cw_zero h]

theorem cBase_five (q : Int) : cw cBase (5 * q) = if q = 0 ∨ q = 1 then 2 else 0 := by
  by_cases h0 : q = 0
  · subst h0; decide
  by_cases h1 : q = 1
  · subst h1; decide
  rw [if_neg (by omega)]
  exact cw_zero (by unfold cBase; simp; omega)

theorem not_mem_cBase {k : Int} (h : k < 0 ∨ 9 ≤ k) : k ∉ cBase := by unfold cBase; simp; omega

/-- weights on the triangulation of `S_g_n` which satisfy the triangle inequalities -/
structure Fit (g n : Int) (W : Int → Int) : Prop where
  fins : ∃ i B, FB B ∧ ∀ k, 0 ≤ k → k < 5 * g → W k = B (k - 5 * i)
  centre : Centre g (5 * g + 3 * n - 3) W
  strip : n = 1 ∨ ∃ s u, 0 ≤ s ∧ s < n ∧ (u = 0 ∨ u = 1) ∧ ∀ k, 5 * g - 2 ≤ k → k ≠ 5 * g - 2 + 1 → k ≤ 5 * g - 2 + 3 * n - 2 → W k = u * sw (5 * g - 2) n s k

theorem Fit.lawful {g n : Int} {W : Int → Int} (h : Fit g n W) (hg : 4 ≤ g) (hn : 1 ≤ n) : Lawful (triplesG g n) W := by
  obtain ⟨i, B, hB, hk⟩ := h.fins
  rcases h.strip with rfl | ⟨s, u, h1, h2, h3, h4⟩
  · have := h.centre
    rw [show 5 * g + 3 * 1 - 3 = 5 * g by ring] at this
    exact lawfulG_one hg hB hk this
  · by_cases h5 : n = 1
    · subst h5
      have := h.centre
      rw [show 5 * g + 3 * 1 - 3 = 5 * g by ring] at this
      exact lawfulG_one hg hB hk this
    · exact lawfulG hg (by omega) h1 h2 h3 hB hk h4 h.centre

theorem zero_strip {g n : Int} {W : Int → Int} (hn : 1 ≤ n) (h : n = 1 ∨ ∀ k, 5 * g - 2 ≤ k → k ≠ 5 * g - 2 + 1 → k ≤ 5 * g - 2 + 3 * n - 2 → W k = 0) :
    n = 1 ∨ ∃ s u, 0 ≤ s ∧ s < n ∧ (u = 0 ∨ u = 1) ∧ ∀ k, 5 * g - 2 ≤ k → k ≠ 5 * g - 2 + 1 → k ≤ 5 * g - 2 + 3 * n - 2 → W k = u * sw (5 * g - 2) n s k := by
  rcases h with h | h
  · exact .inl h
  · exact .inr ⟨0, 0, le_rfl, by omega, .inl rfl, fun k h1 h2 h3 => by rw [h k h1 h2 h3]; ring⟩

/-- `a_i` and `b_i` -/
theorem fit_local {g n i : Int} {l : List Int} (hg : 4 ≤ g) (hn : 1 ≤ n) (h0 : 0 ≤ i) (h1 : i < g) (hl : ∀ x ∈ l, 1 ≤ x ∧ x < 5)
    (ht : Tri3 (cw l 0) (cw l 1) (cw l 2) ∧ Tri3 (cw l 1) (cw l 3) (cw l 4) ∧ Tri3 (cw l 2) (cw l 3) (cw l 4)) (hs : n = 1 ∨ i < g - 1 ∨ 3 ∉ l) :
    Fit g n (cw (l.map (fun j => 5 * i + j))) := by
  have z : ∀ k, k < 1 ∨ 5 ≤ k → cw l k = 0 := fun k hk => cw_zero (fun hm => by have := hl k hm; omega)
  refine ⟨⟨i, cw l, FB_cw (fun x hx => by have := hl x hx; omega) ht ?_, fun k _ _ => cw_shift _ _ _⟩, centre_zero hg ?_ ?_, zero_strip hn ?_⟩
  · rw [z 5 (by omega), z 6 (by omega), z 7 (by omega), z 8 (by omega), z 9 (by omega)]; decide
  · intro j _ _; rw [cw_shift]; exact z _ (by omega)
  · intro t _ _; rw [cw_shift]; exact z _ (by omega)
  · rcases hs with h | h | h
    · exact .inl h
    · right; intro k _ _ _; rw [cw_shift]; exact z _ (by omega)
    · right; intro k h2 h3 h4; rw [cw_shift]
      by_cases c : k - 5 * i = 3
      · rw [c]; exact cw_zero h
      · refine z _ (by omega)

theorem fit_c {g n i : Int} (hg : 4 ≤ g) (hn : 1 ≤ n) (h0 : 0 ≤ i) (h1 : i ≤ g - 2) {l : List Int}
    (hl : (1 ≤ i ∧ i ≤ g - 3 ∧ l = [5 * g + 3 * n - 3 + i - 1, 5 * g + 3 * n - 3 + i - 1]) ∨ ((i = 0 ∨ i = g - 2) ∧ l = [])) (hs : n = 1 ∨ i ≤ g - 3) :
    Fit g n (cw (cBase.map (fun j => 5 * i + j) ++ l)) := by
  have hz : ∀ k, cw l k = if k = 5 * g + 3 * n - 3 + i - 1 ∧ 1 ≤ i ∧ i ≤ g - 3 then 2 else 0 := by
    intro k
    rcases hl with ⟨a, b, rfl⟩ | ⟨a, rfl⟩
    · rw [cw_cons, cw_cons, cw_nil]; split_ifs <;> omega
    · rw [cw_nil, if_neg (by omega)]
  have hw : ∀ k, cw (cBase.map (fun j => 5 * i + j) ++ l) k = cw cBase (k - 5 * i) + if k = 5 * g + 3 * n - 3 + i - 1 ∧ 1 ≤ i ∧ i ≤ g - 3 then 2 else 0 := by
    intro k; rw [cw_append, cw_shift, hz]
  refine ⟨⟨i, cw cBase, FB_cw (by decide) (by decide) (by decide), ?_⟩, centre_c hg h0 h1 ?_ ?_, zero_strip hn ?_⟩
  · intro k _ _; rw [hw, if_neg (by omega), add_zero]
  · intro j _ _
    rw [hw, if_neg (by omega), add_zero, show 5 * j - 5 * i = 5 * (j - i) by ring, cBase_five]
    split_ifs <;> omega
  · intro t _ _
    rw [hw, cw_zero (not_mem_cBase (by omega)), zero_add]
    split_ifs <;> omega
  · rcases hs with h | h
    · exact .inl h
    · right; intro k _ _ _
      rw [hw, cw_zero (not_mem_cBase (by omega)), if_neg (by omega), add_zero]

/-- `a_{g-1}` and `p_i`, with punctures in the last handle -/
theorem fit_last {g n s : Int} (hg : 4 ≤ g) (hn : 2 ≤ n) (hs : 0 ≤ s) (hsn : s < n) {W : Int → Int}
    (hW : ∀ k, W k = cw [5 * (g - 1) + 1, 5 * (g - 1) + 2] k + sw (5 * g - 2) n s k) : Fit g n W := by
  obtain ⟨s1, s2, s3, s4⟩ := sw_at (5 * g - 2) n s hn hs hsn
  have z : ∀ k, k ≠ 5 * g - 4 → k ≠ 5 * g - 3 → cw [5 * (g - 1) + 1, 5 * (g - 1) + 2] k = 0 := fun k _ _ => cw_zero (by simp; omega)
  refine ⟨⟨g - 1, cw [1, 2, 3], FB_cw (by decide) (by decide) (by decide), ?_⟩, centre_zero hg ?_ ?_, .inr ⟨s, 1, hs, hsn, .inr rfl, ?_⟩⟩
  · intro k h1 h2
    rw [hW]
    by_cases c1 : k = 5 * g - 2
    · subst c1
      rw [z _ (by omega) (by omega), s1, show 5 * g - 2 - 5 * (g - 1) = 3 by ring]; decide
    · have : sw (5 * g - 2) n s k = 0 := by
        by_cases c2 : k = 5 * g - 1
        · rw [c2, show 5 * g - 1 = 5 * g - 2 + 1 by ring, s2]
        · exact s4 k (by omega)
      rw [this]
      simp only [cw_cons, cw_nil]
      split_ifs <;> omega
  · intro j _ _
    rw [hW, z _ (by omega) (by omega), s4 _ (by omega)]; rfl
  · intro t _ _
    rw [hW, z _ (by omega) (by omega), s4 _ (by omega)]; rfl
  · intro k h1 h2 h3
    rw [hW, z _ (by omega) (by omega)]; ring

/-- `c_{g-2}` with punctures in the last handle -/
theorem fit_clast {g n : Int} (hg : 4 ≤ g) (hn : 2 ≤ n) {W : Int → Int}
    (hW : ∀ k, W k = cw [7, 5, 0, 2, 4, 1, 2, 3, 4, 2, 0, 5, 6] (k - 5 * (g - 2)) + sw (5 * g - 2) n 0 k) : Fit g n W := by
  obtain ⟨s1, s2, s3, s4⟩ := sw_at (5 * g - 2) n 0 hn le_rfl (by omega)
  have z : ∀ k, k < 0 ∨ 8 ≤ k → cw [7, 5, 0, 2, 4, 1, 2, 3, 4, 2, 0, 5, 6] k = 0 := fun k _ => cw_zero (by simp; omega)
  have hcb : ∀ k, k ≠ 8 → cw [7, 5, 0, 2, 4, 1, 2, 3, 4, 2, 0, 5, 6] k = cw cBase k := by
    intro k hk
    by_cases h : k < 0 ∨ 9 ≤ k
    · rw [z k (by omega), cw_zero (not_mem_cBase h)]
    · have : k = 0 ∨ k = 1 ∨ k = 2 ∨ k = 3 ∨ k = 4 ∨ k = 5 ∨ k = 6 ∨ k = 7 := by omega
      rcases this with rfl | rfl | rfl | rfl | rfl | rfl | rfl | rfl <;> decide
  refine ⟨⟨g - 2, cw cBase, FB_cw (by decide) (by decide) (by decide), ?_⟩, centre_c (i := g - 2) hg (by omega) (by omega) ?_ ?_, .inr ⟨0, 1, le_rfl, by omega, .inr rfl, ?_⟩⟩
  · intro k h1 h2
    rw [hW]
    by_cases c1 : k = 5 * g - 2
    · subst c1
      rw [s1, show 5 * g - 2 - 5 * (g - 2) = 8 by ring]; decide
    · have : sw (5 * g - 2) n 0 k = 0 := by
        by_cases c2 : k = 5 * g - 1
        · rw [c2, show 5 * g - 1 = 5 * g - 2 + 1 by ring, s2]
        · exact s4 k (by omega)
      rw [this, hcb _ (by omega), add_zero]
  · intro j _ _
    rw [hW, hcb _ (by omega), s4 _ (by omega), show 5 * j - 5 * (g - 2) = 5 * (j - (g - 2)) by ring, cBase_five]
    split_ifs <;> omega
  · intro t _ _
    rw [hW, z _ (by omega), s4 _ (by omega), if_neg (by omega)]; rfl
  · intro k h1 h2 h3
    rw [hW, z _ (by omega)]; ring

theorem fit_d {g n i : Int} (hg : 4 ≤ g) (hn : 1 ≤ n) (h0 : 1 ≤ i) (h1 : i ≤ g - 2) {W : Int → Int}
    (hW : ∀ k, 0 ≤ k → W k = if k ≤ 5 * i then 2 else if k ≤ 5 * i + 3 then 1 else if k < 5 * g + 3 * n - 3 then 0 else if k < 5 * g + 3 * n - 3 + i - 1 then 2 else 0) :
    Fit g n W := by
  refine ⟨⟨i, dBase, FB_d, ?_⟩, centre_d (i := i) hg h0 (by omega) ?_ ?_, zero_strip hn (.inr ?_)⟩
  · intro k _ _; rw [hW k (by omega)]; unfold dBase; split_ifs <;> omega
  · intro j _ _; rw [hW _ (by omega)]; split_ifs <;> omega
  · intro t _ _; rw [hW _ (by omega)]; split_ifs <;> omega
  · intro k _ _ _; rw [hW _ (by omega)]; split_ifs <;> omega

theorem fit_dlast_one {g : Int} (hg : 4 ≤ g) {W : Int → Int}
    (hW : ∀ k, 0 ≤ k → W k = if k ≤ 5 * (g - 1) then 2 else if k ≤ 5 * (g - 1) + 3 then 1 else if k < 5 * g then 0 else if k < 6 * g - 3 then 2 else 0) : Fit g 1 W := by
  refine ⟨⟨g - 1, dBase, FB_d, ?_⟩, centre_d (i := g - 1) hg (by omega) (by omega) ?_ ?_, .inl rfl⟩
  · intro k _ _; rw [hW k (by omega)]; unfold dBase; split_ifs <;> omega
  · intro j _ _; rw [hW _ (by omega)]; split_ifs <;> omega
  · intro t _ _; rw [hW _ (by omega)]; split_ifs <;> omega

theorem fit_dlast {g n : Int} (hg : 4 ≤ g) (hn : 2 ≤ n) {W : Int → Int}
    (hW : ∀ k, 0 ≤ k → W k = (if k ≤ 5 * (g - 1) then 2 else if k ≤ 5 * (g - 1) + 2 then 1 else 0) + sw (5 * g - 2) n 0 k
      + (if 5 * g + 3 * n - 3 ≤ k ∧ k < 6 * g + 3 * n - 6 then 2 else 0)) : Fit g n W := by
  obtain ⟨s1, s2, s3, s4⟩ := sw_at (5 * g - 2) n 0 hn le_rfl (by omega)
  refine ⟨⟨g - 1, dBase, FB_d, ?_⟩, centre_d (i := g - 1) hg (by omega) (by omega) ?_ ?_, .inr ⟨0, 1, le_rfl, by omega, .inr rfl, ?_⟩⟩
  · intro k _ _; rw [hW k (by omega)]
    have : sw (5 * g - 2) n 0 k = if k = 5 * g - 2 then 1 else 0 := by
      by_cases c1 : k = 5 * g - 2
      · rw [if_pos c1, c1, s1]
      · rw [if_neg c1]
        by_cases c2 : k = 5 * g - 1
        · rw [c2, show 5 * g - 1 = 5 * g - 2 + 1 by ring, s2]
        · exact s4 k (by omega)
    rw [this]
    unfold dBase; split_ifs <;> omega
  · intro j _ _; rw [hW _ (by omega), s4 _ (by omega)]; split_ifs <;> omega
  · intro t _ _; rw [hW _ (by omega), s4 _ (by omega)]; split_ifs <;> omega
  · intro k _ _ _; rw [hW _ (by omega), if_neg (by omega), if_neg (by omega), if_neg (by omega)]; ring

end Curver
