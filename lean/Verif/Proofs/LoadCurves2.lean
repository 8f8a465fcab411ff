import Verif.Proofs.LoadCurves
import Verif.Spec.Load

namespace Curver
open Triangulation
variable {T : Triangulation}

/-- a value of the dictionary of curves -/
def Good (T : Triangulation) (x : Py (Lam Int)) : Prop := ∃ L, x = .ok L ∧ IsLoadedCurve T L

def Site (T : Triangulation) (ls : List (List Int)) : Prop :=
  T.Valid ∧ ∀ a b c, T.Glues a b c → [a, b, c] ∈ ls ∨ [b, c, a] ∈ ls ∨ [c, a, b] ∈ ls

theorem good_cut {ls : List (List Int)} (hT : Site T ls) {l : List Int} (hl : ∀ x ∈ l, 0 ≤ x) {W : Int → Int} (hW : Lawful ls W)
    (h : ∀ k, 0 ≤ k → cw l k = W k) {x : Int} (hx : x ∈ l) (hz : x < T.zeta) : Good T (.ok (T.curveFromCutSequence l)) := by
  refine ⟨_, rfl, rfl, noArcs_of_lawful hT.1 hT.2 hW rfl ?_ ?_, x, ⟨by have := hl x hx; omega, hz⟩, ?_⟩
  · simp [curveFromCutSequence, cutSequenceIntersections]
  rotate_left
  · rw [link_w l ⟨by have := hl x hx; omega, hz⟩]
    have := List.count_pos_iff.2 hx
    omega
  · intro e he
    rw [link_w l he, ← h _ (norm_nonneg e)]
    unfold cw
    rcases lt_or_ge e 0 with hneg | hpos
    · rw [show norm e = inv e by unfold norm inv; omega, List.count_eq_zero.2 (fun hm => absurd (hl e hm) (by omega))]
      simp
    · rw [norm_of_nonneg hpos, List.count_eq_zero (a := inv e) |>.2 (fun hm => absurd (hl _ hm) (by unfold inv; omega))]
      simp

theorem good_vec {ls : List (List Int)} (hT : Site T ls) {ws : List Int} (hlen : ws.length = T.zeta) {W : Int → Int} (hW : Lawful ls W)
    (h : ∀ k, 0 ≤ k → vw ws k = W k) (h0 : 0 < vw ws 0) : Good T (T.lamOfWeights ws) := by
  have hz : 0 < T.zeta := by
    rw [← hlen]; by_contra hc
    have he : ws = [] := List.eq_nil_of_length_eq_zero (by omega)
    rw [he] at h0; simp [vw] at h0
  refine ⟨⟨T, ws, .lamination⟩, if_pos hlen, rfl, noArcs_of_lawful hT.1 hT.2 hW rfl hlen ?_, 0, ⟨by omega, by omega⟩, h0⟩
  intro e he
  rw [← h _ (norm_nonneg e)]
  rfl

theorem Lawful.congr {ls : List (List Int)} {W W' : Int → Int} (h : Lawful ls W) (h' : ∀ k, 0 ≤ k → W' k = W k) : Lawful ls W' := by
  intro a b c hm
  rw [h' _ (norm_nonneg a), h' _ (norm_nonneg b), h' _ (norm_nonneg c)]
  exact h a b c hm

/-! ### `S_1_n`, `S_2_n`, `S_3_n` -/

section
variable {n i u : Int} {B : Int → Int}

theorem lawful1 (hn : 2 ≤ n) (hi : 0 ≤ i) (hin : i < n) (hu : u = 0 ∨ u = 1) (hB : ∀ k, 1 ≤ k → k ≠ 2 → B k = 0)
    (b1 : Tri3 (B 0) u (B 2)) : Lawful (triples1 n) (fun k => B k + u * sw 1 n i k) := by
  obtain ⟨s1, s2, s3, s4⟩ := sw_at 1 n i hn hi hin
  intro a b c h
  rw [mem_triples1 hn] at h
  rcases h with h | h | h
  · refine strip_tri hn (by decide) hi hin hu (W := fun k => B k + u * sw 1 n i k) ?_ h
    intro k h1 h2 h3
    simp only [hB k h1 h2, zero_add]
  all_goals
    simp only [List.cons.injEq, and_true] at h
    obtain ⟨rfl, rfl, rfl⟩ := h
    simp only
  · rw [norm_of_nonneg (by decide), norm_of_nonneg (by decide), norm_of_nonneg (by decide), s4 0 (by omega), s1, show (2 : Int) = 1 + 1 by rfl, s2, hB 1 (by decide) (by decide)]
    simpa using b1
  · rw [norm_inv_of_nonneg (by omega), norm_inv_of_nonneg (by omega), norm_inv_of_nonneg (by omega), s4 0 (by omega), show (2 : Int) = 1 + 1 by rfl, s2,
      hB (3 * n - 1) (by omega) (by omega), show 3 * n - 1 = 1 + 3 * n - 2 by ring, s3]
    simpa using b1

theorem lawful2 (hn : 2 ≤ n) (hi : 0 ≤ i) (hin : i < n) (hu : u = 0 ∨ u = 1) (hB : ∀ k, 7 ≤ k → k ≠ 8 → B k = 0)
    (b : Tri3 (B 0) (B 1) (B 2) ∧ Tri3 (B 1) (B 3) (B 4) ∧ Tri3 (B 2) (B 3) (B 4) ∧ Tri3 (B 0) (B 5) (B 6) ∧ Tri3 (B 6) u (B 8) ∧ Tri3 (B 5) u (B 8)) :
    Lawful (triples2 n) (fun k => B k + u * sw 7 n i k) := by
  obtain ⟨s1, s2, s3, s4⟩ := sw_at 7 n i hn hi hin
  have lo : ∀ k, k < 7 → B k + u * sw 7 n i k = B k := fun k hk => by rw [s4 k (by omega)]; ring
  have w7 : B 7 + u * sw 7 n i 7 = u := by rw [s1, hB 7 (by decide) (by decide)]; ring
  have w8 : B 8 + u * sw 7 n i 8 = B 8 := by rw [show (8 : Int) = 7 + 1 by rfl, s2]; ring
  have wl : B (3 * n + 5) + u * sw 7 n i (3 * n + 5) = u := by
    rw [hB _ (by omega) (by omega), show 3 * n + 5 = 7 + 3 * n - 2 by ring, s3]; ring
  intro x y z h
  rw [mem_triples2 hn] at h
  rcases h with h | h | h | h | h | h | h
  · refine strip_tri hn (by decide) hi hin hu (W := fun k => B k + u * sw 7 n i k) ?_ h
    intro k h1 h2 h3
    simp only [hB k h1 h2, zero_add]
  all_goals
    simp only [List.cons.injEq, and_true] at h
    obtain ⟨rfl, rfl, rfl⟩ := h
    simp only
  · rw [norm_of_nonneg (by decide), norm_of_nonneg (by decide), norm_of_nonneg (by decide), lo _ (by decide), lo _ (by decide), lo _ (by decide)]; exact b.1
  · rw [norm_inv_of_nonneg (by decide), norm_of_nonneg (by decide), norm_of_nonneg (by decide), lo _ (by decide), lo _ (by decide), lo _ (by decide)]; exact b.2.1
  · rw [norm_inv_of_nonneg (by decide), norm_inv_of_nonneg (by decide), norm_inv_of_nonneg (by decide), lo _ (by decide), lo _ (by decide), lo _ (by decide)]; exact b.2.2.1
  · rw [norm_inv_of_nonneg (by decide), norm_of_nonneg (by decide), norm_of_nonneg (by decide), lo _ (by decide), lo _ (by decide), lo _ (by decide)]; exact b.2.2.2.1
  · rw [norm_inv_of_nonneg (by decide), norm_inv_of_nonneg (by omega), norm_inv_of_nonneg (by decide), lo _ (by decide), wl, w8]; exact b.2.2.2.2.1
  · rw [norm_inv_of_nonneg (by decide), norm_of_nonneg (by omega), norm_of_nonneg (by decide), lo _ (by decide), w7, w8]; exact b.2.2.2.2.2

theorem lawful3 (hn : 2 ≤ n) (hi : 0 ≤ i) (hin : i < n) (hu : u = 0 ∨ u = 1) (hB : ∀ k, 13 ≤ k → k ≠ 14 → B k = 0)
    (b : Tri3 (B 0) (B 1) (B 2) ∧ Tri3 (B 1) (B 3) (B 4) ∧ Tri3 (B 2) (B 3) (B 4) ∧ Tri3 (B 5) (B 6) (B 7) ∧ Tri3 (B 6) (B 8) (B 9) ∧ Tri3 (B 7) (B 8) (B 9) ∧
      Tri3 (B 10) (B 11) (B 12) ∧ Tri3 (B 11) u (B 14) ∧ Tri3 (B 12) u (B 14) ∧ Tri3 (B 0) (B 5) (B 10)) :
    Lawful (triples3 n) (fun k => B k + u * sw 13 n i k) := by
  obtain ⟨s1, s2, s3, s4⟩ := sw_at 13 n i hn hi hin
  have lo : ∀ k, k < 13 → B k + u * sw 13 n i k = B k := fun k hk => by rw [s4 k (by omega)]; ring
  have w7 : B 13 + u * sw 13 n i 13 = u := by rw [s1, hB 13 (by decide) (by decide)]; ring
  have w8 : B 14 + u * sw 13 n i 14 = B 14 := by rw [show (14 : Int) = 13 + 1 by rfl, s2]; ring
  have wl : B (3 * n + 11) + u * sw 13 n i (3 * n + 11) = u := by
    rw [hB _ (by omega) (by omega), show 3 * n + 11 = 13 + 3 * n - 2 by ring, s3]; ring
  obtain ⟨b1, b2, b3, b4, b5, b6, b7, b8, b9, b10⟩ := b
  intro x y z h
  rw [mem_triples3 hn] at h
  rcases h with h | h | h | h | h | h | h | h | h | h | h
  · refine strip_tri hn (by decide) hi hin hu (W := fun k => B k + u * sw 13 n i k) ?_ h
    intro k h1 h2 h3
    simp only [hB k h1 h2, zero_add]
  all_goals
    simp only [List.cons.injEq, and_true] at h
    obtain ⟨rfl, rfl, rfl⟩ := h
    simp only
  · rw [norm_of_nonneg (by decide), norm_of_nonneg (by decide), norm_of_nonneg (by decide), lo _ (by decide), lo _ (by decide), lo _ (by decide)]; exact b1
  · rw [norm_inv_of_nonneg (by decide), norm_of_nonneg (by decide), norm_of_nonneg (by decide), lo _ (by decide), lo _ (by decide), lo _ (by decide)]; exact b2
  · rw [norm_inv_of_nonneg (by decide), norm_inv_of_nonneg (by decide), norm_inv_of_nonneg (by decide), lo _ (by decide), lo _ (by decide), lo _ (by decide)]; exact b3
  · rw [norm_of_nonneg (by decide), norm_of_nonneg (by decide), norm_of_nonneg (by decide), lo _ (by decide), lo _ (by decide), lo _ (by decide)]; exact b4
  · rw [norm_inv_of_nonneg (by decide), norm_of_nonneg (by decide), norm_of_nonneg (by decide), lo _ (by decide), lo _ (by decide), lo _ (by decide)]; exact b5
  · rw [norm_inv_of_nonneg (by decide), norm_inv_of_nonneg (by decide), norm_inv_of_nonneg (by decide), lo _ (by decide), lo _ (by decide), lo _ (by decide)]; exact b6
  · rw [norm_of_nonneg (by decide), norm_of_nonneg (by decide), norm_of_nonneg (by decide), lo _ (by decide), lo _ (by decide), lo _ (by decide)]; exact b7
  · rw [norm_inv_of_nonneg (by decide), norm_of_nonneg (by decide), norm_of_nonneg (by decide), lo _ (by decide), w7, w8]; exact b8
  · rw [norm_inv_of_nonneg (by decide), norm_inv_of_nonneg (by omega), norm_inv_of_nonneg (by decide), lo _ (by decide), wl, w8]; exact b9
  · rw [norm_inv_of_nonneg (by decide), norm_inv_of_nonneg (by decide), norm_inv_of_nonneg (by decide), lo _ (by decide), lo _ (by decide), lo _ (by decide)]; exact b10

end

/-! ### `S_g_n` -/

/-- weights on an infinite row of one holed tori -/
def FB (B : Int → Int) : Prop := ∀ q, Tri3 (B (5 * q)) (B (5 * q + 1)) (B (5 * q + 2)) ∧ Tri3 (B (5 * q + 1)) (B (5 * q + 3)) (B (5 * q + 4)) ∧
  Tri3 (B (5 * q + 2)) (B (5 * q + 3)) (B (5 * q + 4))

/-- weights on the edges of the polygon in the centre -/
def Centre (g z : Int) (W : Int → Int) : Prop := Tri3 (W 0) (W 5) (W z) ∧ (∀ t, 0 ≤ t → t < g - 4 → Tri3 (W (z + 1 + t)) (W (z + t)) (W (5 * t + 10))) ∧
  Tri3 (W (z + g - 4)) (W (5 * g - 10)) (W (5 * g - 5))

theorem lawfulG_one {g i : Int} (hg : 4 ≤ g) {W B : Int → Int} (hB : FB B) (hk : ∀ k, 0 ≤ k → k < 5 * g → W k = B (k - 5 * i)) (hc : Centre g (5 * g) W) :
    Lawful (triplesG g 1) W := by
  have fin : ∀ j r, 0 ≤ j → j < g → 0 ≤ r → r < 5 → W (5 * j + r) = B (5 * (j - i) + r) := by
    intro j r h1 h2 h3 h4
    rw [hk _ (by omega) (by omega)]; congr 1; ring
  have fin0 : ∀ j, 0 ≤ j → j < g → W (5 * j) = B (5 * (j - i)) := by
    intro j h1 h2
    have := fin j 0 h1 h2 (by decide) (by decide)
    simpa using this
  intro a b c h
  unfold triplesG at h
  rw [if_pos rfl] at h
  simp only [List.mem_append, List.mem_map, mem_pyRange, List.mem_cons, List.not_mem_nil, or_false] at h
  rcases h with ((((⟨j, hj, h⟩ | ⟨j, hj, h⟩) | ⟨j, hj, h⟩) | h) | ⟨j, hj, h⟩) | h
  all_goals
    simp only [List.cons.injEq, and_true] at h
    obtain ⟨rfl, rfl, rfl⟩ := h
  · rw [norm_of_nonneg (by omega), norm_of_nonneg (by omega), norm_of_nonneg (by omega), fin _ _ hj.1 hj.2 (by decide) (by decide), fin _ _ hj.1 hj.2 (by decide) (by decide), fin _ _ hj.1 hj.2 (by decide) (by decide), add_zero]
    exact (hB _).1
  · rw [norm_inv_of_nonneg (by omega), norm_of_nonneg (by omega), norm_of_nonneg (by omega), fin _ _ hj.1 hj.2 (by decide) (by decide), fin _ _ hj.1 hj.2 (by decide) (by decide), fin _ _ hj.1 hj.2 (by decide) (by decide)]
    exact (hB _).2.1
  · rw [norm_inv_of_nonneg (by omega), norm_inv_of_nonneg (by omega), norm_inv_of_nonneg (by omega), fin _ _ hj.1 hj.2 (by decide) (by decide), fin _ _ hj.1 hj.2 (by decide) (by decide), fin _ _ hj.1 hj.2 (by decide) (by decide)]
    exact (hB _).2.2
  · rw [norm_inv_of_nonneg (by omega), norm_inv_of_nonneg (by omega), norm_of_nonneg (by omega)]
    exact hc.1
  · rw [norm_of_nonneg (by omega), norm_inv_of_nonneg (by omega), norm_inv_of_nonneg (by omega)]
    exact hc.2.1 j hj.1 hj.2
  · rw [norm_inv_of_nonneg (by omega), norm_inv_of_nonneg (by omega), norm_inv_of_nonneg (by omega)]
    exact hc.2.2

theorem lawfulG {g n i s u : Int} (hg : 4 ≤ g) (hn : 2 ≤ n) (hs : 0 ≤ s) (hsn : s < n) (hu : u = 0 ∨ u = 1) {W B : Int → Int} (hB : FB B)
    (hk : ∀ k, 0 ≤ k → k < 5 * g → W k = B (k - 5 * i)) (hstrip : ∀ k, 5 * g - 2 ≤ k → k ≠ 5 * g - 2 + 1 → k ≤ 5 * g - 2 + 3 * n - 2 → W k = u * sw (5 * g - 2) n s k)
    (hc : Centre g (5 * g + 3 * n - 3) W) : Lawful (triplesG g n) W := by
  have fin : ∀ j r, 0 ≤ j → j < g → 0 ≤ r → r < 5 → W (5 * j + r) = B (5 * (j - i) + r) := by
    intro j r h1 h2 h3 h4
    rw [hk _ (by omega) (by omega)]; congr 1; ring
  have fin0 : ∀ j, 0 ≤ j → j < g → W (5 * j) = B (5 * (j - i)) := by
    intro j h1 h2
    have := fin j 0 h1 h2 (by decide) (by decide)
    simpa using this
  obtain ⟨s1, s2, s3, s4⟩ := sw_at (5 * g - 2) n s hn hs hsn
  have hlast : W (5 * g - 2 + 3 * n - 2) = W (5 * (g - 1) + 3) := by
    rw [hstrip _ (by omega) (by omega) (by omega), s3, show 5 * (g - 1) + 3 = 5 * g - 2 by ring, hstrip _ (by omega) (by omega) (by omega), s1]
  intro a b c h
  rw [mem_triplesG hn] at h
  rcases h with h | ⟨j, hj, h⟩ | ⟨j, hj, h⟩ | ⟨j, hj, h⟩ | h | h | ⟨j, hj, h⟩ | h
  · exact strip_tri hn (by omega) hs hsn hu hstrip h
  all_goals
    simp only [List.cons.injEq, and_true] at h
    obtain ⟨rfl, rfl, rfl⟩ := h
  · rw [norm_of_nonneg (by omega), norm_of_nonneg (by omega), norm_of_nonneg (by omega), fin0 _ hj.1 hj.2, fin _ _ hj.1 hj.2 (by decide) (by decide), fin _ _ hj.1 hj.2 (by decide) (by decide)]
    exact (hB _).1
  · rw [norm_inv_of_nonneg (by omega), norm_of_nonneg (by omega), norm_of_nonneg (by omega), fin _ _ hj.1 hj.2 (by decide) (by decide), fin _ _ hj.1 hj.2 (by decide) (by decide), fin _ _ hj.1 hj.2 (by decide) (by decide)]
    exact (hB _).2.1
  · have hj' : j < g := by omega
    rw [norm_inv_of_nonneg (by omega), norm_inv_of_nonneg (by omega), norm_inv_of_nonneg (by omega), fin _ _ hj.1 hj' (by decide) (by decide), fin _ _ hj.1 hj' (by decide) (by decide), fin _ _ hj.1 hj' (by decide) (by decide)]
    exact (hB _).2.2
  · rw [norm_inv_of_nonneg (by omega), norm_inv_of_nonneg (by omega), norm_inv_of_nonneg (by omega), hlast, fin _ _ (by omega) (by omega) (by decide) (by decide),
      fin _ _ (by omega) (by omega) (by decide) (by decide), fin _ _ (by omega) (by omega) (by decide) (by decide)]
    exact (hB _).2.2
  · rw [norm_inv_of_nonneg (by omega), norm_inv_of_nonneg (by omega), norm_of_nonneg (by omega)]
    exact hc.1
  · rw [norm_of_nonneg (by omega), norm_inv_of_nonneg (by omega), norm_inv_of_nonneg (by omega)]
    exact hc.2.1 j hj.1 hj.2
  · rw [norm_inv_of_nonneg (by omega), norm_inv_of_nonneg (by omega), norm_inv_of_nonneg (by omega)]
    exact hc.2.2

end Curver
