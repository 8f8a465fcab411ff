import Verif.Proofs.LoadGenus
import Verif.Proofs.LoadSphere
import Verif.Proofs.Peripheral
import Verif.Proofs.PLMoves

namespace Curver
open Triangulation
variable {T : Triangulation}

/-- three weights which satisfy the triangle inequalities and have an even sum -/
def Tri3 (a b c : Int) : Prop := 0 ≤ a ∧ 0 ≤ b ∧ 0 ≤ c ∧ a ≤ b + c ∧ b ≤ c + a ∧ c ≤ a + b ∧ (a + b + c) % 2 = 0

instance (a b c : Int) : Decidable (Tri3 a b c) := by unfold Tri3; infer_instance

theorem Tri3.rot {a b c : Int} (h : Tri3 a b c) : Tri3 b c a := by unfold Tri3 at *; omega

def Lawful (ls : List (List Int)) (W : Int → Int) : Prop := ∀ a b c, [a, b, c] ∈ ls → Tri3 (W (norm a)) (W (norm b)) (W (norm c))

theorem noArcs_of_lawful {ls : List (List Int)} {W : Int → Int} (hT : T.Valid)
    (hg : ∀ a b c, T.Glues a b c → [a, b, c] ∈ ls ∨ [b, c, a] ∈ ls ∨ [c, a, b] ∈ ls) (hW : Lawful ls W) {L : Lam Int} (h1 : L.tri = T)
    (h2 : L.geometric.length = T.zeta) (hw : ∀ e, T.IsLabel e → L.w e = W (norm e)) : L.NoArcs := by
  subst h1
  have key : ∀ a b c, L.tri.Glues a b c → Tri3 (L.w a) (L.w b) (L.w c) := by
    intro a b c h
    obtain ⟨ha, hb, hc⟩ := hT.comp.label_of_glues h
    rw [hw a ha, hw b hb, hw c hc]
    rcases hg a b c h with h | h | h
    · exact hW _ _ _ h
    · exact (hW _ _ _ h).rot.rot
    · exact (hW _ _ _ h).rot
  rw [Lam.noArcs_iff, Lam.consistent_iff]
  refine ⟨⟨⟨hT, h2⟩, fun a b c h => ?_⟩, fun a b c h => ?_⟩
  · obtain ⟨k1, k2, k3, k4, k5, k6, k7⟩ := key a b c h
    intro _ _ _
    rw [max_eq_left k1, max_eq_left k2, max_eq_left k3]
    exact Int.even_iff.2 k7
  · have := key a b c h
    unfold Tri3 at this
    omega

/-- how often a label occurs in a cut sequence -/
def cw (l : List Int) (k : Int) : Int := (l.count k : Int)

theorem cw_append (l m : List Int) (k : Int) : cw (l ++ m) k = cw l k + cw m k := by unfold cw; rw [List.count_append]; push_cast; rfl

theorem cw_cons (a : Int) (l : List Int) (k : Int) : cw (a :: l) k = (if k = a then 1 else 0) + cw l k := by
  unfold cw
  rw [List.count_cons]
  by_cases h : k = a
  · subst h; simp [add_comm]
  · rw [if_neg h, if_neg (by simpa using Ne.symm h)]; simp

theorem cw_nil (k : Int) : cw [] k = 0 := rfl

theorem cw_shift (c : Int) (l : List Int) (k : Int) : cw (l.map (fun j => c + j)) k = cw l (k - c) := by
  unfold cw
  have := List.count_map_of_injective l (fun j => c + j) (fun a b h => by simpa using h) (k - c)
  rw [← this]; congr 2; ring

theorem cw_range1 (c m k : Int) : cw ((pyRange 0 m).map (fun j => c + j)) k = if c ≤ k ∧ k < c + m then 1 else 0 := by
  rw [cw_shift]
  unfold cw
  have hn : (pyRange 0 m).Nodup := by
    unfold pyRange
    exact (List.nodup_range).map (fun a b h => by simpa using h)
  rw [hn.count]
  simp only [mem_pyRange]
  split <;> split <;> first | rfl | omega

theorem cw_range2 (c m k : Int) : cw ((pyRange 0 m).map (fun j => c + 2 * j)) k = if (k - c) % 2 = 0 ∧ c ≤ k ∧ k < c + 2 * m then 1 else 0 := by
  unfold cw
  have hn : ((pyRange 0 m).map (fun j => c + 2 * j)).Nodup := by
    unfold pyRange
    rw [List.map_map]
    exact (List.nodup_range).map (fun a b h => by simp at h; omega)
  rw [hn.count]
  by_cases h : (k - c) % 2 = 0 ∧ c ≤ k ∧ k < c + 2 * m
  · rw [if_pos h, if_pos]
    · rfl
    · simp only [List.mem_map, mem_pyRange]
      exact ⟨(k - c) / 2, by omega, by omega⟩
  · rw [if_neg h, if_neg]
    · rfl
    · simp only [List.mem_map, mem_pyRange]
      rintro ⟨j, hj, rfl⟩
      omega

/-- the weights in the bigon of the curve `p_i`, and of `a_{g-1}` for `i = 0` -/
def sw (p n i k : Int) : Int :=
  if k < p ∨ p + 3 * n - 2 < k then 0
  else if k ≤ p + 2 * n - 1 then
    if (k - p) % 2 = 0 then (if (k - p) / 2 < n - i then 1 else 0) else (if (k - p - 1) / 2 = n - i then 1 else 0)
  else if p + 2 * n - 1 + i ≤ k then 1 else 0

theorem norm_inv_of_nonneg {e : Int} (h : 0 ≤ e) : norm (inv e) = e := by unfold norm inv; omega

theorem sw_even {p n i j k : Int} (h1 : 0 ≤ j) (h2 : j < n) (h : k = p + 2 * j) : sw p n i k = if j < n - i then 1 else 0 := by
  unfold sw
  rw [if_neg (by omega), if_pos (by omega), if_pos (by omega), show (k - p) / 2 = j by omega]

theorem sw_odd {p n i j k : Int} (h0 : 2 ≤ n) (h1 : 0 ≤ j) (h2 : j < n) (h : k = p + 2 * j + 1) : sw p n i k = if j = n - i then 1 else 0 := by
  unfold sw
  rw [if_neg (by omega), if_pos (by omega), if_neg (by omega), show (k - p - 1) / 2 = j by omega]

theorem sw_top {p n i j k : Int} (h1 : 0 ≤ j) (h2 : j ≤ n - 2) (h : k = p + 2 * n + j) : sw p n i k = if i ≤ j + 1 then 1 else 0 := by
  unfold sw
  rw [if_neg (by omega), if_neg (by omega)]
  split <;> split <;> first | rfl | omega

theorem strip_tri {p n i u : Int} {W : Int → Int} (hn : 2 ≤ n) (hp : 0 ≤ p) (hi : 0 ≤ i) (hin : i < n) (hu : u = 0 ∨ u = 1)
    (hW : ∀ k, p ≤ k → k ≠ p + 1 → k ≤ p + 3 * n - 2 → W k = u * sw p n i k) {a b c : Int} (h : IsStrip p n [a, b, c]) :
    Tri3 (W (norm a)) (W (norm b)) (W (norm c)) := by
  rcases h with ⟨j, hj, h⟩ | h | ⟨j, hj, h⟩
  all_goals
    simp only [List.cons.injEq, and_true] at h
    obtain ⟨rfl, rfl, rfl⟩ := h
  · rw [norm_inv_of_nonneg (by omega), norm_of_nonneg (by omega), norm_of_nonneg (by omega), hW _ (by omega) (by omega) (by omega),
      hW _ (by omega) (by omega) (by omega), hW _ (by omega) (by omega) (by omega), sw_even (j := j) (by omega) (by omega) rfl,
      sw_even (j := j + 1) (by omega) (by omega) (by ring), sw_odd (j := j + 1) hn (by omega) (by omega) (by ring)]
    unfold Tri3
    rcases hu with rfl | rfl <;> split_ifs <;> omega
  · rw [norm_of_nonneg (by omega), norm_inv_of_nonneg (by omega), norm_inv_of_nonneg (by omega), hW _ (by omega) (by omega) (by omega),
      hW _ (by omega) (by omega) (by omega), hW _ (by omega) (by omega) (by omega), sw_top (j := 0) (by omega) (by omega) (by ring),
      sw_odd (j := n - 1) hn (by omega) (by omega) (by ring), sw_even (j := n - 1) (by omega) (by omega) (by ring)]
    unfold Tri3
    rcases hu with rfl | rfl <;> split_ifs <;> omega
  · rw [norm_of_nonneg (by omega), norm_inv_of_nonneg (by omega), norm_inv_of_nonneg (by omega), hW _ (by omega) (by omega) (by omega),
      hW _ (by omega) (by omega) (by omega), hW _ (by omega) (by omega) (by omega), sw_top (j := j) (by omega) (by omega) rfl,
      sw_odd (j := n - 1 - j) hn (by omega) (by omega) (by ring), sw_top (j := j - 1) (by omega) (by omega) (by ring)]
    unfold Tri3
    rcases hu with rfl | rfl <;> split_ifs <;> omega

/-- the tail of the cut sequence of `a_{g-1}` -/
theorem cw_a (p n k : Int) (hn : 2 ≤ n) : cw ((pyRange 0 n).map (fun j => p + 2 * j) ++ (pyRange 0 (n - 1)).map (fun j => p + 2 * n + j)) k = sw p n 0 k := by
  rw [cw_append, cw_range2, cw_range1]
  unfold sw
  split_ifs <;> omega

/-- the tail of the cut sequence of `p_i` -/
theorem cw_p (p n i k : Int) (hn : 2 ≤ n) (hi : 1 ≤ i) (hin : i < n) :
    cw ((pyRange 0 (n - i)).map (fun j => p + 2 * j) ++ [p + 2 * n + 1 - 2 * i] ++ (pyRange 0 (n - i)).map (fun j => p + 2 * n - 1 + i + j)) k = sw p n i k := by
  rw [cw_append, cw_append, cw_range2, cw_range1, cw_cons, cw_nil]
  unfold sw
  split_ifs <;> omega

theorem sw_at (p n i : Int) (hn : 2 ≤ n) (hi : 0 ≤ i) (hin : i < n) :
    sw p n i p = 1 ∧ sw p n i (p + 1) = 0 ∧ sw p n i (p + 3 * n - 2) = 1 ∧ (∀ k, k < p ∨ p + 3 * n - 2 < k → sw p n i k = 0) := by
  refine ⟨?_, ?_, ?_, fun k h => if_pos h⟩
  all_goals unfold sw; split_ifs <;> omega

/-- the weights of a list -/
def vw (l : List Int) (k : Int) : Int := (l[k.toNat]?).getD 0

theorem vw_append (l m : List Int) {k : Int} (hk : 0 ≤ k) : vw (l ++ m) k = if k < l.length then vw l k else vw m (k - l.length) := by
  unfold vw
  split
  · rw [List.getElem?_append_left (by omega)]
  · rw [List.getElem?_append_right (by omega)]; congr 3; omega

theorem pyRep_one (x : Int) (m : Int) : pyRep [x] m = List.replicate m.toNat x := by
  unfold pyRep
  induction m.toNat with
  | zero => rfl
  | succ k ih => rw [List.replicate_succ, List.flatten_cons, ih]; rfl

theorem vw_rep1 (x m : Int) {k : Int} (hk : 0 ≤ k) : vw (pyRep [x] m) k = if k < m then x else 0 := by
  rw [pyRep_one]
  unfold vw
  rw [List.getElem?_replicate]
  split <;> split <;> first | rfl | omega

theorem length_rep {α : Type} (l : List α) (m : Int) : (pyRep l m).length = m.toNat * l.length := by
  unfold pyRep; simp

theorem vw_rep2 (m : Int) {k : Int} (hk : 0 ≤ k) : vw (pyRep [1, 0] m) k = if k < 2 * m ∧ k % 2 = 0 then 1 else 0 := by
  have : ∀ (t j : Nat), ((List.replicate t [(1 : Int), 0]).flatten[j]?).getD 0 = if j < 2 * t ∧ j % 2 = 0 then 1 else 0 := by
    intro t
    induction t with
    | zero => intro j; simp
    | succ t ih =>
      intro j
      rw [List.replicate_succ, List.flatten_cons]
      match j with
      | 0 => simp
      | 1 => simp
      | j + 2 =>
        simp only [List.cons_append, List.nil_append, List.getElem?_cons_succ]
        rw [ih]
        split <;> split <;> first | rfl | omega
  unfold vw pyRep
  rw [this]
  split <;> split <;> first | rfl | omega

/-- the tail of the weights of `d_{g-1}` -/
theorem vw_d (n k : Int) (hn : 2 ≤ n) (hk : 0 ≤ k) : vw ([1, 0] ++ pyRep [1, 0] (n - 1) ++ pyRep [1] (n - 1)) k = sw 0 n 0 k := by
  have h2 : vw [1, 0] k = if k = 0 then 1 else 0 := by
    by_cases h : k = 0
    · subst h; rfl
    · rw [if_neg h]
      unfold vw
      obtain ⟨j, hj⟩ : ∃ j, k.toNat = j + 1 := ⟨k.toNat - 1, by omega⟩
      rw [hj]
      cases j <;> rfl
  rw [vw_append _ _ hk, List.length_append, length_rep]
  simp only [List.length_cons, List.length_nil]
  unfold sw
  by_cases c : k < 2 * n
  · rw [if_pos (by push_cast; omega), vw_append _ _ hk]
    simp only [List.length_cons, List.length_nil]
    by_cases c2 : k < 2
    · rw [if_pos (by push_cast; omega), h2]
      split_ifs <;> omega
    · rw [if_neg (by push_cast; omega), vw_rep2 _ (by push_cast; omega)]
      push_cast
      split_ifs <;> omega
  · rw [if_neg (by push_cast; omega), vw_rep1 _ _ (by push_cast; omega)]
    push_cast
    split_ifs <;> omega

end Curver
