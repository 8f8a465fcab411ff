import Verif.Proofs.LoadAll

namespace Curver
open Triangulation

/-- a list vanishes away from its entries -/
theorem cw_zero {l : List Int} {k : Int} (h : k ∉ l) : cw l k = 0 := by unfold cw; rw [List.count_eq_zero.2 h]; rfl

theorem vw_ge {l : List Int} {k : Int} (h : (l.length : Int) ≤ k) : vw l k = 0 := by
  unfold vw; rw [List.getElem?_eq_none (by omega)]; rfl

/-- the weights of `d_{g-1}` -/
theorem vw_last {pre : List Int} {p n : Int} (hp : (pre.length : Int) = p) (hn : 2 ≤ n) (k : Int) (hk : 0 ≤ k) :
    vw (pre ++ [1, 0] ++ pyRep [1, 0] (n - 1) ++ pyRep [1] (n - 1)) k = vw pre k + 1 * sw p n 0 k := by
  have : pre ++ [1, 0] ++ pyRep [1, 0] (n - 1) ++ pyRep [1] (n - 1) = pre ++ ([1, 0] ++ pyRep [1, 0] (n - 1) ++ pyRep [1] (n - 1)) := by simp
  rw [this, vw_append _ _ hk, hp]
  split
  · rw [(sw_at p n 0 hn le_rfl (by omega)).2.2.2 k (by omega)]; ring
  · rw [vw_ge (l := pre) (by omega), vw_d n _ hn (by omega)]
    unfold sw
    rw [show k - p - 0 = k - p by ring]
    split_ifs <;> omega

theorem length_last {pre : List Int} {n : Int} (hn : 2 ≤ n) : ((pre ++ [1, 0] ++ pyRep [1, 0] (n - 1) ++ pyRep [1] (n - 1)).length : Int) = pre.length + 3 * n - 1 := by
  simp only [List.length_append, length_rep, List.length_cons, List.length_nil]
  push_cast; omega

theorem loads2_one : ∃ S, load 2 1 = .ok S ∧ Loads 2 1 S := by
  have key := loads_of builds2_one (cs := fun T => [
      (('a', 0), .ok (T.curveFromCutSequence [1, 2, 3])),
      (('a', 1), .ok (T.curveFromCutSequence [5, 6, 7])),
      (('b', 0), .ok (T.curveFromCutSequence [1, 2, 4])),
      (('b', 1), .ok (T.curveFromCutSequence [5, 6, 8])),
      (('c', 0), .ok (T.curveFromCutSequence [0, 1, 2, 3, 0, 5, 6, 7])),
      (('d', 1), T.lamOfWeights [2, 2, 2, 2, 2, 1, 1, 1, 0])])
    (as := fun _ => []) rfl ?_ ?_ (fun _ _ h => by cases h) (fun T => noArcNames (T := T))
  · exact key
  · intro T hT hz x hx
    push_cast at hz
    simp only [List.mem_cons, List.not_mem_nil, or_false] at hx
    rcases hx with rfl | rfl | rfl | rfl | rfl | rfl
    · exact good_cut hT (by decide) (W := cw [1, 2, 3]) (lawful_of_all (by decide +kernel)) (fun _ _ => rfl) (x := 1) (by simp) (by omega)
    · exact good_cut hT (by decide) (W := cw [5, 6, 7]) (lawful_of_all (by decide +kernel)) (fun _ _ => rfl) (x := 5) (by simp) (by omega)
    · exact good_cut hT (by decide) (W := cw [1, 2, 4]) (lawful_of_all (by decide +kernel)) (fun _ _ => rfl) (x := 1) (by simp) (by omega)
    · exact good_cut hT (by decide) (W := cw [5, 6, 8]) (lawful_of_all (by decide +kernel)) (fun _ _ => rfl) (x := 5) (by simp) (by omega)
    · exact good_cut hT (by decide) (W := cw [0, 1, 2, 3, 0, 5, 6, 7]) (lawful_of_all (by decide +kernel)) (fun _ _ => rfl) (x := 0) (by simp) (by omega)
    · exact good_vec hT (by simp; omega) (W := vw [2, 2, 2, 2, 2, 1, 1, 1, 0]) (lawful_of_all (by decide +kernel)) (fun _ _ => rfl) (by decide)
  · names

set_option maxHeartbeats 1000000 in
theorem loads2 {n : Int} (hn : 2 ≤ n) : ∃ S, load 2 n = .ok S ∧ Loads 2 n S := by
  have key := loads_of (builds2 hn) (cs := fun T => [
      (('a', 0), .ok (T.curveFromCutSequence [1, 2, 3])),
      (('a', 1), .ok (T.curveFromCutSequence ([6, 5] ++ (pyRange 0 n).map (fun j => 7 + j * 2) ++ (pyRange 0 (n - 1)).map (fun j => 2 * n + 7 + j)))),
      (('b', 0), .ok (T.curveFromCutSequence [1, 2, 4])),
      (('b', 1), .ok (T.curveFromCutSequence [5, 6, 8])),
      (('c', 0), .ok (T.curveFromCutSequence ([6, 0, 2, 4, 1, 2, 3, 4, 2, 0, 5] ++ (pyRange 0 n).map (fun j => 7 + j * 2) ++ (pyRange 0 (n - 1)).map (fun j => 2 * n + 7 + j)))),
      (('d', 1), T.lamOfWeights ([2, 2, 2, 2, 2, 1, 1, 1, 0] ++ pyRep [1, 0] (n - 1) ++ pyRep [1] (n - 1)))]
      ++ (pyRange 1 n).map (fun i => (('p', i), .ok (T.curveFromCutSequence ([6, 5] ++ (pyRange 0 (n - i)).map (fun j => 7 + j * 2) ++ [2 * n + 8 - 2 * i]
        ++ (pyRange 0 (n - i)).map (fun j => 2 * n + 6 + i + j))))))
    (as := fun T => [(('s', 0), .ok (T.edgeArc (2 * n + 5)))] ++ (pyRange 1 n).map (fun i => (('s', i), .ok (T.edgeArc (2 * n + 8 - 2 * i))))) ?_ ?_ ?_ ?_ ?_
  · exact key
  · unfold load load2
    simp only [Nat.cast_ofNat]
    rw [if_neg (by omega)]
    simp only [pyAssert, show (1 : Int) ≤ n by omega, decide_true, if_true, py_bind_ok, show ¬ n = 1 by omega, if_false, reduceIte, Int.reduceEq]
  · intro T hT hz x hx
    push_cast at hz
    simp only [List.mem_append, List.mem_map, mem_pyRange, List.mem_cons, List.not_mem_nil, or_false] at hx
    rcases hx with (rfl | rfl | rfl | rfl | rfl | rfl) | ⟨i, hi, rfl⟩
    · refine good_cut hT (by decide) (lawful2 (B := cw [1, 2, 3]) (u := 0) (i := 0) hn le_rfl (by omega) (.inl rfl) ?_ (by decide +kernel)) ?_ (x := 1) (by simp) (by omega)
      · intro k h1 h2; exact cw_zero (by simp; omega)
      · intro k hk; simp
    · rw [range_mul]
      refine good_cut hT ?_ (lawful2 (B := cw [6, 5]) (u := 1) (i := 0) hn le_rfl (by omega) (.inr rfl) ?_ (by decide +kernel)) ?_ (x := 6) (by simp) (by omega)
      · intro x hx
        rw [List.mem_append, List.mem_append] at hx
        rcases hx with (hx | hx) | hx
        · revert x; decide
        · exact nonneg_range2 (by omega) hx
        · exact nonneg_range1 (by omega) hx
      · intro k h1 h2; exact cw_zero (by simp; omega)
      · intro k hk
        rw [List.append_assoc, cw_append, show 2 * n + 7 = 7 + 2 * n by ring, cw_a 7 n k hn, one_mul]
    · refine good_cut hT (by decide) (lawful2 (B := cw [1, 2, 4]) (u := 0) (i := 0) hn le_rfl (by omega) (.inl rfl) ?_ (by decide +kernel)) ?_ (x := 1) (by simp) (by omega)
      · intro k h1 h2; exact cw_zero (by simp; omega)
      · intro k hk; simp
    · refine good_cut hT (by decide) (lawful2 (B := cw [5, 6, 8]) (u := 0) (i := 0) hn le_rfl (by omega) (.inl rfl) ?_ (by decide +kernel)) ?_ (x := 5) (by simp) (by omega)
      · intro k h1 h2; exact cw_zero (by simp; omega)
      · intro k hk; simp
    · rw [range_mul]
      refine good_cut hT ?_ (lawful2 (B := cw [6, 0, 2, 4, 1, 2, 3, 4, 2, 0, 5]) (u := 1) (i := 0) hn le_rfl (by omega) (.inr rfl) ?_ (by decide +kernel)) ?_ (x := 6) (by simp) (by omega)
      · intro x hx
        rw [List.mem_append, List.mem_append] at hx
        rcases hx with (hx | hx) | hx
        · revert x; decide
        · exact nonneg_range2 (by omega) hx
        · exact nonneg_range1 (by omega) hx
      · intro k h1 h2; exact cw_zero (by simp; omega)
      · intro k hk
        rw [List.append_assoc, cw_append, show 2 * n + 7 = 7 + 2 * n by ring, cw_a 7 n k hn, one_mul]
    · have e : [2, 2, 2, 2, 2, 1, 1, 1, 0] ++ pyRep [1, 0] (n - 1) ++ pyRep [1] (n - 1) = ([2, 2, 2, 2, 2, 1, 1] : List Int) ++ [1, 0] ++ pyRep [1, 0] (n - 1) ++ pyRep [1] (n - 1) := by simp
      rw [e]
      refine good_vec hT ?_ (lawful2 (B := vw [2, 2, 2, 2, 2, 1, 1]) (u := 1) (i := 0) hn le_rfl (by omega) (.inr rfl) ?_ (by decide +kernel)) (vw_last (p := 7) (by simp) hn) (by simp [vw])
      · have := length_last (pre := [2, 2, 2, 2, 2, 1, 1]) hn
        simp only [List.length_cons, List.length_nil] at this
        push_cast at this
        have h2 : ((([2, 2, 2, 2, 2, 1, 1] : List Int) ++ [1, 0] ++ pyRep [1, 0] (n - 1) ++ pyRep [1] (n - 1)).length : Int) = T.zeta := by rw [this]; omega
        exact_mod_cast h2
      · intro k h1 h2; exact vw_ge (by simp; omega)
    · rw [range_mul]
      refine good_cut hT ?_ (lawful2 (B := cw [6, 5]) (u := 1) (i := i) hn (by omega) hi.2 (.inr rfl) ?_ (by decide +kernel)) ?_ (x := 6) (by simp) (by omega)
      · intro x hx
        rw [List.mem_append, List.mem_append, List.mem_append] at hx
        rcases hx with ((hx | hx) | hx) | hx
        · revert x; decide
        · exact nonneg_range2 (by omega) hx
        · simp at hx; omega
        · exact nonneg_range1 (by omega) hx
      · intro k h1 h2; exact cw_zero (by simp; omega)
      · intro k hk
        rw [List.append_assoc, List.append_assoc, cw_append, ← List.append_assoc, show 2 * n + 8 - 2 * i = 7 + 2 * n + 1 - 2 * i by ring, show 2 * n + 6 + i = 7 + 2 * n - 1 + i by ring, cw_p 7 n i k hn hi.1 hi.2, one_mul]
  · names
  · intro T x hx
    push_cast
    simp only [List.mem_append, List.mem_map, mem_pyRange, List.mem_cons, List.not_mem_nil, or_false] at hx
    rcases hx with rfl | ⟨i, hi, rfl⟩
    · exact ⟨_, rfl, by omega, by omega, stripArc hn (by omega) (.inl (by ring))⟩
    · exact ⟨_, rfl, by omega, by omega, stripArc hn (by omega) (.inr ⟨i, hi.1, hi.2, by ring⟩)⟩
  · exact fun T => arcNames n hn _ _

theorem loads3_one : ∃ S, load 3 1 = .ok S ∧ Loads 3 1 S := by
  have key := loads_of builds3_one (cs := fun T => [
      (('a', 0), .ok (T.curveFromCutSequence [1, 2, 3])),
      (('a', 1), .ok (T.curveFromCutSequence [6, 7, 8])),
      (('a', 2), .ok (T.curveFromCutSequence [11, 12, 13])),
      (('b', 0), .ok (T.curveFromCutSequence [1, 2, 4])),
      (('b', 1), .ok (T.curveFromCutSequence [6, 7, 9])),
      (('b', 2), .ok (T.curveFromCutSequence [11, 12, 14])),
      (('c', 0), .ok (T.curveFromCutSequence [0, 2, 4, 1, 2, 3, 4, 2, 0, 5, 6, 8, 7, 5])),
      (('c', 1), .ok (T.curveFromCutSequence [5, 7, 9, 6, 7, 8, 9, 7, 5, 10, 11, 13, 12, 10])),
      (('d', 1), T.lamOfWeights [2, 2, 2, 2, 2, 2, 1, 1, 1, 0, 0, 0, 0, 0, 0]),
      (('d', 2), T.lamOfWeights [2, 2, 2, 2, 2, 2, 2, 2, 2, 2, 2, 1, 1, 1, 0])])
    (as := fun _ => []) rfl ?_ ?_ (fun _ _ h => by cases h) (fun T => noArcNames (T := T))
  · exact key
  · intro T hT hz x hx
    push_cast at hz
    simp only [List.mem_cons, List.not_mem_nil, or_false] at hx
    rcases hx with rfl | rfl | rfl | rfl | rfl | rfl | rfl | rfl | rfl | rfl
    · exact good_cut hT (by decide) (W := cw [1, 2, 3]) (lawful_of_all (by decide +kernel)) (fun _ _ => rfl) (x := 1) (by simp) (by omega)
    · exact good_cut hT (by decide) (W := cw [6, 7, 8]) (lawful_of_all (by decide +kernel)) (fun _ _ => rfl) (x := 6) (by simp) (by omega)
    · exact good_cut hT (by decide) (W := cw [11, 12, 13]) (lawful_of_all (by decide +kernel)) (fun _ _ => rfl) (x := 11) (by simp) (by omega)
    · exact good_cut hT (by decide) (W := cw [1, 2, 4]) (lawful_of_all (by decide +kernel)) (fun _ _ => rfl) (x := 1) (by simp) (by omega)
    · exact good_cut hT (by decide) (W := cw [6, 7, 9]) (lawful_of_all (by decide +kernel)) (fun _ _ => rfl) (x := 6) (by simp) (by omega)
    · exact good_cut hT (by decide) (W := cw [11, 12, 14]) (lawful_of_all (by decide +kernel)) (fun _ _ => rfl) (x := 11) (by simp) (by omega)
    · exact good_cut hT (by decide) (W := cw [0, 2, 4, 1, 2, 3, 4, 2, 0, 5, 6, 8, 7, 5]) (lawful_of_all (by decide +kernel)) (fun _ _ => rfl) (x := 0) (by simp) (by omega)
    · exact good_cut hT (by decide) (W := cw [5, 7, 9, 6, 7, 8, 9, 7, 5, 10, 11, 13, 12, 10]) (lawful_of_all (by decide +kernel)) (fun _ _ => rfl) (x := 5) (by simp) (by omega)
    · exact good_vec hT (by simp; omega) (W := vw [2, 2, 2, 2, 2, 2, 1, 1, 1, 0, 0, 0, 0, 0, 0]) (lawful_of_all (by decide +kernel)) (fun _ _ => rfl) (by decide)
    · exact good_vec hT (by simp; omega) (W := vw [2, 2, 2, 2, 2, 2, 2, 2, 2, 2, 2, 1, 1, 1, 0]) (lawful_of_all (by decide +kernel)) (fun _ _ => rfl) (by decide)
  · names

set_option maxHeartbeats 1000000 in
theorem loads3 {n : Int} (hn : 2 ≤ n) : ∃ S, load 3 n = .ok S ∧ Loads 3 n S := by
  have key := loads_of (builds3 hn) (cs := fun T => [
      (('a', 0), .ok (T.curveFromCutSequence [1, 2, 3])),
      (('a', 1), .ok (T.curveFromCutSequence [6, 7, 8])),
      (('a', 2), .ok (T.curveFromCutSequence ([12, 11] ++ (pyRange 0 n).map (fun j => 13 + j * 2) ++ (pyRange 0 (n - 1)).map (fun j => 2 * n + 13 + j)))),
      (('b', 0), .ok (T.curveFromCutSequence [1, 2, 4])),
      (('b', 1), .ok (T.curveFromCutSequence [6, 7, 9])),
      (('b', 2), .ok (T.curveFromCutSequence [11, 12, 14])),
      (('c', 0), .ok (T.curveFromCutSequence [0, 2, 4, 3, 2, 1, 4, 2, 0, 5, 7, 8, 6, 5])),
      (('c', 1), .ok (T.curveFromCutSequence ([12, 10, 5, 7, 9, 6, 7, 8, 9, 7, 5, 10, 11] ++ (pyRange 0 n).map (fun j => 13 + j * 2) ++ (pyRange 0 (n - 1)).map (fun j => 2 * n + 13 + j)))),
      (('d', 1), T.lamOfWeights ([2, 2, 2, 2, 2, 2, 1, 1, 1] ++ pyRep [0] (3 * n + 3))),
      (('d', 2), T.lamOfWeights ([2, 2, 2, 2, 2, 2, 2, 2, 2, 2, 2, 1, 1, 1, 0] ++ pyRep [1, 0] (n - 1) ++ pyRep [1] (n - 1)))]
      ++ (pyRange 1 n).map (fun i => (('p', i), .ok (T.curveFromCutSequence ([12, 11] ++ (pyRange 0 (n - i)).map (fun j => 13 + j * 2) ++ [2 * n + 14 - 2 * i]
        ++ (pyRange 0 (n - i)).map (fun j => 2 * n + 12 + i + j))))))
    (as := fun T => [(('s', 0), .ok (T.edgeArc (2 * n + 11)))] ++ (pyRange 1 n).map (fun i => (('s', i), .ok (T.edgeArc (2 * n + 14 - 2 * i))))) ?_ ?_ ?_ ?_ ?_
  · exact key
  · unfold load load3
    simp only [Nat.cast_ofNat]
    rw [if_neg (by omega)]
    simp only [pyAssert, show (1 : Int) ≤ n by omega, decide_true, if_true, py_bind_ok, show ¬ n = 1 by omega, if_false, reduceIte, Int.reduceEq]
  · intro T hT hz x hx
    push_cast at hz
    simp only [List.mem_append, List.mem_map, mem_pyRange, List.mem_cons, List.not_mem_nil, or_false] at hx
    rcases hx with (rfl | rfl | rfl | rfl | rfl | rfl | rfl | rfl | rfl | rfl) | ⟨i, hi, rfl⟩
    · refine good_cut hT (by decide) (lawful3 (B := cw [1, 2, 3]) (u := 0) (i := 0) hn le_rfl (by omega) (.inl rfl) ?_ (by decide +kernel)) ?_ (x := 1) (by simp) (by omega)
      · intro k h1 h2; exact cw_zero (by simp; omega)
      · intro k hk; simp
    · refine good_cut hT (by decide) (lawful3 (B := cw [6, 7, 8]) (u := 0) (i := 0) hn le_rfl (by omega) (.inl rfl) ?_ (by decide +kernel)) ?_ (x := 6) (by simp) (by omega)
      · intro k h1 h2; exact cw_zero (by simp; omega)
      · intro k hk; simp
    · rw [range_mul]
      refine good_cut hT ?_ (lawful3 (B := cw [12, 11]) (u := 1) (i := 0) hn le_rfl (by omega) (.inr rfl) ?_ (by decide +kernel)) ?_ (x := 12) (by simp) (by omega)
      · intro x hx
        rw [List.mem_append, List.mem_append] at hx
        rcases hx with (hx | hx) | hx
        · revert x; decide
        · exact nonneg_range2 (by omega) hx
        · exact nonneg_range1 (by omega) hx
      · intro k h1 h2; exact cw_zero (by simp; omega)
      · intro k hk
        rw [List.append_assoc, cw_append, show 2 * n + 13 = 13 + 2 * n by ring, cw_a 13 n k hn, one_mul]
    · refine good_cut hT (by decide) (lawful3 (B := cw [1, 2, 4]) (u := 0) (i := 0) hn le_rfl (by omega) (.inl rfl) ?_ (by decide +kernel)) ?_ (x := 1) (by simp) (by omega)
      · intro k h1 h2; exact cw_zero (by simp; omega)
      · intro k hk; simp
    · refine good_cut hT (by decide) (lawful3 (B := cw [6, 7, 9]) (u := 0) (i := 0) hn le_rfl (by omega) (.inl rfl) ?_ (by decide +kernel)) ?_ (x := 6) (by simp) (by omega)
      · intro k h1 h2; exact cw_zero (by simp; omega)
      · intro k hk; simp
    · refine good_cut hT (by decide) (lawful3 (B := cw [11, 12, 14]) (u := 0) (i := 0) hn le_rfl (by omega) (.inl rfl) ?_ (by decide +kernel)) ?_ (x := 11) (by simp) (by omega)
      · intro k h1 h2; exact cw_zero (by simp; omega)
      · intro k hk; simp
    · refine good_cut hT (by decide) (lawful3 (B := cw [0, 2, 4, 3, 2, 1, 4, 2, 0, 5, 7, 8, 6, 5]) (u := 0) (i := 0) hn le_rfl (by omega) (.inl rfl) ?_ (by decide +kernel)) ?_ (x := 0) (by simp) (by omega)
      · intro k h1 h2; exact cw_zero (by simp; omega)
      · intro k hk; simp
    · rw [range_mul]
      refine good_cut hT ?_ (lawful3 (B := cw [12, 10, 5, 7, 9, 6, 7, 8, 9, 7, 5, 10, 11]) (u := 1) (i := 0) hn le_rfl (by omega) (.inr rfl) ?_ (by decide +kernel)) ?_ (x := 12) (by simp) (by omega)
      · intro x hx
        rw [List.mem_append, List.mem_append] at hx
        rcases hx with (hx | hx) | hx
        · revert x; decide
        · exact nonneg_range2 (by omega) hx
        · exact nonneg_range1 (by omega) hx
      · intro k h1 h2; exact cw_zero (by simp; omega)
      · intro k hk
        rw [List.append_assoc, cw_append, show 2 * n + 13 = 13 + 2 * n by ring, cw_a 13 n k hn, one_mul]
    · refine good_vec hT ?_ (lawful3 (B := vw [2, 2, 2, 2, 2, 2, 1, 1, 1]) (u := 0) (i := 0) hn le_rfl (by omega) (.inl rfl) ?_ (by decide +kernel)) ?_ ?_
      · have : ((([2, 2, 2, 2, 2, 2, 1, 1, 1] ++ pyRep [0] (3 * n + 3) : List Int).length : Nat) : Int) = T.zeta := by
          simp only [List.length_append, length_rep, List.length_cons, List.length_nil]; push_cast; omega
        exact_mod_cast this
      · intro k h1 h2; exact vw_ge (by simp; omega)
      · intro k hk
        rw [vw_append _ _ hk]
        split
        · ring
        · rename_i hc
          rw [vw_rep1 _ _ (by omega), vw_ge (by omega)]; split <;> ring
      · simp [vw]
    · have e : [2, 2, 2, 2, 2, 2, 2, 2, 2, 2, 2, 1, 1, 1, 0] ++ pyRep [1, 0] (n - 1) ++ pyRep [1] (n - 1) = ([2, 2, 2, 2, 2, 2, 2, 2, 2, 2, 2, 1, 1] : List Int) ++ [1, 0] ++ pyRep [1, 0] (n - 1) ++ pyRep [1] (n - 1) := by simp
      rw [e]
      refine good_vec hT ?_ (lawful3 (B := vw [2, 2, 2, 2, 2, 2, 2, 2, 2, 2, 2, 1, 1]) (u := 1) (i := 0) hn le_rfl (by omega) (.inr rfl) ?_ (by decide +kernel)) (vw_last (p := 13) (by simp) hn) (by simp [vw])
      · have := length_last (pre := [2, 2, 2, 2, 2, 2, 2, 2, 2, 2, 2, 1, 1]) hn
        simp only [List.length_cons, List.length_nil] at this
        push_cast at this
        have h2 : ((([2, 2, 2, 2, 2, 2, 2, 2, 2, 2, 2, 1, 1] : List Int) ++ [1, 0] ++ pyRep [1, 0] (n - 1) ++ pyRep [1] (n - 1)).length : Int) = T.zeta := by rw [this]; omega
        exact_mod_cast h2
      · intro k h1 h2; exact vw_ge (by simp; omega)
    · rw [range_mul]
      refine good_cut hT ?_ (lawful3 (B := cw [12, 11]) (u := 1) (i := i) hn (by omega) hi.2 (.inr rfl) ?_ (by decide +kernel)) ?_ (x := 12) (by simp) (by omega)
      · intro x hx
        rw [List.mem_append, List.mem_append, List.mem_append] at hx
        rcases hx with ((hx | hx) | hx) | hx
        · revert x; decide
        · exact nonneg_range2 (by omega) hx
        · simp at hx; omega
        · exact nonneg_range1 (by omega) hx
      · intro k h1 h2; exact cw_zero (by simp; omega)
      · intro k hk
        rw [List.append_assoc, List.append_assoc, cw_append, ← List.append_assoc, show 2 * n + 14 - 2 * i = 13 + 2 * n + 1 - 2 * i by ring, show 2 * n + 12 + i = 13 + 2 * n - 1 + i by ring, cw_p 13 n i k hn hi.1 hi.2, one_mul]
  · names
  · intro T x hx
    push_cast
    simp only [List.mem_append, List.mem_map, mem_pyRange, List.mem_cons, List.not_mem_nil, or_false] at hx
    rcases hx with rfl | ⟨i, hi, rfl⟩
    · exact ⟨_, rfl, by omega, by omega, stripArc hn (by omega) (.inl (by ring))⟩
    · exact ⟨_, rfl, by omega, by omega, stripArc hn (by omega) (.inr ⟨i, hi.1, hi.2, by ring⟩)⟩
  · exact fun T => arcNames n hn _ _

end Curver
