import Verif.Proofs.LoadHigh

namespace Curver
open Triangulation

theorem nonneg_shift {c x : Int} {l : List Int} (hc : 0 ≤ c) (hl : ∀ y ∈ l, 0 ≤ y) (h : x ∈ l.map (fun j => c + j)) : 0 ≤ x := by
  obtain ⟨y, hy, rfl⟩ := List.mem_map.1 h
  have := hl y hy; omega

section
variable {T : Triangulation} {g n : Int}

theorem good_local (hg : 4 ≤ g) (hn : 1 ≤ n) (hT : Site T (triplesG g n)) (hz : (T.zeta : Int) = 6 * g + 3 * n - 6) {i x : Int} {l : List Int} (h0 : 0 ≤ i) (h1 : i < g)
    (hl : ∀ x ∈ l, 1 ≤ x ∧ x < 5) (hx : x ∈ l)
    (ht : Tri3 (cw l 0) (cw l 1) (cw l 2) ∧ Tri3 (cw l 1) (cw l 3) (cw l 4) ∧ Tri3 (cw l 2) (cw l 3) (cw l 4)) (hs : n = 1 ∨ i < g - 1 ∨ 3 ∉ l) :
    Good T (.ok (T.curveFromCutSequence (l.map (fun j => 5 * i + j)))) := by
  refine good_cut hT (fun y hy => nonneg_shift (by omega) (fun z hz => by have := hl z hz; omega) hy) ((fit_local hg hn h0 h1 hl ht hs).lawful hg hn) (fun _ _ => rfl)
    (x := 5 * i + x) (List.mem_map.2 ⟨x, hx, rfl⟩) (by have := hl x hx; omega)

theorem good_c (hg : 4 ≤ g) (hn : 1 ≤ n) (hT : Site T (triplesG g n)) (hz : (T.zeta : Int) = 6 * g + 3 * n - 6) {i : Int} (h0 : 0 ≤ i) (h1 : i ≤ g - 2) {l : List Int}
    (hl : (1 ≤ i ∧ i ≤ g - 3 ∧ l = [5 * g + 3 * n - 3 + i - 1, 5 * g + 3 * n - 3 + i - 1]) ∨ ((i = 0 ∨ i = g - 2) ∧ l = [])) (hs : n = 1 ∨ i ≤ g - 3) :
    Good T (.ok (T.curveFromCutSequence (cBase.map (fun j => 5 * i + j) ++ l))) := by
  refine good_cut hT ?_ ((fit_c hg hn h0 h1 hl hs).lawful hg hn) (fun _ _ => rfl) (x := 5 * i + 0) (by simp [cBase]) (by omega)
  intro x hx
  rcases List.mem_append.1 hx with hx | hx
  · exact nonneg_shift (by omega) (by decide) hx
  · rcases hl with ⟨a, b, rfl⟩ | ⟨a, rfl⟩
    · simp at hx; omega
    · cases hx

theorem good_d (hg : 4 ≤ g) (hn : 1 ≤ n) (hT : Site T (triplesG g n)) (hz : (T.zeta : Int) = 6 * g + 3 * n - 6) {i : Int} (h0 : 1 ≤ i) (h1 : i < g - 1) :
    Good T (T.lamOfWeights ([2] ++ pyRep [2] (5 * i) ++ [1, 1, 1] ++ pyRep [0] (5 * g + 3 * n - 7 - 5 * i) ++ pyRep [2] (i - 1) ++ pyRep [0] (1 + g - 3 - i))) := by
  have one : ∀ k, 0 ≤ k → vw [2] k = if k < 1 then 2 else 0 := fun k hk => by
    have := vw_rep1 2 1 hk; rwa [pyRep_one] at this
  have three : ∀ k, 0 ≤ k → vw [1, 1, 1] k = if k < 3 then 1 else 0 := fun k hk => by
    have := vw_rep1 1 3 hk; rwa [pyRep_one] at this
  have hw : ∀ k, 0 ≤ k → vw ([2] ++ pyRep [2] (5 * i) ++ [1, 1, 1] ++ pyRep [0] (5 * g + 3 * n - 7 - 5 * i) ++ pyRep [2] (i - 1) ++ pyRep [0] (1 + g - 3 - i)) k =
      if k ≤ 5 * i then 2 else if k ≤ 5 * i + 3 then 1 else if k < 5 * g + 3 * n - 3 then 0 else if k < 5 * g + 3 * n - 3 + i - 1 then 2 else 0 := by
    intro k hk
    simp only [vw_append _ _ hk, List.length_append, length_rep, List.length_cons, List.length_nil]
    push_cast
    by_cases c1 : k < 1
    · rw [if_pos (by omega), if_pos (by omega), if_pos (by omega), if_pos (by omega), if_pos (by omega), one k hk, if_pos c1, if_pos (by omega)]
    by_cases c2 : k ≤ 5 * i
    · rw [if_pos (by omega), if_pos (by omega), if_pos (by omega), if_pos (by omega), if_neg (by omega), vw_rep1 _ _ (by omega), if_pos (by omega), if_pos c2]
    by_cases c3 : k ≤ 5 * i + 3
    · rw [if_pos (by omega), if_pos (by omega), if_pos (by omega), if_neg (by omega), three _ (by omega), if_pos (by omega), if_neg c2, if_pos c3]
    by_cases c4 : k < 5 * g + 3 * n - 3
    · rw [if_pos (by omega), if_pos (by omega), if_neg (by omega), vw_rep1 _ _ (by omega), if_pos (by omega), if_neg c2, if_neg c3, if_pos c4]
    by_cases c5 : k < 5 * g + 3 * n - 3 + i - 1
    · rw [if_pos (by omega), if_neg (by omega), vw_rep1 _ _ (by omega), if_pos (by omega), if_neg c2, if_neg c3, if_neg c4, if_pos c5]
    · rw [if_neg (by omega), vw_rep1 _ _ (by omega), if_neg c2, if_neg c3, if_neg c4, if_neg c5]
      split <;> rfl
  refine good_vec hT ?_ ((fit_d hg hn h0 (by omega) hw).lawful hg hn) (fun _ _ => rfl) (by rw [hw 0 le_rfl, if_pos (by omega)]; decide)
  have : (([(2 : Int)] ++ pyRep [2] (5 * i) ++ [1, 1, 1] ++ pyRep [0] (5 * g + 3 * n - 7 - 5 * i) ++ pyRep [2] (i - 1) ++ pyRep [0] (1 + g - 3 - i)).length : Int) = T.zeta := by
    simp only [List.length_append, length_rep, List.length_cons, List.length_nil]
    push_cast; omega
  exact_mod_cast this

theorem good_dlast_one (hg : 4 ≤ g) (hT : Site T (triplesG g 1)) (hz : (T.zeta : Int) = 6 * g - 3) :
    Good T (T.lamOfWeights (pyRep [2] (5 * g - 4) ++ [1, 1, 1, 0] ++ pyRep [2] (g - 3))) := by
  have four : ∀ k, 0 ≤ k → vw [1, 1, 1, 0] k = if k < 3 then 1 else 0 := fun k hk => by
    have h1 : vw ([1, 1, 1] ++ [0]) k = if k < 3 then vw [1, 1, 1] k else vw [0] (k - 3) := vw_append _ _ hk
    have h2 := vw_rep1 1 3 hk
    rw [pyRep_one] at h2
    have h2' : vw [1, 1, 1] k = if k < 3 then 1 else 0 := h2
    rw [show [1, 1, 1, 0] = [1, 1, 1] ++ [(0 : Int)] from rfl, h1, h2']
    split
    · rfl
    · have h3 := vw_rep1 0 1 (k := k - 3) (by omega)
      rw [pyRep_one] at h3
      have h3' : vw [0] (k - 3) = if k - 3 < 1 then 0 else 0 := h3
      rw [h3']; split <;> rfl
  have hw : ∀ k, 0 ≤ k → vw (pyRep [2] (5 * g - 4) ++ [1, 1, 1, 0] ++ pyRep [2] (g - 3)) k =
      if k ≤ 5 * (g - 1) then 2 else if k ≤ 5 * (g - 1) + 3 then 1 else if k < 5 * g then 0 else if k < 6 * g - 3 then 2 else 0 := by
    intro k hk
    simp only [vw_append _ _ hk, List.length_append, length_rep, List.length_cons, List.length_nil]
    push_cast
    by_cases c1 : k ≤ 5 * (g - 1)
    · rw [if_pos (by omega), if_pos (by omega), vw_rep1 _ _ (by omega), if_pos (by omega), if_pos c1]
    by_cases c2 : k < 5 * g
    · rw [if_pos (by omega), if_neg (by omega), four _ (by omega), if_neg c1]
      split_ifs <;> omega
    · rw [if_neg (by omega), vw_rep1 _ _ (by omega), if_neg c1, if_neg (c := k ≤ 5 * (g - 1) + 3) (by omega), if_neg c2]
      split_ifs <;> omega
  refine good_vec hT ?_ ((fit_dlast_one hg hw).lawful hg le_rfl) (fun _ _ => rfl) (by rw [hw 0 le_rfl, if_pos (by omega)]; decide)
  have : ((pyRep [(2 : Int)] (5 * g - 4) ++ [1, 1, 1, 0] ++ pyRep [2] (g - 3)).length : Int) = T.zeta := by
    simp only [List.length_append, length_rep, List.length_cons, List.length_nil]
    push_cast; omega
  exact_mod_cast this

theorem good_dlast (hg : 4 ≤ g) (hn : 2 ≤ n) (hT : Site T (triplesG g n)) (hz : (T.zeta : Int) = 6 * g + 3 * n - 6) :
    Good T (T.lamOfWeights (pyRep [2] (5 * g - 4) ++ [1, 1, 1, 0] ++ pyRep [1, 0] (n - 1) ++ pyRep [1] (n - 1) ++ pyRep [2] (g - 3))) := by
  have e : pyRep [2] (5 * g - 4) ++ [1, 1, 1, 0] ++ pyRep [1, 0] (n - 1) ++ pyRep [1] (n - 1) ++ pyRep [2] (g - 3) =
    (pyRep [2] (5 * g - 4) ++ [1, 1]) ++ [(1 : Int), 0] ++ pyRep [1, 0] (n - 1) ++ pyRep [1] (n - 1) ++ pyRep [2] (g - 3) := by simp
  have hp : (((pyRep [(2 : Int)] (5 * g - 4) ++ [1, 1]).length : Nat) : Int) = 5 * g - 2 := by
    simp only [List.length_append, length_rep, List.length_cons, List.length_nil]; push_cast; omega
  have hlen := length_last (pre := pyRep [(2 : Int)] (5 * g - 4) ++ [1, 1]) hn
  rw [hp] at hlen
  rw [e]
  have two : ∀ k, 0 ≤ k → vw [1, 1] k = if k < 2 then 1 else 0 := fun k hk => by
    have := vw_rep1 1 2 hk; rwa [pyRep_one] at this
  have hw : ∀ k, 0 ≤ k → vw ((pyRep [2] (5 * g - 4) ++ [1, 1]) ++ [(1 : Int), 0] ++ pyRep [1, 0] (n - 1) ++ pyRep [1] (n - 1) ++ pyRep [2] (g - 3)) k =
      (if k ≤ 5 * (g - 1) then 2 else if k ≤ 5 * (g - 1) + 2 then 1 else 0) + sw (5 * g - 2) n 0 k
      + (if 5 * g + 3 * n - 3 ≤ k ∧ k < 6 * g + 3 * n - 6 then 2 else 0) := by
    intro k hk
    rw [vw_append _ _ hk, hlen]
    by_cases c : k < 5 * g - 2 + 3 * n - 1
    · rw [if_pos c, vw_last hp hn k hk, if_neg (c := 5 * g + 3 * n - 3 ≤ k ∧ _) (by omega), add_zero, one_mul]
      congr 1
      rw [vw_append _ _ hk, length_rep]
      simp only [List.length_cons, List.length_nil]
      push_cast
      by_cases c1 : k ≤ 5 * (g - 1)
      · rw [if_pos (by omega), vw_rep1 _ _ hk, if_pos (by omega), if_pos c1]
      · rw [if_neg (by omega), two _ (by omega), if_neg c1]
        split_ifs <;> omega
    · rw [if_neg c, vw_rep1 _ _ (by omega), (sw_at (5 * g - 2) n 0 hn le_rfl (by omega)).2.2.2 k (by omega)]
      split_ifs <;> omega
  refine good_vec hT ?_ ((fit_dlast hg hn hw).lawful hg (by omega)) (fun _ _ => rfl) ?_
  · have : (((pyRep [2] (5 * g - 4) ++ [1, 1]) ++ [(1 : Int), 0] ++ pyRep [1, 0] (n - 1) ++ pyRep [1] (n - 1) ++ pyRep [2] (g - 3)).length : Int) = T.zeta := by
      rw [List.length_append, length_rep]
      push_cast
      rw [hlen]
      simp only [List.length_cons, List.length_nil]
      push_cast; omega
    exact_mod_cast this
  · rw [hw 0 le_rfl, if_pos (by omega), (sw_at (5 * g - 2) n 0 hn le_rfl (by omega)).2.2.2 0 (by omega), if_neg (by omega)]; decide

theorem good_alast (hg : 4 ≤ g) (hn : 2 ≤ n) (hT : Site T (triplesG g n)) (hz : (T.zeta : Int) = 6 * g + 3 * n - 6) :
    Good T (.ok (T.curveFromCutSequence ([5 * (g - 1) + 1, 5 * (g - 1) + 2] ++ (pyRange 0 n).map (fun j => 5 * (g - 1) + 3 + j * 2)
        ++ (pyRange 0 (n - 1)).map (fun j => 5 * g + 2 * n - 2 + j)))) := by
  rw [range_mul]
  refine good_cut hT ?_ ((fit_last (s := 0) hg hn le_rfl (by omega) (fun _ => rfl)).lawful hg (by omega)) ?_ (x := 5 * (g - 1) + 1) (by simp) (by omega)
  · intro x hx
    rw [List.mem_append, List.mem_append] at hx
    rcases hx with (hx | hx) | hx
    · simp at hx; omega
    · exact nonneg_range2 (by omega) hx
    · exact nonneg_range1 (by omega) hx
  · intro k hk
    rw [List.append_assoc, cw_append, show 5 * (g - 1) + 3 = 5 * g - 2 by ring, show 5 * g + 2 * n - 2 = 5 * g - 2 + 2 * n by ring, cw_a _ n k hn]

theorem good_p (hg : 4 ≤ g) (hn : 2 ≤ n) (hT : Site T (triplesG g n)) (hz : (T.zeta : Int) = 6 * g + 3 * n - 6) {i : Int} (h0 : 1 ≤ i) (h1 : i < n) :
    Good T (.ok (T.curveFromCutSequence ([5 * (g - 1) + 1, 5 * (g - 1) + 2]
        ++ (pyRange 0 (n - i)).map (fun j => 5 * (g - 1) + 3 + j * 2) ++ [5 * g + 2 * n - 1 - 2 * i] ++ (pyRange 0 (n - i)).map (fun j => 5 * g + 2 * n - 3 + i + j)))) := by
  rw [range_mul]
  refine good_cut hT ?_ ((fit_last (s := i) hg hn (by omega) h1 (fun _ => rfl)).lawful hg (by omega)) ?_ (x := 5 * (g - 1) + 1) (by simp) (by omega)
  · intro x hx
    rw [List.mem_append, List.mem_append, List.mem_append] at hx
    rcases hx with ((hx | hx) | hx) | hx
    · simp at hx; omega
    · exact nonneg_range2 (by omega) hx
    · simp at hx; omega
    · exact nonneg_range1 (by omega) hx
  · intro k hk
    rw [List.append_assoc, List.append_assoc, cw_append, ← List.append_assoc, show 5 * (g - 1) + 3 = 5 * g - 2 by ring,
      show 5 * g + 2 * n - 1 - 2 * i = 5 * g - 2 + 2 * n + 1 - 2 * i by ring, show 5 * g + 2 * n - 3 + i = 5 * g - 2 + 2 * n - 1 + i by ring, cw_p _ n i k hn h0 h1]

theorem good_clast (hg : 4 ≤ g) (hn : 2 ≤ n) (hT : Site T (triplesG g n)) (hz : (T.zeta : Int) = 6 * g + 3 * n - 6) :
    Good T (.ok (T.curveFromCutSequence ([7, 5, 0, 2, 4, 1, 2, 3, 4, 2, 0, 5, 6].map (fun j => 5 * (g - 2) + j)
        ++ (pyRange 0 n).map (fun j => 5 * (g - 1) + 3 + j * 2) ++ (pyRange 0 (n - 1)).map (fun j => 5 * g + 2 * n - 2 + j)))) := by
  rw [range_mul]
  refine good_cut hT ?_ ((fit_clast hg hn (fun _ => rfl)).lawful hg (by omega)) ?_ (x := 5 * (g - 2) + 7) (by simp) (by omega)
  · intro x hx
    rw [List.mem_append, List.mem_append] at hx
    rcases hx with (hx | hx) | hx
    · exact nonneg_shift (by omega) (by decide) hx
    · exact nonneg_range2 (by omega) hx
    · exact nonneg_range1 (by omega) hx
  · intro k hk
    rw [List.append_assoc, cw_append, cw_shift, show 5 * (g - 1) + 3 = 5 * g - 2 by ring, show 5 * g + 2 * n - 2 = 5 * g - 2 + 2 * n by ring, cw_a _ n k hn]

end

theorem loadsG_one {g : Int} (hg : 4 ≤ g) : ∃ S, load g 1 = .ok S ∧ Loads g 1 S := by
  have hgn : ((g.toNat : Nat) : Int) = g := by omega
  have key := loads_of (buildsG_one hg) (cs := fun T => 
      (pyRange 0 g).flatMap (fun i => [
        (('a', i), .ok (T.curveFromCutSequence [5 * i + 1, 5 * i + 2, 5 * i + 3])),
        (('b', i), .ok (T.curveFromCutSequence [5 * i + 1, 5 * i + 2, 5 * i + 4]))])
      ++ [(('c', 0), .ok (T.curveFromCutSequence ([0, 2, 4, 3, 2, 1, 4, 2, 0, 5, 6, 8, 7, 5].map (fun j => 5 * 0 + j))))]
      ++ (pyRange 1 (g - 2)).map (fun i => (('c', i), .ok (T.curveFromCutSequence ([0, 2, 4, 3, 2, 1, 4, 2, 0, 5, 6, 8, 7, 5].map (fun j => 5 * i + j)
        ++ [5 * g + i - 1, 5 * g + i - 1]))))
      ++ [(('c', g - 2), .ok (T.curveFromCutSequence ([0, 2, 4, 3, 2, 1, 4, 2, 0, 5, 6, 8, 7, 5].map (fun j => 5 * (g - 2) + j))))]
      ++ (pyRange 1 (g - 1)).map (fun i => (('d', i), T.lamOfWeights ([2] ++ pyRep [2] (5 * i) ++ [1, 1, 1] ++ pyRep [0] (5 * g + 3 * 1 - 7 - 5 * i)
        ++ pyRep [2] (i - 1) ++ pyRep [0] (1 + g - 3 - i))))
      ++ [(('d', g - 1), T.lamOfWeights (pyRep [2] (5 * g - 4) ++ [1, 1, 1, 0] ++ pyRep [2] (g - 3)))])
    (as := fun _ => []) ?_ ?_ ?_ (fun _ _ h => by cases h) (fun T => noArcNames (T := T))
  · rwa [hgn] at key
  · rw [hgn]
    unfold load loadG
    rw [if_neg (by omega), if_neg (by omega), if_neg (by omega), if_neg (by omega), if_neg (by omega)]
    simp only [pyAssert, hg, le_refl, decide_true, if_true, py_bind_ok]
    rfl
  · intro T hT hz x hx
    rw [hgn] at hz
    simp only [List.mem_append, List.mem_flatMap, List.mem_map, mem_pyRange, List.mem_cons, List.not_mem_nil, or_false] at hx
    rcases hx with ((((⟨i, hi, rfl | rfl⟩ | rfl) | ⟨i, hi, rfl⟩) | rfl) | ⟨i, hi, rfl⟩) | rfl
    · exact good_local hg le_rfl hT hz (l := [1, 2, 3]) (x := 1) hi.1 hi.2 (by decide) (by decide) (by decide) (.inl rfl)
    · exact good_local hg le_rfl hT hz (l := [1, 2, 4]) (x := 1) hi.1 hi.2 (by decide) (by decide) (by decide) (.inl rfl)
    · have := good_c hg le_rfl hT hz (i := 0) (l := []) le_rfl (by omega) (.inr ⟨.inl rfl, rfl⟩) (.inl rfl)
      rwa [List.append_nil] at this
    · exact good_c hg le_rfl hT hz (i := i) (by omega) (by omega) (.inl ⟨hi.1, by omega, by congr 2 <;> ring⟩) (.inl rfl)
    · have := good_c hg le_rfl hT hz (i := g - 2) (l := []) (by omega) le_rfl (.inr ⟨.inr rfl, rfl⟩) (.inl rfl)
      rwa [List.append_nil] at this
    · exact good_d hg le_rfl hT hz hi.1 hi.2
    · exact good_dlast_one hg hT (by omega)
  · rw [hgn]
    rintro T ⟨c, i⟩
    unfold IsCurveName
    simp only [List.map_append, List.map_map, List.mem_append, List.map_flatMap, List.mem_flatMap, List.mem_map, mem_pyRange, List.map_cons, List.map_nil, List.mem_cons, List.not_mem_nil, or_false, Function.comp, Prod.mk.injEq]
    by_cases a : c = 'a'
    · subst a; simp
    by_cases b : c = 'b'
    · subst b; simp
    by_cases c1 : c = 'c'
    · subst c1; simp; omega
    by_cases d : c = 'd'
    · subst d; simp; omega
    by_cases p : c = 'p'
    · subst p; simp
    · simp [a, b, c1, d, p, Ne.symm c1, Ne.symm d]

theorem loadsG {g n : Int} (hg : 4 ≤ g) (hn : 2 ≤ n) : ∃ S, load g n = .ok S ∧ Loads g n S := by
  have hgn : ((g.toNat : Nat) : Int) = g := by omega
  have hn1 : 1 ≤ n := by omega
  have key := loads_of (buildsG hg hn) (cs := fun T => 
      (pyRange 0 (g - 1)).map (fun i => (('a', i), .ok (T.curveFromCutSequence [5 * i + 1, 5 * i + 2, 5 * i + 3])))
      ++ [(('a', g - 1), .ok (T.curveFromCutSequence ([5 * (g - 1) + 1, 5 * (g - 1) + 2] ++ (pyRange 0 n).map (fun j => 5 * (g - 1) + 3 + j * 2)
        ++ (pyRange 0 (n - 1)).map (fun j => 5 * g + 2 * n - 2 + j))))]
      ++ (pyRange 0 g).map (fun i => (('b', i), .ok (T.curveFromCutSequence [5 * i + 1, 5 * i + 2, 5 * i + 4])))
      ++ [(('c', 0), .ok (T.curveFromCutSequence ([0, 2, 4, 3, 2, 1, 4, 2, 0, 5, 6, 8, 7, 5].map (fun j => 5 * 0 + j))))]
      ++ (pyRange 1 (g - 2)).map (fun i => (('c', i), .ok (T.curveFromCutSequence ([0, 2, 4, 3, 2, 1, 4, 2, 0, 5, 6, 8, 7, 5].map (fun j => 5 * i + j)
        ++ [5 * g + 3 * n - 3 + i - 1, 5 * g + 3 * n - 3 + i - 1]))))
      ++ [(('c', g - 2), .ok (T.curveFromCutSequence ([7, 5, 0, 2, 4, 1, 2, 3, 4, 2, 0, 5, 6].map (fun j => 5 * (g - 2) + j)
        ++ (pyRange 0 n).map (fun j => 5 * (g - 1) + 3 + j * 2) ++ (pyRange 0 (n - 1)).map (fun j => 5 * g + 2 * n - 2 + j))))]
      ++ (pyRange 1 (g - 1)).map (fun i => (('d', i), T.lamOfWeights ([2] ++ pyRep [2] (5 * i) ++ [1, 1, 1] ++ pyRep [0] (5 * g + 3 * n - 7 - 5 * i)
        ++ pyRep [2] (i - 1) ++ pyRep [0] (1 + g - 3 - i))))
      ++ [(('d', g - 1), T.lamOfWeights (pyRep [2] (5 * g - 4) ++ [1, 1, 1, 0] ++ pyRep [1, 0] (n - 1) ++ pyRep [1] (n - 1) ++ pyRep [2] (g - 3)))]
      ++ (pyRange 1 n).map (fun i => (('p', i), .ok (T.curveFromCutSequence ([5 * (g - 1) + 1, 5 * (g - 1) + 2]
        ++ (pyRange 0 (n - i)).map (fun j => 5 * (g - 1) + 3 + j * 2) ++ [5 * g + 2 * n - 1 - 2 * i] ++ (pyRange 0 (n - i)).map (fun j => 5 * g + 2 * n - 3 + i + j))))))
    (as := fun T => [(('s', 0), .ok (T.edgeArc (5 * g + 2 * n - 4)))]
      ++ (pyRange 1 n).map (fun i => (('s', i), .ok (T.edgeArc (5 * g + 2 * n - 1 - 2 * i))))) ?_ ?_ ?_ ?_ ?_
  · rwa [hgn] at key
  · rw [hgn]
    unfold load loadG
    rw [if_neg (by omega), if_neg (by omega), if_neg (by omega), if_neg (by omega), if_neg (by omega)]
    simp only [pyAssert, hg, hn1, decide_true, if_true, py_bind_ok, show ¬ n = 1 by omega, if_false]
  · intro T hT hz x hx
    rw [hgn] at hz
    simp only [List.mem_append, List.mem_map, mem_pyRange, List.mem_cons, List.not_mem_nil, or_false] at hx
    rcases hx with (((((((⟨i, hi, rfl⟩ | rfl) | ⟨i, hi, rfl⟩) | rfl) | ⟨i, hi, rfl⟩) | rfl) | ⟨i, hi, rfl⟩) | rfl) | ⟨i, hi, rfl⟩
    · exact good_local hg hn1 hT hz (l := [1, 2, 3]) (x := 1) hi.1 (by omega) (by decide) (by decide) (by decide) (.inr (.inl hi.2))
    · exact good_alast hg hn hT hz
    · exact good_local hg hn1 hT hz (l := [1, 2, 4]) (x := 1) hi.1 hi.2 (by decide) (by decide) (by decide) (.inr (.inr (by decide)))
    · have := good_c hg hn1 hT hz (i := 0) (l := []) le_rfl (by omega) (.inr ⟨.inl rfl, rfl⟩) (.inr (by omega))
      rwa [List.append_nil] at this
    · exact good_c hg hn1 hT hz (i := i) (by omega) (by omega) (.inl ⟨hi.1, by omega, rfl⟩) (.inr (by omega))
    · exact good_clast hg hn hT hz
    · exact good_d hg hn1 hT hz hi.1 hi.2
    · exact good_dlast hg hn hT hz
    · exact good_p hg hn hT hz hi.1 hi.2
  · rw [hgn]
    rintro T ⟨c, i⟩
    unfold IsCurveName
    simp only [List.map_append, List.map_map, List.mem_append, List.mem_map, mem_pyRange, List.map_cons, List.map_nil, List.mem_cons, List.not_mem_nil, or_false, Function.comp, Prod.mk.injEq]
    by_cases a : c = 'a'
    · subst a; simp; omega
    by_cases b : c = 'b'
    · subst b; simp
    by_cases c1 : c = 'c'
    · subst c1; simp; omega
    by_cases d : c = 'd'
    · subst d; simp; omega
    by_cases p : c = 'p'
    · subst p; simp; omega
    · simp [a, b, c1, d, p, Ne.symm a, Ne.symm b, Ne.symm c1, Ne.symm d, Ne.symm p]
  · intro T x hx
    rw [hgn]
    simp only [List.mem_append, List.mem_map, mem_pyRange, List.mem_cons, List.not_mem_nil, or_false] at hx
    rcases hx with rfl | ⟨i, hi, rfl⟩
    · exact ⟨_, rfl, by omega, by omega, stripArc hn (by omega) (.inl (by ring))⟩
    · exact ⟨_, rfl, by omega, by omega, stripArc hn (by omega) (.inr ⟨i, hi.1, hi.2, by ring⟩)⟩
  · exact fun T => arcNames n hn _ _

end Curver
