import Verif.Proofs.LoadNames

namespace Curver
open Triangulation

theorem range_mul (c m : Int) : (pyRange 0 m).map (fun j => c + j * 2) = (pyRange 0 m).map (fun j => c + 2 * j) := by
  congr 1; funext j; ring

theorem nonneg_range1 {c m x : Int} (hc : 0 ≤ c) (h : x ∈ (pyRange 0 m).map (fun j => c + j)) : 0 ≤ x := by
  simp only [List.mem_map, mem_pyRange] at h; obtain ⟨j, hj, rfl⟩ := h; omega

theorem nonneg_range2 {c m x : Int} (hc : 0 ≤ c) (h : x ∈ (pyRange 0 m).map (fun j => c + 2 * j)) : 0 ≤ x := by
  simp only [List.mem_map, mem_pyRange] at h; obtain ⟨j, hj, rfl⟩ := h; omega

theorem loads0 {n : Int} (hn : 3 ≤ n) : ∃ S, load 0 n = .ok S ∧ Loads 0 n S := by
  have key := loads_of (builds0 hn) (cs := fun _ => []) (as := fun T => (pyRange 0 (n - 2)).map (fun i => (('s', i), .ok (T.edgeArc (2 * n - 4 + i))))
    ++ [(('s', n - 2), .ok (T.edgeArc (2 * n - 5))), (('s', n - 1), .ok (T.edgeArc 0))]) ?_ ?_ ?_ ?_ ?_
  · exact key
  · unfold load load0
    simp only [Nat.cast_zero]
    rw [if_neg (by omega), if_pos trivial]
    simp only [pyAssert, hn, decide_true, if_true, py_bind_ok]
    rfl
  · intro T _ _ x hx; cases hx
  · intro T x
    unfold IsCurveName
    simp only [List.map_nil, List.not_mem_nil, false_iff]
    push_cast
    rintro (h | h | h | h | h) <;> first | omega | simp at h
  · intro T x hx
    simp only [List.mem_append, List.mem_map, mem_pyRange, List.mem_cons, List.not_mem_nil, or_false] at hx
    push_cast
    rcases hx with ⟨i, hi, rfl⟩ | rfl | rfl
    · refine ⟨_, rfl, by omega, by omega, ?_⟩
      unfold sphereTail inv; split_ifs <;> omega
    · refine ⟨_, rfl, by omega, by omega, ?_⟩
      unfold sphereTail inv; split_ifs <;> omega
    · refine ⟨_, rfl, by omega, by omega, ?_⟩
      unfold sphereTail inv; split_ifs <;> omega
  · rintro T ⟨c, i⟩
    unfold IsArcName
    simp only [List.map_append, List.map_map, List.mem_append, List.mem_map, mem_pyRange, List.map_cons, List.map_nil, List.mem_cons, List.not_mem_nil, or_false, Function.comp, Prod.mk.injEq]
    constructor
    · rintro (⟨j, hj, rfl, rfl⟩ | ⟨rfl, rfl⟩ | ⟨rfl, rfl⟩) <;> exact ⟨rfl, by omega, by omega, by omega⟩
    · rintro ⟨rfl, h1, h2, h3⟩
      by_cases a : i < n - 2
      · exact .inl ⟨i, by omega, rfl, rfl⟩
      · simp only [true_and]; omega

theorem lawful_of_all {ls : List (List Int)} {W : Int → Int}
    (h : ls.all (fun l => match l with | [a, b, c] => decide (Tri3 (W (norm a)) (W (norm b)) (W (norm c))) | _ => true) = true) : Lawful ls W := by
  intro a b c hm
  have := List.all_eq_true.1 h _ hm
  simpa using this

macro "names" : tactic => `(tactic| (
  rintro T ⟨c, i⟩
  unfold IsCurveName
  simp only [List.map_append, List.map_map, List.mem_append, List.mem_map, mem_pyRange, List.map_cons, List.map_nil, List.mem_cons, List.not_mem_nil, or_false, Function.comp, Prod.mk.injEq]
  by_cases a : c = 'a'
  · subst a; simp <;> omega
  by_cases b : c = 'b'
  · subst b; simp <;> omega
  by_cases c1 : c = 'c'
  · subst c1; simp <;> omega
  by_cases d : c = 'd'
  · subst d; simp <;> omega
  by_cases p : c = 'p'
  · subst p; simp <;> omega
  · simp [a, b, c1, d, p, Ne.symm p]))

theorem noArcNames {T : Triangulation} (x : GenName) : x ∈ ([] : List (GenName × Py (Lam Int))).map Prod.fst ↔ IsArcName 1 x := by
  unfold IsArcName; simp

theorem loads1_one : ∃ S, load 1 1 = .ok S ∧ Loads 1 1 S := by
  have key := loads_of builds1_one (cs := fun T => [(('a', 0), .ok (T.curveFromCutSequence [0, 2])), (('b', 0), .ok (T.curveFromCutSequence [0, 1]))]) (as := fun _ => [])
    rfl ?_ ?_ (fun _ _ h => by cases h) (fun T => noArcNames (T := T))
  · exact key
  · intro T hT hz x hx
    simp only [List.mem_cons, List.not_mem_nil, or_false] at hx
    rcases hx with rfl | rfl
    · exact good_cut hT (by decide) (W := cw [0, 2]) (lawful_of_all (by decide)) (fun _ _ => rfl) (x := 0) (by simp) (by omega)
    · exact good_cut hT (by decide) (W := cw [0, 1]) (lawful_of_all (by decide)) (fun _ _ => rfl) (x := 0) (by simp) (by omega)
  · names

theorem cw_first (m k : Int) (hm : 0 ≤ m := by omega) :
    cw ([0, 1] ++ (pyRange 0 m).map (fun j => 3 + 2 * j)) k = cw ([0] ++ (pyRange 0 (m + 1)).map (fun j => 1 + 2 * j)) k := by
  simp only [cw_append, cw_range2, cw_cons, cw_nil]
  split_ifs <;> omega

theorem stripArc {p n e : Int} (hn : 2 ≤ n) (hp : 0 ≤ p) (h : e = p + 2 * n - 2 ∨ ∃ i, 1 ≤ i ∧ i < n ∧ e = p + 2 * n + 1 - 2 * i) :
    stripTail p n e ≠ stripTail p n (inv e) := by
  rcases h with rfl | ⟨i, h1, h2, rfl⟩
  all_goals unfold stripTail inv; split_ifs <;> omega

theorem arcNames (n : Int) (hn : 2 ≤ n) (f : Int → Py (Lam Int)) (v : Py (Lam Int)) (x : GenName) :
    x ∈ ([(('s', 0), v)] ++ (pyRange 1 n).map (fun i => (('s', i), f i))).map Prod.fst ↔ IsArcName n x := by
  obtain ⟨c, i⟩ := x
  unfold IsArcName
  simp only [List.map_append, List.map_map, List.mem_append, List.mem_map, mem_pyRange, List.map_cons, List.map_nil, List.mem_cons, List.not_mem_nil, or_false, Function.comp, Prod.mk.injEq]
  by_cases h : c = 's'
  · subst h; simp; omega
  · simp [h, Ne.symm h]

theorem loads1 {n : Int} (hn : 2 ≤ n) : ∃ S, load 1 n = .ok S ∧ Loads 1 n S := by
  have key := loads_of (builds1 hn) (cs := fun T => [
      (('a', 0), .ok (T.curveFromCutSequence ([0, 1] ++ (pyRange 0 (n - 1)).map (fun j => 3 + 2 * j) ++ (pyRange 0 (n - 1)).map (fun j => 2 * n + 1 + j)))),
      (('b', 0), .ok (T.curveFromCutSequence [0, 2]))]
      ++ (pyRange 1 n).map (fun i => (('p', i), .ok (T.curveFromCutSequence ([0, 1] ++ (pyRange 0 (n - 1 - i)).map (fun j => 3 + 2 * j) ++ [2 * n + 2 - 2 * i]
        ++ (pyRange 0 (n - i)).map (fun j => 2 * n + i + j))))))
    (as := fun T => [(('s', 0), .ok (T.edgeArc (2 * n - 1)))] ++ (pyRange 1 n).map (fun i => (('s', i), .ok (T.edgeArc (2 * n + 2 - 2 * i))))) ?_ ?_ ?_ ?_ ?_
  · exact key
  · unfold load load1
    simp only [Nat.cast_one]
    rw [if_neg (by omega), if_neg (by omega), if_pos trivial]
    simp only [pyAssert, show (1 : Int) ≤ n by omega, decide_true, if_true, py_bind_ok, show ¬ n = 1 by omega, if_false]
  · intro T hT hz x hx
    push_cast at hz
    simp only [List.mem_append, List.mem_map, mem_pyRange, List.mem_cons, List.not_mem_nil, or_false] at hx
    rcases hx with (rfl | rfl) | ⟨i, hi, rfl⟩
    · refine good_cut hT ?_ (lawful1 (B := cw [0]) (u := 1) (i := 0) hn le_rfl (by omega) (.inr rfl) ?_ (by decide)) ?_ (x := 0) (by simp) (by omega)
      · intro x hx
        simp only [List.mem_append, List.mem_map, mem_pyRange, List.mem_cons, List.not_mem_nil, or_false] at hx
        rcases hx with ((rfl | rfl) | ⟨j, hj, rfl⟩) | ⟨j, hj, rfl⟩ <;> omega
      · intro k h1 h2; rw [cw_cons, cw_nil, if_neg (by omega)]; rfl
      · intro k hk
        have h1 := cw_a 1 n k hn
        have h2 := cw_first (n - 1) k
        rw [show n - 1 + 1 = n by ring] at h2
        rw [show 1 + 2 * n = 2 * n + 1 by ring] at h1
        simp only [cw_append] at h1 h2 ⊢
        rw [one_mul, ← h1]; linarith
    · refine good_cut hT (by decide) (lawful1 (B := cw [0, 2]) (u := 0) (i := 0) hn le_rfl (by omega) (.inl rfl) ?_ (by decide)) ?_ (x := 0) (by simp) (by omega)
      · intro k h1 h2; rw [cw_cons, cw_cons, cw_nil, if_neg (by omega), if_neg h2]; rfl
      · intro k hk; simp
    · refine good_cut hT ?_ (lawful1 (B := cw [0]) (u := 1) (i := i) hn (by omega) hi.2 (.inr rfl) ?_ (by decide)) ?_ (x := 0) (by simp) (by omega)
      · intro x hx
        simp only [List.mem_append, List.mem_map, mem_pyRange, List.mem_cons, List.not_mem_nil, or_false] at hx
        rcases hx with (((rfl | rfl) | ⟨j, hj, rfl⟩) | rfl) | ⟨j, hj, rfl⟩ <;> omega
      · intro k h1 h2; rw [cw_cons, cw_nil, if_neg (by omega)]; rfl
      · intro k hk
        have h1 := cw_p 1 n i k hn (by omega) (by omega)
        have h2 := cw_first (n - 1 - i) k
        rw [show n - 1 - i + 1 = n - i by ring] at h2
        rw [show 1 + 2 * n + 1 - 2 * i = 2 * n + 2 - 2 * i by ring, show 1 + 2 * n - 1 + i = 2 * n + i by ring] at h1
        simp only [cw_append] at h1 h2 ⊢
        rw [one_mul, ← h1]; linarith
  · names
  · intro T x hx
    push_cast
    simp only [List.mem_append, List.mem_map, mem_pyRange, List.mem_cons, List.not_mem_nil, or_false] at hx
    rcases hx with rfl | ⟨i, hi, rfl⟩
    · exact ⟨_, rfl, by omega, by omega, stripArc hn (by omega) (.inl (by ring))⟩
    · exact ⟨_, rfl, by omega, by omega, stripArc hn (by omega) (.inr ⟨i, hi.1, hi.2, by ring⟩)⟩
  · exact fun T => arcNames n hn _ _

end Curver
