import Verif.Proofs.LoadGenus

namespace Curver
open Triangulation

theorem mem_triples0 {n : Int} (l : List Int) : l ∈ triples0 n ↔ (∃ i, (0 ≤ i ∧ i < n - 3) ∧ l = [i, i + 2 * n - 4, inv (i + 1)]) ∨
    (∃ i, (n - 2 ≤ i ∧ i < 2 * n - 5) ∧ l = [i, inv (i + 1), inv (i + n - 1)]) ∨ l = [inv 0, inv (n - 2), inv (2 * n - 4)] ∨ l = [n - 3, 3 * n - 7, 2 * n - 5] := by
  have e1 : ∀ i : Int, [i, i + 2 * n - 4, inv (i + 1)] = l ↔ l = [i, i + 2 * n - 4, inv (i + 1)] := fun i => eq_comm
  have e2 : ∀ i : Int, [i, inv (i + 1), inv (i + n - 1)] = l ↔ l = [i, inv (i + 1), inv (i + n - 1)] := fun i => eq_comm
  unfold triples0
  simp only [List.mem_append, List.mem_map, mem_pyRange, List.mem_cons, List.not_mem_nil, or_false, e1, e2, or_assoc]

/-- which puncture is at the tail of a label of `S_0_n` -/
def sphereTail (n e : Int) : Nat :=
  if 0 ≤ e then if e ≤ n - 3 then (n - 1).toNat else if e ≤ 2 * n - 5 then (e - n + 3).toNat else (e - 2 * n + 4).toNat
  else if inv e ≤ n - 3 then (inv e).toNat else if inv e ≤ 2 * n - 5 then (n - 1).toNat else (inv e - 2 * n + 5).toNat

theorem sphereTail_triples {n : Int} (hn : 3 ≤ n) (a b c : Int) (h : [a, b, c] ∈ triples0 n) :
    sphereTail n a = sphereTail n (inv c) ∧ sphereTail n b = sphereTail n (inv a) ∧ sphereTail n c = sphereTail n (inv b) := by
  rw [mem_triples0] at h
  rcases h with ⟨i, hi, h⟩ | ⟨i, hi, h⟩ | h | h
  all_goals
    simp only [List.cons.injEq, and_true] at h
    obtain ⟨rfl, rfl, rfl⟩ := h
    unfold sphereTail inv
    refine ⟨?_, ?_, ?_⟩
    all_goals split_ifs <;> omega

set_option maxHeartbeats 1000000 in
theorem builds0 {n : Int} (hn : 3 ≤ n) : Builds (triples0 n) 0 n (sphereTail n) := by
  have hm := mem_triples0 (n := n)
  have mT : ∀ i, 0 ≤ i → i < n - 3 → [i, i + 2 * n - 4, inv (i + 1)] ∈ triples0 n := fun i h1 h2 => (hm _).2 (.inl ⟨i, ⟨h1, h2⟩, rfl⟩)
  have mB : ∀ i, n - 2 ≤ i → i < 2 * n - 5 → [i, inv (i + 1), inv (i + n - 1)] ∈ triples0 n := fun i h1 h2 => (hm _).2 (.inr (.inl ⟨i, ⟨h1, h2⟩, rfl⟩))
  have mL : [inv 0, inv (n - 2), inv (2 * n - 4)] ∈ triples0 n := (hm _).2 (.inr (.inr (.inl rfl)))
  have mR : [n - 3, 3 * n - 7, 2 * n - 5] ∈ triples0 n := (hm _).2 (.inr (.inr (.inr rfl)))
  obtain ⟨T, t1, t2, t3, t4, t5⟩ := build (ls := triples0 n) (z := (3 * n - 6).toNat) (by
      intro l h
      rw [hm] at h
      rcases h with ⟨_, _, rfl⟩ | ⟨_, _, rfl⟩ | rfl | rfl <;> rfl) (by
      unfold triples0
      simp only [List.length_append, List.length_map, length_pyRange, List.length_cons, List.length_nil]
      omega) (by omega) (by
      intro k h1 h2
      constructor
      · by_cases a : k < n - 3
        · exact ⟨_, mT k h1 a, by simp⟩
        by_cases b : k = n - 3 ∨ k = 3 * n - 7 ∨ k = 2 * n - 5
        · exact ⟨_, mR, by simp; omega⟩
        by_cases c : k < 2 * n - 5
        · exact ⟨_, mB k (by omega) c, by simp⟩
        · exact ⟨_, mT (k - 2 * n + 4) (by omega) (by omega), by simp; omega⟩
      · by_cases a : k = 0 ∨ k = n - 2 ∨ k = 2 * n - 4
        · exact ⟨_, mL, by simp [inv_def]; omega⟩
        by_cases b : k ≤ n - 3
        · exact ⟨_, mT (k - 1) (by omega) (by omega), by simp⟩
        by_cases c : k ≤ 2 * n - 5
        · exact ⟨_, mB (k - 1) (by omega) (by omega), by simp⟩
        · exact ⟨_, mB (k - n + 1) (by omega) (by omega), by simp [inv_def]; omega⟩)
  have htl : ∀ a b c, T.Glues a b c → sphereTail n a = sphereTail n (inv c) := by
    have htail := sphereTail_triples hn
    intro a b c h
    rcases (t5 a b c).1 h with h | h | h
    · exact (htail _ _ _ h).1
    · exact (htail _ _ _ h).2.2
    · exact (htail _ _ _ h).2.1
  refine ⟨T, t1, t2, t4, by rw [t3]; push_cast; omega, t5, htl, ?_⟩
  have hgl : ∀ a b c, [a, b, c] ∈ triples0 n → T.Glues a b c := fun a b c h => (t5 a b c).2 (.inl h)
  have hc := t2.comp
  have S : ∀ {x y}, T.E x y → T.E y x := fun h => E.symm' hc h
  have R : ∀ {x y w}, T.E x y → T.E y w → T.E x w := fun h h' => E.trans' hc h h'
  have eT : ∀ i, 0 ≤ i → i < n - 3 → T.E i (i + 1) ∧ T.E (i + 2 * n - 4) (inv i) ∧ T.E (inv (i + 1)) (inv (i + 2 * n - 4)) := fun i h1 h2 => by
    have := E.of_glues hc (hgl _ _ _ (mT i h1 h2)); rwa [inv_inv] at this
  have eB : ∀ i, n - 2 ≤ i → i < 2 * n - 5 → T.E i (i + n - 1) ∧ T.E (inv (i + 1)) (inv i) ∧ T.E (inv (i + n - 1)) (i + 1) := fun i h1 h2 => by
    have := E.of_glues hc (hgl _ _ _ (mB i h1 h2)); rwa [inv_inv, inv_inv] at this
  obtain ⟨l1, l2, l3⟩ := E.of_glues hc (hgl _ _ _ mL)
  obtain ⟨r1, r2, r3⟩ := E.of_glues hc (hgl _ _ _ mR)
  rw [inv_inv] at l1 l2 l3
  -- the puncture outside of the disk
  have top : ∀ k : Nat, (k : Int) ≤ n - 3 → T.E k 0 := by
    intro k
    induction k with
    | zero => intro _; exact R (S l2) l2
    | succ k ih =>
      intro hk; push_cast at hk ⊢
      exact R (S (eT k (by omega) (by omega)).1) (ih (by omega))
  have bot : ∀ k : Nat, (k : Int) ≤ n - 3 → T.E (inv (n - 2 + k)) 0 := by
    intro k
    induction k with
    | zero => intro _; simpa using l2
    | succ k ih =>
      intro hk; push_cast at hk ⊢
      have := (eB (n - 2 + k) (by omega) (by omega)).2.1
      rw [show n - 2 + (k : Int) + 1 = n - 2 + (k + 1) by ring] at this
      exact R this (ih (by omega))
  have refl : ∀ x, T.IsLabel x → T.E x x := fun x hx => ⟨hx, hc.sv_refl hx⟩
  have lab : ∀ x : Int, 0 ≤ x → x < 3 * n - 6 → T.IsLabel x ∧ T.IsLabel (inv x) := fun x h1 h2 => by
    have : T.IsLabel x := ⟨by omega, by omega⟩
    exact ⟨this, isLabel_inv.2 this⟩
  -- the punctures on the line
  have hor : ∀ j, 0 ≤ j → j ≤ n - 3 → T.E (2 * n - 4 + j) (if j = 0 then inv 0 else n - 3 + j) := by
    intro j h1 h2
    split
    · rename_i h; subst h; rw [add_zero]; exact S l1
    · have := S (eB (n - 3 + j) (by omega) (by omega)).1
      rwa [show n - 3 + j + n - 1 = 2 * n - 4 + j by ring] at this
  have hor' : ∀ j, 0 ≤ j → j ≤ n - 3 → T.E (inv (2 * n - 4 + j)) (n - 2 + j) := by
    intro j h1 h2
    by_cases h : j = 0
    · subst h; simpa using l3
    · have := (eB (n - 3 + j) (by omega) (by omega)).2.2
      rwa [show n - 3 + j + n - 1 = 2 * n - 4 + j by ring, show n - 3 + j + 1 = n - 2 + j by ring] at this
  have ver : ∀ j, 0 ≤ j → j ≤ n - 3 → T.E (inv j) (if j = 0 then inv 0 else n - 3 + j) := by
    intro j h1 h2
    refine R ?_ (hor j h1 h2)
    by_cases h : j < n - 3
    · have := S (eT j h1 h).2.1
      rwa [show j + 2 * n - 4 = 2 * n - 4 + j by ring] at this
    · have hj : j = n - 3 := by omega
      rw [hj, show 2 * n - 4 + (n - 3) = 3 * n - 7 by ring]
      exact S r2
  have key := t2.surface_of_tails (g := 0) (n := n.toNat) (by omega) (sphereTail n)
    (fun i => if i = 0 then inv 0 else if (i : Int) = n - 1 then 0 else n - 3 + i) ?_ ?_ ?_ ?_ (by omega)
  · have hn' : ((n.toNat : Nat) : Int) = n := by omega
    rwa [hn'] at key
  · exact htl
  · intro i hi
    split
    · rename_i h; subst h
      refine ⟨(lab 0 (by omega) (by omega)).2, ?_⟩
      unfold sphereTail inv; split_ifs <;> omega
    · split
      · refine ⟨(lab 0 (by omega) (by omega)).1, ?_⟩
        unfold sphereTail inv; split_ifs <;> omega
      · refine ⟨(lab _ (by omega) (by omega)).1, ?_⟩
        unfold sphereTail inv; split_ifs <;> omega
  · intro e he
    unfold IsLabel at he
    have out : T.E e 0 → sphereTail n e = (n - 1).toNat → sphereTail n e < n.toNat ∧ T.SV e (if sphereTail n e = 0 then inv 0 else if ((sphereTail n e : Nat) : Int) = n - 1 then 0 else n - 3 + (sphereTail n e : Nat)) := by
      intro h1 h2
      rw [h2, if_neg (by omega), if_pos (by omega)]
      exact ⟨by omega, h1.2⟩
    have inn : ∀ j : Int, 0 ≤ j → j ≤ n - 2 → T.E e (if j = 0 then inv 0 else n - 3 + j) → sphereTail n e = j.toNat → sphereTail n e < n.toNat ∧ T.SV e (if sphereTail n e = 0 then inv 0 else if ((sphereTail n e : Nat) : Int) = n - 1 then 0 else n - 3 + (sphereTail n e : Nat)) := by
      intro j hj1 hj2 h1 h2
      rw [h2]
      refine ⟨by omega, ?_⟩
      by_cases h : j = 0
      · subst h
        rw [if_pos rfl] at h1
        rw [if_pos (by rfl)]; exact h1.2
      · rw [if_neg h] at h1
        rw [if_neg (by omega), if_neg (by omega), show ((j.toNat : Nat) : Int) = j by omega]; exact h1.2
    rcases lt_or_ge e 0 with h | h
    · by_cases a : inv e ≤ n - 3
      · refine inn (inv e) (by unfold inv; omega) (by omega) ?_ ?_
        · have := ver (inv e) (by unfold inv; omega) a
          rwa [inv_inv] at this
        · unfold sphereTail; rw [if_neg (by omega), if_pos a]
      · by_cases b : inv e ≤ 2 * n - 5
        · refine out ?_ ?_
          · have := bot (inv e - (n - 2)).toNat (by omega)
            rwa [show n - 2 + (((inv e - (n - 2)).toNat : Nat) : Int) = inv e by omega, inv_inv] at this
          · unfold sphereTail; rw [if_neg (by omega), if_neg a, if_pos b]
        · refine inn (inv e - 2 * n + 5) (by omega) (by unfold inv at *; omega) ?_ ?_
          · rw [if_neg (by omega)]
            have := hor' (inv e - (2 * n - 4)) (by omega) (by unfold inv at *; omega)
            rw [show 2 * n - 4 + (inv e - (2 * n - 4)) = inv e by ring, inv_inv] at this
            convert this using 1; ring
          · unfold sphereTail; rw [if_neg (by omega), if_neg a, if_neg b]
    · by_cases a : e ≤ n - 3
      · refine out ?_ ?_
        · have := top e.toNat (by omega)
          rwa [show ((e.toNat : Nat) : Int) = e by omega] at this
        · unfold sphereTail; rw [if_pos h, if_pos a]
      · by_cases b : e ≤ 2 * n - 5
        · refine inn (e - n + 3) (by omega) (by omega) ?_ ?_
          · rw [if_neg (by omega), show n - 3 + (e - n + 3) = e by ring]
            exact refl e he
          · unfold sphereTail; rw [if_pos h, if_neg a, if_pos b]
        · refine inn (e - 2 * n + 4) (by omega) (by omega) ?_ ?_
          · have := hor (e - 2 * n + 4) (by omega) (by omega)
            rwa [show 2 * n - 4 + (e - 2 * n + 4) = e by ring] at this
          · unfold sphereTail; rw [if_pos h, if_neg a, if_neg b]
  · intro i hi
    rw [if_pos rfl]
    split
    · exact .refl
    · split
      · exact T.joined_inv 0
      · have b := bot (i - 1 : Nat) (by omega)
        rw [show n - 2 + ((i - 1 : Nat) : Int) = n - 3 + i by omega] at b
        exact ((T.joined_inv _).trans (hc.sv_joined b.1 b.2)).trans (T.joined_inv 0)

end Curver
