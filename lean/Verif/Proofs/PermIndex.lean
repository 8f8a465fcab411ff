import Verif.Proofs.Permutation

namespace Curver
namespace Permutation

theorem takeDrop_eq_eraseIdx {α : Type _} (S : List α) (i : Nat) : S.take i ++ S.drop (i + 1) = S.eraseIdx i := by
  rw [List.eraseIdx_eq_take_drop_succ]

/-- rank of `l` among the arrangements of the sorted list `S` -/
def rankL : List Nat → List Nat → Nat
  | _, [] => 0
  | S, p :: ps => (bisect S p - 1) * ps.length.factorial + rankL (S.eraseIdx (bisect S p - 1)) ps

theorem bisect_of_sorted {S : List Nat} (hS : S.Pairwise (· < ·)) {i : Nat} (hi : i < S.length) :
    bisect S S[i] = i + 1 := by
  unfold bisect
  have h1 : S = S.take (i+1) ++ S.drop (i+1) := by simp
  have hsorted := List.pairwise_iff_getElem.1 hS
  have h2 : S.takeWhile (fun x => decide (x ≤ S[i])) = S.take (i + 1) := by
    obtain ⟨v, hv⟩ : ∃ v, v = S[i] := ⟨_, rfl⟩
    suffices h : S.takeWhile (fun x => decide (x ≤ v)) = S.take (i + 1) by rw [← hv]; exact h
    conv_lhs => rw [h1]
    rw [hv]
    rw [List.takeWhile_append_of_pos]
    · have : (S.drop (i+1)).takeWhile (fun x => decide (x ≤ S[i])) = [] := by
        cases hd : S.drop (i+1) with
        | nil => rfl
        | cons a t =>
          have hlt : i + 1 < S.length := by
            by_contra hc
            rw [List.drop_eq_nil_of_le (by omega)] at hd; cases hd
          rw [List.drop_eq_getElem_cons hlt] at hd
          cases hd
          rw [List.takeWhile_cons_of_neg]
          have := hsorted i (i+1) hi hlt (by omega)
          simpa using this
      rw [this]; simp
    · intro x hx
      obtain ⟨j, hj, rfl⟩ := List.mem_iff_getElem.1 hx
      simp at hj ⊢
      rcases Nat.lt_or_ge j i with h | h
      · exact (hsorted j i (by omega) hi h).le
      · have : j = i := by omega
        subst this; exact le_refl _
  rw [h2]; simp; omega

theorem sorted_eraseIdx {S : List Nat} (hS : S.Pairwise (· < ·)) (i : Nat) : (S.eraseIdx i).Pairwise (· < ·) :=
  hS.sublist (List.eraseIdx_sublist S i)

/-- decomposition of an arrangement -/
theorem perm_cons_data {S ps : List Nat} {p : Nat} (hS : S.Pairwise (· < ·)) (h : (p :: ps).Perm S) :
    ∃ (hi : bisect S p - 1 < S.length), S[bisect S p - 1] = p ∧ ps.Perm (S.eraseIdx (bisect S p - 1)) := by
  have hp : p ∈ S := h.mem_iff.1 (by simp)
  obtain ⟨i, hi, e⟩ := List.mem_iff_getElem.1 hp
  have hb := bisect_of_sorted hS hi
  rw [e] at hb
  have hb' : bisect S p - 1 = i := by omega
  rw [hb']
  refine ⟨hi, e, ?_⟩
  have hperm : S.Perm (S[i] :: S.eraseIdx i) := (List.getElem_cons_eraseIdx_perm hi).symm
  rw [e] at hperm
  exact (h.trans hperm).cons_inv

theorem indexLoop_eq (l : List Nat) : ∀ (acc : Nat) (S : List Nat), S.Pairwise (· < ·) → l.Perm S →
    indexLoop acc S l = acc * l.length.factorial + rankL S l := by
  induction l with
  | nil => intro acc S _ _; simp [indexLoop, rankL]
  | cons p ps ih =>
    intro acc S hS h
    obtain ⟨hi, e, hp⟩ := perm_cons_data hS h
    simp only [indexLoop, takeDrop_eq_eraseIdx, rankL]
    rw [ih _ _ (sorted_eraseIdx hS _) hp]
    have : S.length = ps.length + 1 := by simpa using h.length_eq.symm
    rw [this, List.length_cons, Nat.factorial_succ]
    ring

theorem rankL_lt (l : List Nat) : ∀ (S : List Nat), S.Pairwise (· < ·) → l.Perm S → rankL S l < l.length.factorial := by
  induction l with
  | nil => intro S _ _; simp [rankL]
  | cons p ps ih =>
    intro S hS h
    obtain ⟨hi, e, hp⟩ := perm_cons_data hS h
    have h1 := ih _ (sorted_eraseIdx hS _) hp
    have h2 : S.length = ps.length + 1 := by simpa using h.length_eq.symm
    simp only [rankL, List.length_cons, Nat.factorial_succ]
    generalize bisect S p - 1 = i at *
    calc i * ps.length.factorial + rankL (S.eraseIdx i) ps
        < i * ps.length.factorial + ps.length.factorial := by omega
      _ = (i + 1) * ps.length.factorial := by ring
      _ ≤ (ps.length + 1) * ps.length.factorial := Nat.mul_le_mul_right _ (by omega)

theorem fromIndexLoop_rank (l : List Nat) : ∀ (S : List Nat), S.Pairwise (· < ·) → l.Perm S →
    fromIndexLoop l.length l.length.factorial (rankL S l) S = .ok l := by
  induction l with
  | nil => intro S _ _; rfl
  | cons p ps ih =>
    intro S hS h
    obtain ⟨hi, e, hp⟩ := perm_cons_data hS h
    have h1 := rankL_lt ps _ (sorted_eraseIdx hS _) hp
    have h2 : S.length = ps.length + 1 := by simpa using h.length_eq.symm
    have hih := ih _ (sorted_eraseIdx hS _) hp
    have hf : ps.length.factorial > 0 := Nat.factorial_pos _
    have hdiv : (p :: ps).length.factorial / S.length = ps.length.factorial := by
      rw [h2, List.length_cons, Nat.factorial_succ, Nat.mul_div_cancel_left _ (by omega)]
    have hq : rankL S (p :: ps) / ps.length.factorial = bisect S p - 1 := by
      simp only [rankL]
      rw [Nat.mul_comm, Nat.mul_add_div hf, Nat.div_eq_of_lt h1, Nat.add_zero]
    have hr : rankL S (p :: ps) % ps.length.factorial = rankL (S.eraseIdx (bisect S p - 1)) ps := by
      simp only [rankL]
      rw [Nat.mul_comm, Nat.mul_add_mod, Nat.mod_eq_of_lt h1]
    show fromIndexLoop (ps.length + 1) _ _ _ = _
    unfold fromIndexLoop
    simp only [hdiv, hq, hr, pyGet_ok hi, e, takeDrop_eq_eraseIdx, hih, py_bind_ok, py_pure]

theorem fromIndexLoop_ok (n : Nat) : ∀ (S : List Nat) (idx : Nat), S.Pairwise (· < ·) → S.length = n →
    idx < n.factorial → ∃ l, fromIndexLoop n n.factorial idx S = .ok l ∧ l.Perm S ∧ rankL S l = idx := by
  induction n with
  | zero =>
    intro S idx _ h hi
    have : S = [] := List.length_eq_zero_iff.1 h
    subst this
    simp at hi
    exact ⟨[], rfl, .nil, by simp [rankL, hi]⟩
  | succ n ih =>
    intro S idx hS hlen hi
    have hf : n.factorial > 0 := Nat.factorial_pos _
    have hdiv : (n + 1).factorial / S.length = n.factorial := by
      rw [hlen, Nat.factorial_succ, Nat.mul_div_cancel_left _ (by omega)]
    have hq : idx / n.factorial < S.length := by
      rw [Nat.div_lt_iff_lt_mul hf, hlen, ← Nat.factorial_succ]; exact hi
    obtain ⟨l, hl, hp, hr⟩ := ih (S.eraseIdx (idx / n.factorial)) (idx % n.factorial) (sorted_eraseIdx hS _)
      (by rw [List.length_eraseIdx_of_lt hq, hlen]; rfl) (Nat.mod_lt _ hf)
    have hlp : (S[idx / n.factorial] :: l).Perm S :=
      (hp.cons _).trans (List.getElem_cons_eraseIdx_perm hq)
    refine ⟨S[idx / n.factorial] :: l, ?_, hlp, ?_⟩
    · unfold fromIndexLoop
      simp only [hdiv, pyGet_ok hq, takeDrop_eq_eraseIdx, hl, py_bind_ok, py_pure]
    · simp only [rankL]
      have hb := bisect_of_sorted hS hq
      have hb' : bisect S S[idx / n.factorial] - 1 = idx / n.factorial := by rw [hb, Nat.add_sub_cancel]
      have hll : l.length = n := by
        have := hlp.length_eq; simp at this; omega
      rw [hb', hr, hll]
      exact Nat.div_add_mod' idx n.factorial

/-- out of range indices fail -/
theorem fromIndexLoop_error (n : Nat) (S : List Nat) (idx : Nat) (hlen : S.length = n + 1)
    (hi : (n + 1).factorial ≤ idx) : fromIndexLoop (n + 1) (n + 1).factorial idx S = .error .indexError := by
  have hf : n.factorial > 0 := Nat.factorial_pos _
  have hdiv : (n + 1).factorial / S.length = n.factorial := by
    rw [hlen, Nat.factorial_succ, Nat.mul_div_cancel_left _ (by omega)]
  have hq : S.length ≤ idx / n.factorial := by
    rw [Nat.le_div_iff_mul_le hf, hlen, ← Nat.factorial_succ]; exact hi
  unfold fromIndexLoop
  simp only [hdiv]
  have : pyGet S (idx / n.factorial) = .error .indexError := by
    unfold pyGet; rw [List.getElem?_eq_none hq]
  rw [this]; rfl

theorem rankL_lex (l : List Nat) : ∀ (S l' : List Nat), S.Pairwise (· < ·) → l.Perm S → l'.Perm S →
    List.Lex (· < ·) l l' → rankL S l < rankL S l' := by
  induction l with
  | nil =>
    intro S l' _ h h' hlex
    rw [List.nil_perm] at h
    subst h
    have := (List.perm_nil.1 h'); subst this
    cases hlex
  | cons p ps ih =>
    intro S l' hS h h' hlex
    obtain ⟨hi, e, hp⟩ := perm_cons_data hS h
    cases hlex with
    | cons hlex =>
      next ps' =>
      obtain ⟨hi', e', hp'⟩ := perm_cons_data hS h'
      have := ih _ _ (sorted_eraseIdx hS _) hp hp' hlex
      have hl : ps.length = ps'.length := by
        have := (h.trans h'.symm).length_eq; simpa using this
      simp only [rankL, hl]
      omega
    | rel hlt =>
      next q ps' =>
      obtain ⟨hi', e', hp'⟩ := perm_cons_data hS h'
      have hl : ps.length = ps'.length := by
        have := (h.trans h'.symm).length_eq; simpa using this
      have h1 := rankL_lt ps _ (sorted_eraseIdx hS _) hp
      simp only [rankL]
      have hij : bisect S p - 1 < bisect S q - 1 := by
        by_contra hc
        have hsorted := List.pairwise_iff_getElem.1 hS
        rcases Nat.lt_or_ge (bisect S q - 1) (bisect S p - 1) with h | h
        · have := hsorted _ _ hi' hi h
          rw [e, e'] at this; omega
        · have heq : bisect S p - 1 = bisect S q - 1 := by omega
          have : S[bisect S p - 1] = S[bisect S q - 1] := by congr 1
          rw [e, e'] at this; omega
      rw [← hl]
      calc _ < (bisect S p - 1) * ps.length.factorial + ps.length.factorial := by omega
        _ = (bisect S p - 1 + 1) * ps.length.factorial := by ring
        _ ≤ (bisect S q - 1) * ps.length.factorial := Nat.mul_le_mul_right _ hij
        _ ≤ _ := Nat.le_add_right _ _

theorem sorted_perm_range {p : Permutation} {n : Nat} {σ : Equiv.Perm (Fin n)} (h : p.Represents σ) :
    p.perm.insertionSort (· ≤ ·) = List.range n ∧ p.perm.Perm (List.range n) := by
  have hperm : p.perm.Perm (List.range n) := by
    unfold Represents at h
    rw [h]
    apply (List.perm_ext_iff_of_nodup ?_ List.nodup_range).2
    · intro a
      simp only [List.mem_range, List.mem_ofFn']
      constructor
      · rintro ⟨i, rfl⟩; exact Fin.isLt _
      · intro h; exact ⟨σ.symm ⟨a, h⟩, by simp⟩
    · rw [List.nodup_ofFn]
      intro i j h
      exact σ.injective (Fin.ext h)
  refine ⟨?_, hperm⟩
  have h2 := (List.perm_insertionSort (· ≤ ·) p.perm).trans hperm
  refine List.Perm.eq_of_pairwise ?_ (List.pairwise_insertionSort _ _) ?_ h2
  · intro a b _ _ h1 h2; exact le_antisymm h1 h2
  · exact List.pairwise_lt_range.imp (fun h => h.le)

theorem index_eq_rank {p : Permutation} {n : Nat} {σ : Equiv.Perm (Fin n)} (h : p.Represents σ) :
    p.index = rankL (List.range n) p.perm := by
  obtain ⟨h1, h2⟩ := sorted_perm_range h
  unfold index
  rw [h1, indexLoop_eq _ _ _ List.pairwise_lt_range h2]
  simp

end Permutation
end Curver
