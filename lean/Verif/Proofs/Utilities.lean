import Verif.Model.Utilities
import Mathlib.Data.Nat.Digits.Defs
import Mathlib.Data.List.Nodup

namespace Curver

section Index
variable {α : Type _} [DecidableEq α]

theorem pyIndex_eq_ok_iff {l : List α} {x : α} {i : Nat} :
    pyIndex l x = .ok i ↔ ∃ p q, l = p ++ x :: q ∧ x ∉ p ∧ p.length = i := by
  induction l generalizing i with
  | nil => simp [pyIndex]
  | cons a l ih =>
    unfold pyIndex
    split
    next h =>
      subst h
      constructor
      · intro h; cases h; exact ⟨[], l, by simp⟩
      · rintro ⟨p, q, h, hp, hi⟩
        cases p with
        | nil => simp at hi; simp [hi]
        | cons b p => simp at h; simp [h.1] at hp
    next h =>
      constructor
      · intro h'
        cases hl : pyIndex l x with
        | error e => simp [hl, Except.map] at h'
        | ok j =>
          simp [hl, Except.map] at h'
          obtain ⟨p, q, h1, h2, h3⟩ := ih.1 hl
          exact ⟨a :: p, q, by simp [h1], by simp [h2, Ne.symm h], by simp [h3, h']⟩
      · rintro ⟨p, q, h1, hp, hi⟩
        cases p with
        | nil => simp at h1; exact absurd h1.1 h
        | cons b p =>
          simp at h1 hp hi
          have := (ih (i := p.length)).2 ⟨p, q, h1.2, hp.2, rfl⟩
          simp [this, Except.map, hi]

theorem pyIndex_error_iff {l : List α} {x : α} {e : PyErr} :
    pyIndex l x = .error e ↔ x ∉ l ∧ e = .valueError := by
  induction l with
  | nil => simp [pyIndex, eq_comm]
  | cons a l ih =>
    unfold pyIndex
    split
    next h => simp [h]
    next h =>
      cases hl : pyIndex l x with
      | error e' => rw [hl] at ih; simp [Except.map] at ih ⊢; simp [ih, Ne.symm h]
      | ok j =>
        rw [hl] at ih; simp [Except.map] at ih ⊢
        obtain ⟨p, q, rfl, -, -⟩ := pyIndex_eq_ok_iff.1 hl
        simp

theorem pyIndex_ok_of_mem {l : List α} {x : α} (h : x ∈ l) :
    ∃ i, pyIndex l x = .ok i := by
  cases hl : pyIndex l x with
  | ok i => exact ⟨i, rfl⟩
  | error e => exact absurd h (pyIndex_error_iff.1 hl).1

theorem pyIndex_getElem {l : List α} (hn : l.Nodup) {i : Nat} (hi : i < l.length) :
    pyIndex l l[i] = .ok i := by
  refine pyIndex_eq_ok_iff.2 ⟨l.take i, l.drop (i+1), ?_, ?_, by simp; omega⟩
  · simp
  · intro h
    rw [List.mem_iff_getElem] at h
    obtain ⟨j, hj, he⟩ := h
    simp at hj he
    have := (List.Nodup.getElem_inj_iff (h := hn) ).1 he
    omega
end Index

theorem alphabet_nodup : alphabet.Nodup := by decide +kernel
theorem alphabet_length : alphabet.length = 64 := by decide +kernel

/-- position of a character of the alphabet -/
theorem b64decodeFrom_eq (s : List Char) (ds : List Nat) (i : Nat)
    (h : List.Forall₂ (fun c d => pyIndex alphabet c = .ok d) s ds) :
    b64decodeFrom i s = .ok (64 ^ i * Nat.ofDigits 64 ds) := by
  induction h generalizing i with
  | nil => simp [b64decodeFrom, Nat.ofDigits]
  | cons hc _ ih =>
    simp only [b64decodeFrom, hc, ih, bind, Except.bind, pure, Except.pure]
    rw [Nat.ofDigits_cons]
    congr 1
    rw [Nat.pow_succ]; ring

theorem b64encode_forall₂ (n : Nat) :
    List.Forall₂ (fun c d => pyIndex alphabet c = .ok d) (b64encode n) (Nat.digits 64 n) := by
  induction n using Nat.strong_induction_on with
  | _ n ih =>
    unfold b64encode
    split
    next h => simp [h]
    next h =>
      rw [Nat.digits_def' (by decide) (by omega)]
      exact List.Forall₂.cons (pyIndex_getElem alphabet_nodup _) (ih _ (by omega))

section Extrema
variable {α : Type _} [LinearOrder α] {β : Type _}

theorem foldl_min_spec (l : List α) (a : α) :
    let m := l.foldl (fun best item => if item < best then item else best) a
    m ∈ a :: l ∧ ∀ x ∈ a :: l, m ≤ x := by
  induction l generalizing a with
  | nil => simp
  | cons b l ih =>
    simp only [List.foldl_cons]
    split
    next h =>
      obtain ⟨h1, h2⟩ := ih b
      refine ⟨List.mem_cons_of_mem _ h1, ?_⟩
      intro x hx
      rcases List.mem_cons.1 hx with rfl | hx
      · exact le_trans (h2 b (by simp)) h.le
      · exact h2 x hx
    next h =>
      obtain ⟨h1, h2⟩ := ih a
      refine ⟨?_, ?_⟩
      · rcases List.mem_cons.1 h1 with h1 | h1
        · rw [h1]; simp
        · exact List.mem_cons_of_mem _ (List.mem_cons_of_mem _ h1)
      · intro x hx
        simp only [List.mem_cons] at hx
        rcases hx with rfl | rfl | hx
        · exact h2 _ (by simp)
        · exact le_trans (h2 a (by simp)) (not_lt.1 h)
        · exact h2 x (by simp [hx])

theorem pyMin_ok_iff {l : List α} {m : α} : pyMin l = .ok m ↔ m ∈ l ∧ ∀ x ∈ l, m ≤ x := by
  cases l with
  | nil => simp [pyMin]
  | cons a l =>
    have h := foldl_min_spec l a
    simp only [pyMin, Except.ok.injEq]
    constructor
    · rintro rfl; exact h
    · rintro ⟨h1, h2⟩; exact le_antisymm (h.2 _ h1) (h2 _ h.1)

theorem pyMin_error_iff {l : List α} {e : PyErr} : pyMin l = .error e ↔ l = [] ∧ e = .valueError := by
  cases l <;> simp [pyMin, eq_comm]

theorem maximinInner_some {result best : α} {l : List α} (hb : result < best) {b : α}
    (h : maximinInner result best l = some b) :
    b ∈ best :: l ∧ (∀ x ∈ best :: l, b ≤ x) ∧ result < b := by
  induction l generalizing best with
  | nil => simp only [maximinInner, Option.some.injEq] at h; subst h; simp [hb]
  | cons a l ih =>
    unfold maximinInner at h
    split at h
    · simp at h
    next h1 =>
      have h1 := not_le.1 h1
      have hb' : result < (if a < best then a else best) := by split <;> assumption
      obtain ⟨m1, m2, m3⟩ := ih hb' h
      refine ⟨?_, ?_, m3⟩
      · rcases List.mem_cons.1 m1 with m1 | m1
        · rw [m1]; split <;> simp
        · simp [m1]
      · intro x hx
        simp only [List.mem_cons] at hx
        have m0 := m2 _ (List.mem_cons_self ..)
        rcases hx with rfl | rfl | hx
        · refine le_trans m0 ?_; split
          · exact le_of_lt (by assumption)
          · exact le_refl _
        · refine le_trans m0 ?_; split
          · exact le_refl _
          · exact not_lt.1 (by assumption)
        · exact m2 x (by simp [hx])

theorem maximinInner_none {result best : α} {l : List α}
    (h : maximinInner result best l = none) : ∃ x ∈ l, x ≤ result := by
  induction l generalizing best with
  | nil => simp [maximinInner] at h
  | cons a l ih =>
    unfold maximinInner at h
    split at h
    next h1 => exact ⟨a, by simp, h1⟩
    next h1 => obtain ⟨x, hx, hx'⟩ := ih h; exact ⟨x, by simp [hx], hx'⟩

theorem maximinOuter_spec (result : α) (its : List (List α)) :
    (([] : List α) ∈ its ∧ maximinOuter result its = .error .valueError) ∨
    (([] : List α) ∉ its ∧ ∃ r, maximinOuter result its = .ok r ∧ result ≤ r ∧
      (r = result ∨ ∃ x ∈ its, r ∈ x ∧ ∀ y ∈ x, r ≤ y) ∧ ∀ x ∈ its, ∃ m ∈ x, m ≤ r) := by
  induction its generalizing result with
  | nil => right; simp [maximinOuter]
  | cons it its ih =>
    cases it with
    | nil => left; simp [maximinOuter]
    | cons best rest =>
      unfold maximinOuter
      split
      next h1 =>
        rcases ih result with ⟨h2, h3⟩ | ⟨h2, r, h3, h4, h5, h6⟩
        · left; exact ⟨by simp [h2], h3⟩
        · right
          refine ⟨by simp [h2], r, h3, h4, ?_, ?_⟩
          · rcases h5 with h5 | ⟨x, hx, h5⟩
            · left; exact h5
            · right; exact ⟨x, by simp [hx], h5⟩
          · intro x hx
            rcases List.mem_cons.1 hx with rfl | hx
            · exact ⟨best, by simp, le_trans h1 h4⟩
            · exact h6 x hx
      next h1 =>
        have h1 := not_le.1 h1
        split
        next hi =>
          obtain ⟨y, hy, hy'⟩ := maximinInner_none hi
          rcases ih result with ⟨h2, h3⟩ | ⟨h2, r, h3, h4, h5, h6⟩
          · left; exact ⟨by simp [h2], h3⟩
          · right
            refine ⟨by simp [h2], r, h3, h4, ?_, ?_⟩
            · rcases h5 with h5 | ⟨x, hx, h5⟩
              · left; exact h5
              · right; exact ⟨x, by simp [hx], h5⟩
            · intro x hx
              rcases List.mem_cons.1 hx with rfl | hx
              · exact ⟨y, by simp [hy], le_trans hy' h4⟩
              · exact h6 x hx
        next b hi =>
          obtain ⟨m1, m2, m3⟩ := maximinInner_some h1 hi
          rcases ih b with ⟨h2, h3⟩ | ⟨h2, r, h3, h4, h5, h6⟩
          · left; exact ⟨by simp [h2], h3⟩
          · right
            refine ⟨by simp [h2], r, h3, le_trans m3.le h4, ?_, ?_⟩
            · right
              rcases h5 with h5 | ⟨x, hx, h5⟩
              · subst h5; exact ⟨_, List.mem_cons_self .., m1, m2⟩
              · exact ⟨x, by simp [hx], h5⟩
            · intro x hx
              rcases List.mem_cons.1 hx with rfl | hx
              · exact ⟨b, m1, h4⟩
              · exact h6 x hx

theorem pyMaxBy_spec (key : β → α) (l : List β) (a : β) :
    ∃ p q, a :: l = p ++ (l.foldl (fun best item => if key best < key item then item else best) a) :: q ∧
      (∀ y ∈ p, key y < key (l.foldl (fun best item => if key best < key item then item else best) a)) ∧
      (∀ y ∈ q, key y ≤ key (l.foldl (fun best item => if key best < key item then item else best) a)) := by
  induction l generalizing a with
  | nil => exact ⟨[], [], by simp⟩
  | cons b l ih =>
    simp only [List.foldl_cons]
    split
    next h =>
      obtain ⟨p, q, h1, h2, h3⟩ := ih b
      refine ⟨a :: p, q, by simp [← h1], ?_, h3⟩
      intro y hy
      rcases List.mem_cons.1 hy with rfl | hy
      · cases p with
        | nil => simp at h1; rw [← h1.1]; exact h
        | cons c p =>
          simp at h1; obtain ⟨rfl, _⟩ := h1
          exact h.trans (h2 b (by simp))
      · exact h2 y hy
    next h =>
      obtain ⟨p, q, h1, h2, h3⟩ := ih a
      have h := not_lt.1 h
      cases p with
      | nil =>
        simp at h1
        refine ⟨[], b :: q, ?_, by simp, ?_⟩
        · rw [← h1.1, h1.2]; rfl
        · intro y hy
          rcases List.mem_cons.1 hy with rfl | hy
          · rw [← h1.1]; exact h
          · exact h3 y hy
      | cons c p =>
        simp at h1; obtain ⟨rfl, h1⟩ := h1
        refine ⟨a :: b :: p, q, by simpa using h1, ?_, h3⟩
        intro y hy
        simp only [List.mem_cons] at hy
        rcases hy with rfl | rfl | hy
        · exact h2 _ (by simp)
        · exact lt_of_le_of_lt h (h2 a (by simp))
        · exact h2 _ (by simp [hy])

theorem first_max_unique {key : β → α} {p q p' q' : List β} {x y : β}
    (h : p ++ x :: q = p' ++ y :: q')
    (hp : ∀ z ∈ p, key z < key x) (hq : ∀ z ∈ q, key z ≤ key x)
    (hp' : ∀ z ∈ p', key z < key y) (hq' : ∀ z ∈ q', key z ≤ key y) : x = y := by
  induction p generalizing p' with
  | nil =>
    cases p' with
    | nil => simp at h; exact h.1
    | cons c p' =>
      simp at h; obtain ⟨rfl, h⟩ := h
      have h1 := hp' x (by simp)
      have h2 := hq y (by simp [h])
      exact absurd h1 (not_lt.2 h2)
  | cons c p ih =>
    cases p' with
    | nil =>
      simp at h; obtain ⟨rfl, h⟩ := h
      have h1 := hp c (by simp)
      have h2 := hq' x (by simp [← h])
      exact absurd h1 (not_lt.2 h2)
    | cons c' p' =>
      simp at h; obtain ⟨rfl, h⟩ := h
      exact ih h (fun z hz => hp z (by simp [hz])) (fun z hz => hp' z (by simp [hz]))

theorem pyMaxBy_ok_iff {key : β → α} {l : List β} {x : β} :
    pyMaxBy key l = .ok x ↔ ∃ p q, l = p ++ x :: q ∧ (∀ y ∈ p, key y < key x) ∧ ∀ y ∈ q, key y ≤ key x := by
  cases l with
  | nil => simp [pyMaxBy]
  | cons a l =>
    obtain ⟨p, q, h1, h2, h3⟩ := pyMaxBy_spec key l a
    simp only [pyMaxBy, Except.ok.injEq]
    constructor
    · rintro rfl; exact ⟨p, q, h1, h2, h3⟩
    · rintro ⟨p', q', h1', h2', h3'⟩
      exact first_max_unique (h1.symm.trans h1') h2 h3 h2' h3'

theorem maximumHelper_of_reaches (key : β → α) (ub : α) (p q : List β) (x : β)
    (hp : ∀ y ∈ p, key y < ub) (hx : ub ≤ key x) :
    maximumHelper key ub (p ++ x :: q) = p ++ [x] := by
  induction p with
  | nil => simp [maximumHelper, hx]
  | cons a p ih =>
    have := hp a (by simp)
    simp only [List.cons_append, maximumHelper, not_le.2 this, if_false]
    rw [ih (fun y hy => hp y (by simp [hy]))]

theorem maximumHelper_of_below (key : β → α) (ub : α) (l : List β)
    (hp : ∀ y ∈ l, key y < ub) : maximumHelper key ub l = l := by
  induction l with
  | nil => rfl
  | cons a p ih =>
    have := hp a (by simp)
    simp only [maximumHelper, not_le.2 this, if_false]
    rw [ih (fun y hy => hp y (by simp [hy]))]

theorem maxesLoop_eq (key : β → α) (best : α) (pre l : List β)
    (hb : ∀ y ∈ pre, key y ≤ best) (hex : ∃ y ∈ pre, key y = best) :
    ∃ M, (∀ y ∈ pre ++ l, key y ≤ M) ∧ (∃ y ∈ pre ++ l, key y = M) ∧
      maxesLoop key best (pre.filter (fun x => key x = best)) l = (pre ++ l).filter (fun x => key x = M) := by
  induction l generalizing best pre with
  | nil => exact ⟨best, by simpa using hb, by simpa using hex, by simp [maxesLoop]⟩
  | cons a l ih =>
    unfold maxesLoop
    split
    next h =>
      have h1 : ∀ y ∈ pre ++ [a], key y ≤ key a := by
        intro y hy
        rcases List.mem_append.1 hy with hy | hy
        · exact (hb y hy).trans h.le
        · simp at hy; rw [hy]
      obtain ⟨M, m1, m2, m3⟩ := ih (key a) (pre ++ [a]) h1 ⟨a, by simp, rfl⟩
      have : (pre ++ [a]).filter (fun x => key x = key a) = [a] := by
        rw [List.filter_append]
        have : pre.filter (fun x => key x = key a) = [] := by
          rw [List.filter_eq_nil_iff]
          intro y hy
          simpa using ((hb y hy).trans_lt h).ne
        simp [this]
      rw [this] at m3
      refine ⟨M, by simpa using m1, by simpa using m2, by simpa using m3⟩
    next h =>
      have h := not_lt.1 h
      have h1 : ∀ y ∈ pre ++ [a], key y ≤ best := by
        intro y hy
        rcases List.mem_append.1 hy with hy | hy
        · exact hb y hy
        · simp at hy; rw [hy]; exact h
      obtain ⟨y, hy, hy'⟩ := hex
      obtain ⟨M, m1, m2, m3⟩ := ih best (pre ++ [a]) h1 ⟨y, by simp [hy], hy'⟩
      split
      next h2 =>
        refine ⟨M, by simpa using m1, by simpa using m2, ?_⟩
        rw [List.filter_append] at m3
        simpa [h2] using m3
      next h2 =>
        refine ⟨M, by simpa using m1, by simpa using m2, ?_⟩
        rw [List.filter_append] at m3
        simpa [h2] using m3

end Extrema
end Curver
