import Verif.Proofs.Utilities

/-!
# Properties of the utility functions: C02, C22, C23, C48, C49
-/

namespace Curver

/-! ## C02 base 64 -/

/-- C02: decoding an encoded number gives the number back. -/
theorem C02_roundtrip (n : Nat) : b64decode (b64encode n) = .ok n := by
  rw [b64decode, b64decodeFrom_eq _ _ _ (b64encode_forall₂ n)]
  simp [Nat.ofDigits_digits]

/-- C02: distinct numbers have distinct strings. -/
theorem C02_injective {m n : Nat} (h : b64encode m = b64encode n) : m = n := by
  have h1 := C02_roundtrip m
  rw [h, C02_roundtrip n] at h1
  exact (Except.ok.inj h1).symm

/-- C02: only letters of the alphabet occur, in particular never the separator `_`. -/
theorem C02_alphabet (n : Nat) : (∀ c ∈ b64encode n, c ∈ alphabet) ∧ '_' ∉ b64encode n := by
  have h : ∀ c ∈ b64encode n, c ∈ alphabet := by
    have h2 := b64encode_forall₂ n
    revert h2
    generalize b64encode n = s
    generalize Nat.digits 64 n = ds
    intro h2
    induction h2 with
    | nil => simp
    | cons hc _ ih =>
      intro x hx
      rcases List.mem_cons.1 hx with rfl | hx
      · obtain ⟨p, q, h1, -, -⟩ := pyIndex_eq_ok_iff.1 hc
        rw [h1]; simp
      · exact ih x hx
  exact ⟨h, fun h' => absurd (h _ h') (by decide)⟩

/-- C02: the value of a string whose `i`-th character is the letter number `ds[i]` of the alphabet is
the number with those base 64 digits, least significant first. -/
theorem C02_decode_value (ds : List (Fin 64)) :
    b64decode (ds.map fun d => alphabet[d.val]'(by rw [alphabet_length]; exact d.isLt)) =
      .ok (Nat.ofDigits 64 (ds.map Fin.val)) := by
  rw [b64decode, b64decodeFrom_eq (ds := ds.map Fin.val)]
  · simp
  · induction ds with
    | nil => simp
    | cons d ds ih => exact List.Forall₂.cons (pyIndex_getElem alphabet_nodup _) ih

/-- C02: a string with a character outside the alphabet is rejected with ValueError. -/
theorem C02_decode_error (s : List Char) (c : Char) (hc : c ∈ s) (ha : c ∉ alphabet) :
    b64decode s = .error .valueError := by
  unfold b64decode
  generalize 0 = i
  induction s generalizing i with
  | nil => simp at hc
  | cons d s ih =>
    unfold b64decodeFrom
    cases hd : pyIndex alphabet d with
    | error e => simp [bind, Except.bind, (pyIndex_error_iff.1 hd).2]
    | ok j =>
      have : c ∈ s := by
        rcases List.mem_cons.1 hc with rfl | h
        · obtain ⟨p, q, h1, -, -⟩ := pyIndex_eq_ok_iff.1 hd
          exact absurd (by rw [h1]; simp) ha
        · exact h
      simp [bind, Except.bind, ih this]

example : b64encode 4097 = ['1', '0', '1'] := by decide +kernel
example : b64decode ['1', '0', '1'] = .ok 4097 := by decide +kernel
example : b64decode ['1', '_'] = .error .valueError := by decide +kernel

/-! ## C22 extrema with early exit -/

section
variable {α : Type _} [LinearOrder α] {β : Type _}

/-- C22: `maximin(*xs)` is the maximum of the minima. -/
theorem C22_maximin (xs : List (List α)) (r : α) :
    maximin xs = .ok r ↔
      (∀ x ∈ xs, x ≠ []) ∧ (∃ x ∈ xs, r ∈ x ∧ ∀ y ∈ x, r ≤ y) ∧ (∀ x ∈ xs, ∃ m ∈ x, m ≤ r) := by
  have key : ∀ r, maximin xs = .ok r →
      (∀ x ∈ xs, x ≠ []) ∧ (∃ x ∈ xs, r ∈ x ∧ ∀ y ∈ x, r ≤ y) ∧ (∀ x ∈ xs, ∃ m ∈ x, m ≤ r) := by
    intro r h
    cases xs with
    | nil => simp [maximin] at h
    | cons it its =>
      simp only [maximin, bind, Except.bind] at h
      split at h
      · simp at h
      next m hm =>
        obtain ⟨m1, m2⟩ := pyMin_ok_iff.1 hm
        rcases maximinOuter_spec m its with ⟨_, h3⟩ | ⟨h2, r', h3, h4, h5, h6⟩
        · rw [h3] at h; simp at h
        · rw [h3] at h; cases h
          refine ⟨?_, ?_, ?_⟩
          · intro x hx
            rcases List.mem_cons.1 hx with rfl | hx
            · rintro rfl; simp at m1
            · rintro rfl; exact h2 hx
          · rcases h5 with rfl | ⟨x, hx, h5⟩
            · exact ⟨it, by simp, m1, m2⟩
            · exact ⟨x, by simp [hx], h5⟩
          · intro x hx
            rcases List.mem_cons.1 hx with rfl | hx
            · exact ⟨m, m1, h4⟩
            · exact h6 x hx
  constructor
  · exact key r
  · rintro ⟨h1, ⟨x, hx, hrx, hrm⟩, h3⟩
    have hex : ∃ r', maximin xs = .ok r' := by
      cases xs with
      | nil => simp at hx
      | cons it its =>
        cases hm : pyMin it with
        | error e => exact absurd (pyMin_error_iff.1 hm).1 (h1 it (by simp))
        | ok m =>
          rcases maximinOuter_spec m its with ⟨h2, _⟩ | ⟨_, r', h3, _⟩
          · exact absurd rfl (h1 [] (by simp [h2]))
          · exact ⟨r', by simp [maximin, hm, bind, Except.bind, h3]⟩
    obtain ⟨r', hr'⟩ := hex
    obtain ⟨_, ⟨x', hx', h4, h5⟩, h6⟩ := key r' hr'
    obtain ⟨m, hm, hm'⟩ := h6 x hx
    obtain ⟨m2, hm2, hm2'⟩ := h3 x' hx'
    have e : r = r' := le_antisymm ((hrm m hm).trans hm') ((h5 m2 hm2).trans hm2')
    rw [e, hr']

/-- C22: `maximin` raises exactly when `max(min(x) for x in xs)` would, and then a ValueError. -/
theorem C22_maximin_error (xs : List (List α)) (e : PyErr) :
    maximin xs = .error e ↔ (xs = [] ∨ [] ∈ xs) ∧ e = .valueError := by
  cases xs with
  | nil => simp [maximin, eq_comm]
  | cons it its =>
    cases hm : pyMin it with
    | error e' =>
      obtain ⟨rfl, rfl⟩ := pyMin_error_iff.1 hm
      simp [maximin, hm, bind, Except.bind, eq_comm]
    | ok m =>
      have : it ≠ [] := by rintro rfl; simp [pyMin] at hm
      rcases maximinOuter_spec m its with ⟨h2, h3⟩ | ⟨h2, r', h3, _⟩
      · simp [maximin, hm, bind, Except.bind, h3, h2, eq_comm]
      · simp [maximin, hm, bind, Except.bind, h3, h2, this.symm]

/-- C22: without a bound `maximum` is Python's `max`: the first item of maximal key. -/
theorem C22_maximum_nobound (key : β → α) (l : List β) (x : β) :
    maximum key none l = .ok x ↔
      ∃ p q, l = p ++ x :: q ∧ (∀ y ∈ p, key y < key x) ∧ ∀ y ∈ q, key y ≤ key x := pyMaxBy_ok_iff

/-- C22: with a genuine upper bound the early exit never changes the answer. -/
theorem C22_maximum_bound (key : β → α) (ub : α) (l : List β) (h : ∀ y ∈ l, key y ≤ ub) :
    maximum key (some ub) l = maximum key none l := by
  by_cases hb : ∃ y ∈ l, ub ≤ key y
  · -- the first item reaching the bound
    have hsplit : ∃ p x q, l = p ++ x :: q ∧ (∀ y ∈ p, key y < ub) ∧ ub ≤ key x := by
      clear h
      induction l with
      | nil => simp at hb
      | cons a l ih =>
        by_cases ha : ub ≤ key a
        · exact ⟨[], a, l, by simp [ha]⟩
        · obtain ⟨y, hy, hy'⟩ := hb
          rcases List.mem_cons.1 hy with rfl | hy
          · exact absurd hy' ha
          · obtain ⟨p, x, q, h1, h2, h3⟩ := ih ⟨y, hy, hy'⟩
            refine ⟨a :: p, x, q, by simp [h1], ?_, h3⟩
            intro z hz
            rcases List.mem_cons.1 hz with rfl | hz
            · exact not_le.1 ha
            · exact h2 z hz
    obtain ⟨p, x, q, rfl, hp, hx⟩ := hsplit
    have hxe : key x = ub := le_antisymm (h x (by simp)) hx
    simp only [maximum, maximumHelper_of_reaches key ub p q x hp hx]
    have h1 : pyMaxBy key (p ++ [x]) = .ok x :=
      pyMaxBy_ok_iff.2 ⟨p, [], by simp, by rw [hxe]; exact hp, by simp⟩
    have h2 : pyMaxBy key (p ++ x :: q) = .ok x :=
      pyMaxBy_ok_iff.2 ⟨p, q, rfl, by rw [hxe]; exact hp, by
        intro y hy; rw [hxe]; exact h y (by simp [hy])⟩
    rw [h1, h2]
  · have : ∀ y ∈ l, key y < ub := fun y hy => not_le.1 fun h' => hb ⟨y, hy, h'⟩
    simp only [maximum, maximumHelper_of_below key ub l this]

/-- C22: for an arbitrary bound, evaluation stops at the first item `x` whose key reaches it and `x` is returned
(everything after `x` is never looked at). -/
theorem C22_maximum_reaches (key : β → α) (ub : α) (p q : List β) (x : β)
    (hp : ∀ y ∈ p, key y < ub) (hx : ub ≤ key x) :
    maximum key (some ub) (p ++ x :: q) = .ok x := by
  simp only [maximum, maximumHelper_of_reaches key ub p q x hp hx]
  exact pyMaxBy_ok_iff.2 ⟨p, [], by simp, fun y hy => (hp y hy).trans_le hx, by simp⟩

/-- C22: `maximum` fails exactly on the empty iterable. -/
theorem C22_maximum_error (key : β → α) (ub : Option α) (l : List β) (e : PyErr) :
    maximum key ub l = .error e ↔ l = [] ∧ e = .valueError := by
  cases l with
  | nil => cases ub <;> simp [maximum, maximumHelper, pyMaxBy, eq_comm]
  | cons a l =>
    cases ub with
    | none => simp [maximum, pyMaxBy]
    | some ub => simp only [maximum, maximumHelper]; split <;> simp [pyMaxBy]

/-- C22: `maxes` returns exactly the items of maximal key, in their original order. -/
theorem C22_maxes (key : β → α) (l ans : List β) :
    maxes key l = .ok ans ↔ l ≠ [] ∧ ans = l.filter (fun x => decide (∀ y ∈ l, key y ≤ key x)) := by
  cases l with
  | nil => simp [maxes]
  | cons a l =>
    obtain ⟨M, m1, ⟨y, hy, m2⟩, m3⟩ := maxesLoop_eq key (key a) [a] l (by simp) ⟨a, by simp, rfl⟩
    simp only [maxes, Except.ok.injEq, ne_eq, reduceCtorEq, not_false_eq_true, true_and]
    have e1 : maxesLoop key (key a) [a] l = (a :: l).filter (fun x => key x = M) := by
      simpa using m3
    have e2 : (a :: l).filter (fun x => key x = M) =
        (a :: l).filter (fun x => decide (∀ y ∈ a :: l, key y ≤ key x)) := by
      apply List.filter_congr
      intro x hx
      simp only [decide_eq_decide]
      constructor
      · rintro rfl; exact m1
      · intro h; exact le_antisymm (m1 x hx) (m2 ▸ h y hy)
    rw [e1, e2, eq_comm]

theorem C22_maxes_error (key : β → α) (l : List β) (e : PyErr) :
    maxes key l = .error e ↔ l = [] ∧ e = .valueError := by
  cases l <;> simp [maxes, eq_comm]
end

example : maximin [[3, 1, 2], [5, 4], [9, 0]] = .ok (4 : Int) := by decide
example : maximum (fun x : Int => x * x) (some 16) [1, -4, 4, 9] = .ok (-4) := by decide
example : maxes (fun x : Int => x * x) [1, -4, 4, 2] = .ok [-4, 4] := by decide

/-! ## C23 cyclic_slice -/

section
variable {α : Type _} [DecidableEq α]

/-- C23: without a stop item the whole list, rotated to start at the first `x`. -/
theorem C23_rotation (p q : List α) (x : α) (hx : x ∉ p) :
    cyclicSlice (p ++ x :: q) x none = .ok (x :: q ++ p) := by
  have h : pyIndex (p ++ x :: q) x = .ok p.length := pyIndex_eq_ok_iff.2 ⟨p, q, rfl, hx, rfl⟩
  simp [cyclicSlice, h, bind, Except.bind, pure, Except.pure]

/-- C23: an absent stop item is the same as none. -/
theorem C23_stop_absent (L : List α) (x y : α) (hy : y ∉ L) :
    cyclicSlice L x (some y) = cyclicSlice L x none := by
  unfold cyclicSlice
  cases h : pyIndex L x with
  | error e => rfl
  | ok i =>
    simp only [bind, Except.bind, pure, Except.pure]
    have : y ∉ L.drop i ++ L.take i := by
      intro h'
      rcases List.mem_append.1 h' with h' | h'
      · exact hy (List.mem_of_mem_drop h')
      · exact hy (List.mem_of_mem_take h')
    have := pyIndex_error_iff.2 ⟨this, rfl⟩
    rw [this]

/-- C23: with a present stop item the slice is the part of the rotation before the first `y`. -/
theorem C23_stop (p q r s : List α) (x y : α) (hx : x ∉ p)
    (hr : x :: q ++ p = r ++ y :: s) (hy : y ∉ r) :
    cyclicSlice (p ++ x :: q) x (some y) = .ok r := by
  have h : pyIndex (p ++ x :: q) x = .ok p.length := pyIndex_eq_ok_iff.2 ⟨p, q, rfl, hx, rfl⟩
  have h2 : pyIndex (r ++ y :: s) y = .ok r.length := pyIndex_eq_ok_iff.2 ⟨r, s, rfl, hy, rfl⟩
  simp only [cyclicSlice, h, bind, Except.bind, pure, Except.pure, List.drop_left, List.take_left]
  rw [hr, h2]
  simp

/-- C23: a missing start item raises ValueError. -/
theorem C23_error (L : List α) (x : α) (y : Option α) (e : PyErr) :
    cyclicSlice L x y = .error e ↔ x ∉ L ∧ e = .valueError := by
  unfold cyclicSlice
  cases h : pyIndex L x with
  | error e' =>
    obtain ⟨h1, rfl⟩ := pyIndex_error_iff.1 h
    simp [bind, Except.bind, h1, eq_comm]
  | ok i =>
    obtain ⟨p, q, rfl, -, -⟩ := pyIndex_eq_ok_iff.1 h
    simp only [bind, Except.bind, pure, Except.pure]
    cases y with
    | none => simp
    | some y => simp only; split <;> simp

/-- C23: going from `x` to `y` and then from `y` to `x` reads the whole list once, cyclically. -/
theorem C23_complementary (L : List α) (hn : L.Nodup) (x y : α) (hx : x ∈ L) (hy : y ∈ L) (hxy : x ≠ y) :
    ∃ r s, cyclicSlice L x (some y) = .ok r ∧ cyclicSlice L y (some x) = .ok s ∧
      (∃ p q, L = p ++ q ∧ r ++ s = q ++ p) := by
  obtain ⟨p, q, rfl⟩ := List.append_of_mem hx
  have hxp : x ∉ p := fun h => by
    rw [List.nodup_append] at hn
    exact hn.2.2 x h x (by simp) rfl
  have hxq : x ∉ q := by
    rw [List.nodup_append] at hn
    exact (List.nodup_cons.1 hn.2.1).1
  have hy' : y ∈ x :: q ++ p := by
    simp only [List.mem_append, List.mem_cons] at hy ⊢; tauto
  have hn' : (x :: q ++ p).Nodup := by
    refine (List.Perm.nodup_iff ?_).1 hn
    exact List.perm_append_comm
  obtain ⟨r, s, h⟩ := List.append_of_mem hy'
  have hyr : y ∉ r := by
    rw [h, List.nodup_append] at hn'
    exact fun h' => hn'.2.2 y h' y (by simp) rfl
  have h1 := C23_stop p q r s x y hxp h hyr
  -- the other slice
  cases r with
  | nil => simp at h; exact absurd h.1 hxy
  | cons x' r =>
    simp only [List.cons_append, List.cons.injEq] at h
    obtain ⟨rfl, h⟩ := h
    refine ⟨x :: r, y :: s, h1, ?_, p, x :: q, rfl, by simp [h]⟩
    -- where is y?
    rw [List.append_eq_append_iff] at h
    have hys : y ∉ s := by
      rw [List.cons_append, List.nodup_cons] at hn'
      have := hn'.2
      rcases h with ⟨a, ha, hb⟩ | ⟨a, ha, hb⟩
      · subst ha; subst hb
        rw [← List.append_assoc, List.nodup_append] at this
        exact (List.nodup_cons.1 this.2.1).1
      · subst ha
        rw [List.append_assoc, ← hb, List.nodup_append] at this
        exact (List.nodup_cons.1 this.2.1).1
    rcases h with ⟨a, ha, hb⟩ | ⟨a, ha, hb⟩
    · -- y in p
      subst ha; subst hb
      have := C23_stop a (s ++ x :: q) (y :: s) (q ++ a) y x
        (fun h' => hyr (by simp [h'])) (by simp) (by
          simp only [List.mem_cons, not_or]
          exact ⟨hxy, fun h' => hxp (by simp [h'])⟩)
      simpa using this
    · cases a with
      | nil =>
        simp at ha hb; subst ha; subst hb
        have := C23_stop [] (s ++ x :: q) (y :: s) q y x (by simp) (by simp) (by
          simp only [List.mem_cons, not_or]
          exact ⟨hxy, fun h' => hxp (by simp [h'])⟩)
        simpa using this
      | cons y' a =>
        simp at hb; obtain ⟨rfl, rfl⟩ := hb
        subst ha
        have := C23_stop (p ++ x :: r) a (y :: (a ++ p)) r y x
          (by
            simp only [List.mem_append, not_or]
            exact ⟨fun h' => hys (by simp [h']), hyr⟩) (by simp) (by
            simp only [List.mem_cons, List.mem_append, not_or]
            refine ⟨hxy, fun h' => hxq (by simp [h']), hxp⟩)
        simpa using this

end

example : cyclicSlice [1, 2, 3, 4, 5] 4 (some 2) = .ok [4, 5, 1] := by decide
example : cyclicSlice [1, 2, 3] 7 none = .error .valueError := by decide
example : [1, 2, 3, 4].Nodup ∧ 3 ∈ [1, 2, 3, 4] ∧ 1 ∈ [1, 2, 3, 4] ∧ (3 : Nat) ≠ 1 := by decide

/-! ## C48 product -/

section
variable {M : Type _} [Monoid M]

/-- C48: by default later items multiply on the left: the product of `[a, b, c]` is `c * b * a`. -/
theorem C48_left (l : List M) (h : l ≠ []) (start : M) : product l start = l.reverse.prod := by
  obtain ⟨a, l, rfl⟩ := List.exists_cons_of_ne_nil h
  simp only [product, if_true]
  have : ∀ (l : List M) (a : M), l.foldl (fun result item => item * result) a = l.reverse.prod * a := by
    intro l
    induction l with
    | nil => simp
    | cons b l ih => intro a; simp [ih, mul_assoc]
  rw [this]; simp

/-- C48: with `left=False` the items are multiplied in reading order. -/
theorem C48_right (l : List M) (h : l ≠ []) (start : M) : product l start false = l.prod := by
  obtain ⟨a, l, rfl⟩ := List.exists_cons_of_ne_nil h
  simp only [product, Bool.false_eq_true, if_false]
  have : ∀ (l : List M) (a : M), l.foldl (fun result item => result * item) a = a * l.prod := by
    intro l
    induction l with
    | nil => simp
    | cons b l ih => intro a; simp [ih, mul_assoc]
  rw [this]; simp

/-- C48: `start` is returned for the empty iterable only. -/
theorem C48_empty (start : M) (left : Bool) : product ([] : List M) start left = start := rfl
end

example : product [2, 3, 5] (1 : Int) = 30 := by decide

/-! ## C49 exact halving -/

/-- C49: `half * x` for integers succeeds exactly on even numbers with the exact half. -/
theorem C49_int (x y : Int) : half x = .ok y ↔ 2 * y = x := by
  unfold half
  cases h : Halvable.half? x with
  | some z => rw [Halvable.half?_eq_some] at h; simp; omega
  | none =>
    have h' : Halvable.half? x ≠ some y := by rw [h]; simp
    rw [Ne, Halvable.half?_eq_some] at h'
    simp only [reduceCtorEq, false_iff]; omega

/-- C49: an odd integer raises ValueError. -/
theorem C49_int_error (x : Int) (e : PyErr) : half x = .error e ↔ (∀ y, 2 * y ≠ x) ∧ e = .valueError := by
  cases h : half x with
  | ok y => have := (C49_int x y).1 h; simp; intro h'; exact absurd this (h' y)
  | error e' =>
    have h1 : ∀ y, 2 * y ≠ x := fun y hy => by rw [(C49_int x y).2 hy] at h; cases h
    have h2 : e' = .valueError := by
      unfold half at h; split at h <;> cases h; rfl
    subst h2
    simp [h1, eq_comm]

/-- C49: in an ordered field halving never fails and is exact. -/
theorem C49_field {R : Type _} [Field R] [LinearOrder R] [IsStrictOrderedRing R] (x : R) :
    ∃ y, half x = .ok y ∧ 2 * y = x := by
  have h2 : (2 : R) ≠ 0 := two_ne_zero
  refine ⟨x / 2, ?_, by field_simp⟩
  have h : (Halvable.half? x : Option R) = some (x / 2) := by
    rw [Halvable.half?_eq_some]; field_simp; ring
  simp [half, h]

example : half (-6 : Int) = .ok (-3) ∧ half (7 : Int) = .error .valueError := by decide

end Curver
