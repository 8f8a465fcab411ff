import Verif.Proofs.Parser
import Verif.Proofs.McgCreate

namespace Curver
namespace Parser

/-! ### the tokens of a string -/

theorem dropWhile_lt {p : Char → Bool} {c : Char} {t : Str} (h : p c = true) : ((c :: t).dropWhile p).length < (c :: t).length := by
  rw [List.dropWhile_cons_of_pos h, List.length_cons]
  exact Nat.lt_succ_of_le ((List.dropWhile_sublist p).length_le)

theorem dropWhile_le {p : Char → Bool} {t : Str} : (t.dropWhile p).length ≤ t.length := (List.dropWhile_sublist p).length_le

theorem tokensAux_fuel : ∀ (fuel : Nat) (s : Str), s.length ≤ fuel → tokensAux fuel s = tokensAux s.length s := by
  have main : ∀ (n : Nat) (s : Str), s.length ≤ n → ∀ fuel, s.length ≤ fuel → ∀ fuel', s.length ≤ fuel' → tokensAux fuel s = tokensAux fuel' s := by
    intro n
    induction n with
    | zero =>
      intro s hs fuel _ fuel' _
      have : s = [] := List.length_eq_zero_iff.1 (by omega)
      subst this
      cases fuel <;> cases fuel' <;> simp [tokensAux]
    | succ n ih =>
      intro s hs fuel h1 fuel' h2
      cases s with
      | nil => cases fuel <;> cases fuel' <;> simp [tokensAux]
      | cons c t =>
        rw [List.length_cons] at hs h1 h2
        obtain ⟨f, rfl⟩ : ∃ f, fuel = f + 1 := ⟨fuel - 1, by omega⟩
        obtain ⟨f', rfl⟩ : ∃ f, fuel' = f + 1 := ⟨fuel' - 1, by omega⟩
        have go : ∀ u : Str, u.length ≤ t.length → tokensAux f u = tokensAux f' u := fun u hu => ih u (by omega) f (by omega) f' (by omega)
        have h3 : (t.dropWhile Str.isDigit).length ≤ t.length := dropWhile_le
        simp only [tokensAux]
        by_cases hd : Str.isDigit c = true
        · have := dropWhile_lt (p := Str.isDigit) (t := t) hd
          rw [List.length_cons] at this
          rw [if_pos hd, if_pos hd, go _ (by omega)]
        · rw [if_neg hd, if_neg hd, go t (le_refl _), go _ h3]
          by_cases hr : isRun c = true
          · have := dropWhile_lt (p := isRun) (t := t) hr
            rw [List.length_cons] at this
            rw [if_pos hr, if_pos hr, go _ (by omega)]
          · rw [if_neg hr, if_neg hr]
  intro fuel s h
  exact main s.length s (le_refl _) fuel h _ (le_refl _)

/-- the tokens of a string -/
def lex (s : Str) : List Token := tokensAux s.length s

theorem lex_cons (c : Char) (t : Str) : lex (c :: t) =
    if Str.isDigit c then .int (Str.digitsValue ((c :: t).takeWhile Str.isDigit)) :: lex ((c :: t).dropWhile Str.isDigit)
    else if c = '+' && (t.head?.any Str.isDigit) then .int (Str.digitsValue (t.takeWhile Str.isDigit)) :: lex (t.dropWhile Str.isDigit)
    else if c = '-' && (t.head?.any Str.isDigit) then .int (-(Str.digitsValue (t.takeWhile Str.isDigit) : Int)) :: lex (t.dropWhile Str.isDigit)
    else if c = '^' then .caret :: lex t
    else if c = '(' then .opening :: lex t
    else if c = ')' then .closing :: lex t
    else if isRun c then .word ((c :: t).takeWhile isRun) :: lex ((c :: t).dropWhile isRun)
    else lex t := by
  have h3 : (t.dropWhile Str.isDigit).length ≤ t.length := dropWhile_le
  unfold lex
  rw [List.length_cons, tokensAux]
  by_cases hd : Str.isDigit c = true
  · have := dropWhile_lt (p := Str.isDigit) (t := t) hd
    rw [List.length_cons] at this
    rw [if_pos hd, if_pos hd, tokensAux_fuel t.length _ (by omega)]
  · rw [if_neg hd, if_neg hd, tokensAux_fuel t.length _ h3]
    by_cases hr : isRun c = true
    · have := dropWhile_lt (p := isRun) (t := t) hr
      rw [List.length_cons] at this
      rw [if_pos hr, if_pos hr, tokensAux_fuel t.length _ (by omega : (List.dropWhile isRun (c :: t)).length ≤ _)]
    · rw [if_neg hr, if_neg hr]

theorem lex_nil : lex [] = [] := rfl

theorem lex_caret (t : Str) : lex ('^' :: t) = .caret :: lex t := by
  rw [lex_cons, if_neg (by decide), if_neg (by simp), if_neg (by simp), if_pos rfl]

theorem lex_opening (t : Str) : lex ('(' :: t) = .opening :: lex t := by
  rw [lex_cons, if_neg (by decide), if_neg (by simp), if_neg (by simp), if_neg (by decide), if_pos rfl]

theorem lex_closing (t : Str) : lex (')' :: t) = .closing :: lex t := by
  rw [lex_cons, if_neg (by decide), if_neg (by simp), if_neg (by simp), if_neg (by decide), if_neg (by decide), if_pos rfl]

theorem takeWhile_append_stop {p : Char → Bool} {u r : Str} (hu : ∀ c ∈ u, p c = true) (hr : r.head?.any p = false) :
    (u ++ r).takeWhile p = u ∧ (u ++ r).dropWhile p = r := by
  induction u with
  | nil =>
    cases r with
    | nil => simp
    | cons c r =>
      have hc : p c = false := by simpa using hr
      simp [hc]
  | cons a u ih =>
    have ha := hu a (by simp)
    obtain ⟨h1, h2⟩ := ih (fun c hc => hu c (by simp [hc]))
    simp [ha, h1, h2]

theorem isRun_notSpecial {c : Char} (h : isRun c = true) : c ≠ '+' ∧ c ≠ '-' ∧ c ≠ '^' ∧ c ≠ '(' ∧ c ≠ ')' := by
  refine ⟨?_, ?_, ?_, ?_, ?_⟩ <;> rintro rfl <;> exact absurd h (by decide)

theorem lex_word {c : Char} {u r : Str} (hc : Str.isDigit c = false) (hu : ∀ d ∈ c :: u, isRun d = true) (hr : r.head?.any isRun = false) :
    lex ((c :: u) ++ r) = .word (c :: u) :: lex r := by
  obtain ⟨h1, h2⟩ := takeWhile_append_stop hu hr
  have hcr := hu c (by simp)
  obtain ⟨n1, n2, n3, n4, n5⟩ := isRun_notSpecial hcr
  rw [List.cons_append] at *
  rw [lex_cons, if_neg (by simp [hc]), if_neg (by simp [n1]), if_neg (by simp [n2]), if_neg n3, if_neg n4, if_neg n5, if_pos hcr, h1, h2]

theorem digitsValue_eq (ds : Str) : Str.digitsValue ds = decimal ds := by
  have key : ∀ (ds : Str) (a : Nat), ds.foldl (fun a c => 10 * a + (c.toNat - '0'.toNat)) a = a * 10 ^ ds.length + decimal ds := by
    intro ds
    induction ds with
    | nil => intro a; simp [decimal]
    | cons c ds ih =>
      intro a
      have h1 : decimal (c :: ds) = decimal ds + 10 ^ ds.length * (c.toNat - '0'.toNat) := by
        unfold decimal
        rw [List.reverse_cons, List.map_append, Nat.ofDigits_append]
        simp
      rw [List.foldl_cons, ih, h1, List.length_cons, pow_succ]
      ring
  unfold Str.digitsValue
  rw [key]; simp

theorem lex_exponent {e : Str} {n : Int} (h : IsExponent e n) {r : Str} (hr : r.head?.any Str.isDigit = false) :
    lex (e ++ r) = .int n :: lex r := by
  cases h with
  | plain ds h1 h2 =>
    cases e with
    | nil => exact absurd rfl h1
    | cons c u =>
      obtain ⟨k1, k2⟩ := takeWhile_append_stop h2 hr
      rw [List.cons_append] at *
      rw [lex_cons, if_pos (h2 c (by simp)), k1, k2, digitsValue_eq]
  | plus ds h1 h2 =>
    obtain ⟨k1, k2⟩ := takeWhile_append_stop h2 hr
    have : (ds ++ r).head?.any Str.isDigit = true := by
      cases ds with
      | nil => exact absurd rfl h1
      | cons c u => simpa using h2 c (by simp)
    rw [List.cons_append, lex_cons, if_neg (by decide), if_pos (by simpa using this), k1, k2, digitsValue_eq]
  | minus ds h1 h2 =>
    obtain ⟨k1, k2⟩ := takeWhile_append_stop h2 hr
    have : (ds ++ r).head?.any Str.isDigit = true := by
      cases ds with
      | nil => exact absurd rfl h1
      | cons c u => simpa using h2 c (by simp)
    rw [List.cons_append, lex_cons, if_neg (by decide), if_neg (by simp), if_pos (by simpa using this), k1, k2, digitsValue_eq]

/-! ### the tokens of an expression -/

/-- names that can be typed -/
structure Typed (names : List Str) : Prop extends Names names where
  word : ∀ n ∈ names, ∀ c ∈ n, Str.isWord c = true
  first : ∀ n ∈ names, ∀ c t, n = c :: t → Str.isDigit c = false

variable {names : List Str}

theorem cut_run (H : Typed names) {w : Str} {ls : List Str} (h : Cut names w ls) : (∀ c ∈ w, isRun c = true) ∧
    ∀ c t, w = c :: t → Str.isDigit c = false := by
  induction h with
  | nil => exact ⟨by simp, fun c t h => by cases h⟩
  | dot s ls h ih =>
    refine ⟨fun c hc => ?_, fun c t h => by injection h with h _; rw [← h]; decide⟩
    rcases List.mem_cons.1 hc with rfl | h
    · decide
    · exact ih.1 c h
  | name n s ls h1 h2 h3 h4 ih =>
    refine ⟨fun c hc => ?_, fun c t h => ?_⟩
    · rcases List.mem_append.1 hc with h | h
      · unfold isRun; rw [H.word n h1 c h]; rfl
      · exact ih.1 c h
    · cases n with
      | nil => exact absurd rfl h2
      | cons d n => injection h with h _; rw [← h]; exact H.first _ h1 d n rfl

mutual
/-- the tokens of an expression -/
def toksF : Factor → List Token
  | .row w _ => [.word w]
  | .group s => [.opening] ++ toks s ++ [.closing]
  | .power i _ n => toksF i ++ [.caret, .int n]
/-- the tokens of an expression -/
def toks : Factors → List Token
  | .nil => []
  | .cons i s => toksF i ++ toks s
end

theorem headF (H : Typed names) : ∀ (i : Factor), i.Good names → ∃ c t, i.render = c :: t ∧ Str.isDigit c = false ∧ (¬ i.StartsWithRow → isRun c = false)
  | .row w ls, h => by
    rw [Factor.Good] at h
    rw [Factor.render]
    cases w with
    | nil => exact absurd rfl h.1
    | cons c t => exact ⟨c, t, rfl, (cut_run H h.2).2 c t rfl, fun hn => absurd trivial hn⟩
  | .group s, h => ⟨'(', s.render ++ [')'], by rw [Factor.render]; simp, by decide, fun _ => by decide⟩
  | .power i e n, h => by
    rw [Factor.Good] at h
    obtain ⟨c, t, h1, h2, h3⟩ := headF H i h.1
    refine ⟨c, t ++ '^' :: e, ?_, h2, fun hn => h3 ?_⟩
    · rw [Factor.render, h1]; simp
    · rwa [Factor.StartsWithRow] at hn

theorem head (H : Typed names) (s : Factors) (h : s.Good names) (r : Str) : (s.render ++ ')' :: r).head?.any Str.isDigit = false ∧
    (¬ s.StartWithRow → (s.render ++ ')' :: r).head?.any isRun = false) := by
  cases s with
  | nil => rw [Factors.render]; exact ⟨by simp; decide, fun _ => by simp; decide⟩
  | cons i s =>
    rw [Factors.Good] at h
    obtain ⟨c, t, h1, h2, h3⟩ := headF H i h.1
    rw [Factors.render, h1]
    refine ⟨by simp [h2], fun hn => ?_⟩
    rw [Factors.StartWithRow] at hn
    simp [h3 hn]

mutual
theorem lexF (H : Typed names) : ∀ (i : Factor), i.Good names → ∀ r : Str, r.head?.any Str.isDigit = false → (i.IsRow → r.head?.any isRun = false) →
    lex (i.render ++ r) = toksF i ++ lex r
  | .row w ls, h, r, h1, h2 => by
    rw [Factor.Good] at h
    rw [Factor.render, toksF]
    cases w with
    | nil => exact absurd rfl h.1
    | cons c t =>
      obtain ⟨a, b⟩ := cut_run H h.2
      exact lex_word (b c t rfl) a (h2 trivial)
  | .group s, h, r, h1, h2 => by
    rw [Factor.Good] at h
    rw [Factor.render, toksF]
    have := lexS H s h r
    simp only [List.append_assoc, List.cons_append, List.nil_append] at this ⊢
    rw [lex_opening, this]
  | .power i e n, h, r, h1, h2 => by
    rw [Factor.Good] at h
    rw [Factor.render, toksF]
    have := lexF H i h.1 ('^' :: (e ++ r)) (by simp; decide) (fun _ => by simp; decide)
    simp only [List.append_assoc, List.cons_append, List.nil_append] at this ⊢
    rw [this, lex_caret, lex_exponent h.2 h1]
theorem lexS (H : Typed names) : ∀ (s : Factors), s.Good names → ∀ r : Str, lex (s.render ++ ')' :: r) = toks s ++ (.closing :: lex r)
  | .nil, _, r => by rw [Factors.render, toks]; exact lex_closing r
  | .cons i s, h, r => by
    rw [Factors.Good] at h
    rw [Factors.render, toks, List.append_assoc, List.append_assoc]
    obtain ⟨a, b⟩ := head H s h.2.1 r
    rw [lexF H i h.1 _ a (fun hi => b (fun hs => h.2.2 ⟨hi, hs⟩)), lexS H s h.2.1 r]
end

mutual
theorem readsF : ∀ (i : Factor), i.Good names → ∀ ts vs, Reads names ts vs → Reads names (ts ++ toksF i) (vs ++ [i.letters])
  | .row w ls, h, ts, vs, hr => by
    rw [Factor.Good] at h
    rw [toksF, Factor.letters]
    exact .word _ _ _ _ hr h.2
  | .group s, h, ts, vs, hr => by
    rw [Factor.Good] at h
    rw [toksF, Factor.letters]
    obtain ⟨ws, h1, h2⟩ := readsS s h [] [] .nil
    rw [← h2]
    have := Reads.group ts vs _ _ hr h1
    simpa using this
  | .power i e n, h, ts, vs, hr => by
    rw [Factor.Good] at h
    rw [toksF, Factor.letters, ← List.append_assoc]
    exact .power _ _ _ _ (readsF i h.1 ts vs hr)
theorem readsS : ∀ (s : Factors), s.Good names → ∀ ts vs, Reads names ts vs → ∃ ws, Reads names (ts ++ toks s) (vs ++ ws) ∧ ws.flatten = s.letters
  | .nil, _, ts, vs, hr => ⟨[], by simpa [toks] using hr, by rw [Factors.letters]; rfl⟩
  | .cons i s, h, ts, vs, hr => by
    rw [Factors.Good] at h
    obtain ⟨ws, h1, h2⟩ := readsS s h.2.1 _ _ (readsF i h.1 ts vs hr)
    refine ⟨i.letters :: ws, ?_, ?_⟩
    · rw [toks]; simpa using h1
    · rw [Factors.letters, List.flatten_cons, h2]
end

/-- reading the tokens of an expression, in its parentheses -/
theorem reads_tokens (H : Typed names) (s : Factors) (h : s.Good names) (data : Str) (hd : data.filter (fun c => !Str.isSpace c) = s.render) :
    Reads names (tokens data) [s.letters] := by
  have e : tokens data = lex ('(' :: (s.render ++ ')' :: [])) := by
    have hw : ((['('] ++ data ++ [')']).filter (fun c => !Str.isSpace c)) = '(' :: (s.render ++ [')']) := by
      rw [List.filter_append, List.filter_append, hd]
      have h1 : (['('] : Str).filter (fun c => !Str.isSpace c) = ['('] := by decide
      have h2 : ([')'] : Str).filter (fun c => !Str.isSpace c) = [')'] := by decide
      rw [h1, h2]; simp
    unfold tokens lex
    simp only [hw]
  rw [e, lex_opening, lexS H s h []]
  obtain ⟨ws, h1, h2⟩ := readsS s h [] [] .nil
  rw [← h2]
  have := Reads.group [] [] _ _ .nil h1
  simpa [lex_nil] using this

/-! ### the letters -/

theorem Cut.mem {w : Str} {ls : List Str} (h : Cut names w ls) : ∀ l ∈ ls, l ∈ names := by
  induction h with
  | nil => simp
  | dot s ls h ih => exact ih
  | name n s ls h1 h2 h3 h4 ih =>
    intro l hl
    rcases List.mem_cons.1 hl with h | h
    · rw [h]; exact h1
    · exact ih l h

theorem powLetters_mem (hs : ∀ n ∈ names, Str.swapcase n ∈ names) {v : List Str} (hv : ∀ l ∈ v, l ∈ names) (n : Int) : ∀ l ∈ powLetters v n, l ∈ names := by
  have h : ∀ l ∈ (List.replicate n.natAbs v).flatten, l ∈ names := by
    intro l hl
    obtain ⟨a, h1, h2⟩ := List.mem_flatten.1 hl
    rw [List.eq_of_mem_replicate h1] at h2
    exact hv l h2
  intro l hl
  unfold powLetters at hl
  split at hl
  · unfold invLetters at hl
    obtain ⟨a, h1, rfl⟩ := List.mem_map.1 hl
    exact hs _ (h a (by simpa using h1))
  · exact h l hl

theorem Reads.mem (hs : ∀ n ∈ names, Str.swapcase n ∈ names) {ts : List Token} {vs : List (List Str)} (h : Reads names ts vs) :
    ∀ v ∈ vs, ∀ l ∈ v, l ∈ names := by
  induction h with
  | nil => simp
  | int _ _ _ _ ih => exact ih
  | word ts vs w ls h hc ih =>
    intro v hv
    rcases List.mem_append.1 hv with h | h
    · exact ih v h
    · rw [List.mem_singleton.1 h]; exact Cut.mem hc
  | group ts vs us ws h h' ih ih' =>
    intro v hv
    rcases List.mem_append.1 hv with h | h
    · exact ih v h
    · rw [List.mem_singleton.1 h]
      intro l hl
      obtain ⟨a, h1, h2⟩ := List.mem_flatten.1 hl
      exact ih' a h1 l h2
  | power ts vs v n h ih =>
    intro u hu
    rcases List.mem_append.1 hu with h | h
    · exact ih u (by simp [h])
    · rw [List.mem_singleton.1 h]
      exact powLetters_mem hs (ih v (by simp)) n

end Parser
end Curver
