import Verif.Model.Moves
import Verif.Proofs.PyLemmas
import Mathlib.Tactic.Linarith

/-!
# The weight of a flipped edge: the cases as overlapping closed cells
-/

namespace Curver

section
variable {R : Type} [CommRing R] [LinearOrder R] [IsStrictOrderedRing R]

/-- The cells of the flip, each closed and described without negations. -/
inductive FlipCase (a b c d e e' : R) : Prop
  | aab (h1 : a + b ≤ e) (h2 : d ≤ a) (h3 : c ≤ b) (h : e' = a + b - e)
  | acd (h1 : c + d ≤ e) (h2 : a ≤ d) (h3 : b ≤ c) (h : e' = c + d - e)
  | dad (h1 : e ≤ 0) (h2 : b ≤ a) (h3 : c ≤ d) (h : e' = a + d - e)
  | dbc (h1 : e ≤ 0) (h2 : a ≤ b) (h3 : d ≤ c) (h : e' = b + c - e)
  | nad (h1 : 0 ≤ e) (h2 : b + e ≤ a) (h3 : c + e ≤ d) (h : e' = a + d - 2 * e)
  | nbc (h1 : 0 ≤ e) (h2 : a + e ≤ b) (h3 : d + e ≤ c) (h : e' = b + c - 2 * e)
  | nab (h1 : e ≤ a + b) (h2 : 2 * c + a ≤ b + e) (h3 : 2 * d + b ≤ a + e) (h : e' + e' = a + b - e)
  | ncd (h1 : e ≤ c + d) (h2 : 2 * a + c ≤ d + e) (h3 : 2 * b + d ≤ c + e) (h : e' + e' = c + d - e)
  | xac (h1 : e ≤ a + c) (h2 : d + e ≤ 2 * a + c) (h3 : b + e ≤ 2 * c + a) (h4 : b + d ≤ a + c) (h5 : b ≤ a + e)
      (h6 : d ≤ c + e) (h7 : 0 ≤ e) (h : e' = a + c - e)
  | xbd (h1 : e ≤ b + d) (h2 : c + e ≤ 2 * b + d) (h3 : a + e ≤ 2 * d + b) (h4 : a + c ≤ b + d) (h5 : a ≤ b + e)
      (h6 : c ≤ d + e) (h7 : 0 ≤ e) (h : e' = b + d - e)
  | pac (h1 : a + b ≤ e) (h2 : c + d ≤ e) (h3 : d ≤ a) (h4 : b ≤ c) (h : e' = a + c - e)
  | pbd (h1 : a + b ≤ e) (h2 : c + d ≤ e) (h3 : a ≤ d) (h4 : c ≤ b) (h : e' = b + d - e)
  | mac (h1 : e ≤ 0) (h2 : b ≤ a) (h3 : d ≤ c) (h : e' = a + c - e)
  | mbd (h1 : e ≤ 0) (h2 : a ≤ b) (h3 : c ≤ d) (h : e' = b + d - e)

theorem FlipCase.unique {a b c d e x y : R} (ha : 0 ≤ a) (hb : 0 ≤ b) (hc : 0 ≤ c) (hd : 0 ≤ d)
    (h : FlipCase a b c d e x) (h' : FlipCase a b c d e y) : x = y := by
  cases h <;> cases h' <;> linarith

theorem FlipCase.symm {a b c d e x : R} (ha : 0 ≤ a) (hb : 0 ≤ b) (hc : 0 ≤ c) (hd : 0 ≤ d)
    (h : FlipCase a b c d e x) : FlipCase b c d a x e := by
  cases h with
  | aab h1 h2 h3 h => exact .dad (by linarith) (by linarith) (by linarith) (by linarith)
  | acd h1 h2 h3 h => exact .dbc (by linarith) (by linarith) (by linarith) (by linarith)
  | dad h1 h2 h3 h => exact .acd (by linarith) (by linarith) (by linarith) (by linarith)
  | dbc h1 h2 h3 h => exact .aab (by linarith) (by linarith) (by linarith) (by linarith)
  | nad h1 h2 h3 h => exact .ncd (by linarith) (by linarith) (by linarith) (by linarith)
  | nbc h1 h2 h3 h => exact .nab (by linarith) (by linarith) (by linarith) (by linarith)
  | nab h1 h2 h3 h => exact .nad (by linarith) (by linarith) (by linarith) (by linarith)
  | ncd h1 h2 h3 h => exact .nbc (by linarith) (by linarith) (by linarith) (by linarith)
  | xac h1 h2 h3 h4 h5 h6 h7 h => exact .xbd (by linarith) (by linarith) (by linarith) (by linarith) (by linarith) (by linarith) (by linarith) (by linarith)
  | xbd h1 h2 h3 h4 h5 h6 h7 h => exact .xac (by linarith) (by linarith) (by linarith) (by linarith) (by linarith) (by linarith) (by linarith) (by linarith)
  | pac h1 h2 h3 h4 h =>
    rcases le_total x 0 with h0 | h0
    · exact .mbd h0 (by linarith) (by linarith) (by linarith)
    · exact .xbd (by linarith) (by linarith) (by linarith) (by linarith) (by linarith) (by linarith) (by linarith) (by linarith)
  | pbd h1 h2 h3 h4 h =>
    rcases le_total x 0 with h0 | h0
    · exact .mac h0 (by linarith) (by linarith) (by linarith)
    · exact .xac (by linarith) (by linarith) (by linarith) (by linarith) (by linarith) (by linarith) (by linarith) (by linarith)
  | mac h1 h2 h3 h => exact .pbd (by linarith) (by linarith) (by linarith) (by linarith) (by linarith)
  | mbd h1 h2 h3 h => exact .pac (by linarith) (by linarith) (by linarith) (by linarith) (by linarith)

theorem FlipCase.rot {a b c d e x : R} (h : FlipCase a b c d e x) : FlipCase c d a b e x := by
  cases h with
  | aab h1 h2 h3 h => exact .acd (by linarith) (by linarith) (by linarith) (by linarith)
  | acd h1 h2 h3 h => exact .aab (by linarith) (by linarith) (by linarith) (by linarith)
  | dad h1 h2 h3 h => exact .dbc (by linarith) (by linarith) (by linarith) (by linarith)
  | dbc h1 h2 h3 h => exact .dad (by linarith) (by linarith) (by linarith) (by linarith)
  | nad h1 h2 h3 h => exact .nbc (by linarith) (by linarith) (by linarith) (by linarith)
  | nbc h1 h2 h3 h => exact .nad (by linarith) (by linarith) (by linarith) (by linarith)
  | nab h1 h2 h3 h => exact .ncd (by linarith) (by linarith) (by linarith) (by linarith)
  | ncd h1 h2 h3 h => exact .nab (by linarith) (by linarith) (by linarith) (by linarith)
  | xac h1 h2 h3 h4 h5 h6 h7 h => exact .xac (by linarith) (by linarith) (by linarith) (by linarith) (by linarith) (by linarith) (by linarith) (by linarith)
  | xbd h1 h2 h3 h4 h5 h6 h7 h => exact .xbd (by linarith) (by linarith) (by linarith) (by linarith) (by linarith) (by linarith) (by linarith) (by linarith)
  | pac h1 h2 h3 h4 h => exact .pac (by linarith) (by linarith) (by linarith) (by linarith) (by linarith)
  | pbd h1 h2 h3 h4 h => exact .pbd (by linarith) (by linarith) (by linarith) (by linarith) (by linarith)
  | mac h1 h2 h3 h => exact .mac (by linarith) (by linarith) (by linarith) (by linarith)
  | mbd h1 h2 h3 h => exact .mbd (by linarith) (by linarith) (by linarith) (by linarith)

theorem flip_cover {a b c d e : R} (ha : 0 ≤ a) (hb : 0 ≤ b) (hc : 0 ≤ c) (hd : 0 ≤ d)
    (h1 : ¬ (e ≥ a + b ∧ a ≥ d ∧ b ≥ c)) (h2 : ¬ (e ≥ c + d ∧ d ≥ a ∧ c ≥ b))
    (h3 : ¬ (e ≤ 0 ∧ a ≥ b ∧ d ≥ c)) (h4 : ¬ (e ≤ 0 ∧ b ≥ a ∧ c ≥ d))
    (h5 : ¬ (e ≥ 0 ∧ a ≥ b + e ∧ d ≥ c + e)) (h6 : ¬ (e ≥ 0 ∧ b ≥ a + e ∧ c ≥ d + e))
    (h7 : ¬ (a + b ≥ e ∧ b + e ≥ 2 * c + a ∧ a + e ≥ 2 * d + b))
    (h8 : ¬ (c + d ≥ e ∧ d + e ≥ 2 * a + c ∧ c + e ≥ 2 * b + d)) (hac : b + d ≤ a + c) :
    FlipCase a b c d e (a + c - e) := by
  by_cases he : e ≤ 0
  · refine .mac he ?_ ?_ rfl
    · by_contra h; exact h4 ⟨he, by linarith, by linarith⟩
    · by_contra h; exact h3 ⟨he, by linarith, by linarith⟩
  · have he' : 0 ≤ e := by linarith
    by_cases hab : a + b ≤ e
    · by_cases hcd : c + d ≤ e
      · refine .pac hab hcd ?_ ?_ rfl
        · by_contra h
          exact h2 ⟨hcd, by linarith, by linarith⟩
        · by_contra h
          exact h1 ⟨hab, by linarith, by linarith⟩
      · grind [FlipCase.xac]
    · grind [FlipCase.xac]

variable [Halvable R]

theorem half_ok_iff {x y : R} : half x = .ok y ↔ y + y = x := by
  unfold half
  rw [← Halvable.half?_eq_some]
  cases Halvable.half? x <;> simp

theorem half_error_iff {x : R} : half x = .error .valueError ↔ ∀ y : R, y + y ≠ x := by
  unfold half
  constructor
  · intro h y hy
    rw [← Halvable.half?_eq_some] at hy
    rw [hy] at h; simp at h
  · intro h
    cases hx : Halvable.half? x with
    | none => rfl
    | some y => exact absurd ((Halvable.half?_eq_some x y).1 hx) (h y)

theorem half_cases (x : R) : (∃ y, y + y = x ∧ half x = .ok y) ∨ ((∀ y : R, y + y ≠ x) ∧ half x = .error .valueError) := by
  by_cases h : ∃ y, y + y = x
  · obtain ⟨y, hy⟩ := h
    exact .inl ⟨y, hy, half_ok_iff.2 hy⟩
  · push Not at h
    exact .inr ⟨h, half_error_iff.2 h⟩

theorem flipWeight_ok_iff {a b c d e x : R} (ha : 0 ≤ a) (hb : 0 ≤ b) (hc : 0 ≤ c) (hd : 0 ≤ d) :
    flipWeight a b c d e = .ok x ↔ FlipCase a b c d e x := by
  have key : ∀ {y : R}, FlipCase a b c d e y → ((Except.ok y : Py R) = .ok x ↔ FlipCase a b c d e x) := by
    intro y hy
    constructor
    · intro h; cases h; exact hy
    · intro h; rw [FlipCase.unique ha hb hc hd hy h]
  unfold flipWeight
  split
  · rename_i h; exact key (.aab h.1 h.2.1 h.2.2 rfl)
  split
  · rename_i h; exact key (.acd h.1 h.2.1 h.2.2 rfl)
  split
  · rename_i h; exact key (.dad h.1 h.2.1 h.2.2 rfl)
  split
  · rename_i h; exact key (.dbc h.1 h.2.1 h.2.2 rfl)
  split
  · rename_i h; exact key (.nad h.1 h.2.1 h.2.2 rfl)
  split
  · rename_i h; exact key (.nbc h.1 h.2.1 h.2.2 rfl)
  split
  · rename_i h
    rw [half_ok_iff]
    constructor
    · intro h'; exact .nab h.1 h.2.1 h.2.2 h'
    · intro h'; obtain ⟨h1, h2, h3⟩ := h; cases h' <;> linarith
  split
  · rename_i h
    rw [half_ok_iff]
    constructor
    · intro h'; exact .ncd h.1 h.2.1 h.2.2 h'
    · intro h'; obtain ⟨h1, h2, h3⟩ := h; cases h' <;> linarith
  rename_i h1 h2 h3 h4 h5 h6 h7 h8
  apply key
  rcases le_total (b + d) (a + c) with h | h
  · rw [max_eq_left h]
    exact flip_cover ha hb hc hd h1 h2 h3 h4 h5 h6 h7 h8 h
  · rw [max_eq_right h]
    have hs : FlipCase b a d c e (b + d - e) := by
      refine flip_cover hb ha hd hc ?_ ?_ ?_ ?_ ?_ ?_ ?_ ?_ h
      · rintro ⟨h', h'', h'''⟩; exact h1 ⟨by linarith, h''', h''⟩
      · rintro ⟨h', h'', h'''⟩; exact h2 ⟨by linarith, h''', h''⟩
      · rintro ⟨h', h'', h'''⟩; exact h4 ⟨h', h'', h'''⟩
      · rintro ⟨h', h'', h'''⟩; exact h3 ⟨h', h'', h'''⟩
      · rintro ⟨h', h'', h'''⟩; exact h6 ⟨h', h'', h'''⟩
      · rintro ⟨h', h'', h'''⟩; exact h5 ⟨h', h'', h'''⟩
      · rintro ⟨h', h'', h'''⟩; exact h7 ⟨by linarith, by linarith, by linarith⟩
      · rintro ⟨h', h'', h'''⟩; exact h8 ⟨by linarith, by linarith, by linarith⟩
    cases hs with
    | aab h1 h2 h3 h => exact .aab (by linarith) (by linarith) (by linarith) (by linarith)
    | acd h1 h2 h3 h => exact .acd (by linarith) (by linarith) (by linarith) (by linarith)
    | dad h1 h2 h3 h => exact .dbc (by linarith) (by linarith) (by linarith) (by linarith)
    | dbc h1 h2 h3 h => exact .dad (by linarith) (by linarith) (by linarith) (by linarith)
    | nad h1 h2 h3 h => exact .nbc (by linarith) (by linarith) (by linarith) (by linarith)
    | nbc h1 h2 h3 h => exact .nad (by linarith) (by linarith) (by linarith) (by linarith)
    | nab h1 h2 h3 h => exact .nab (by linarith) (by linarith) (by linarith) (by linarith)
    | ncd h1 h2 h3 h => exact .ncd (by linarith) (by linarith) (by linarith) (by linarith)
    | xac h1 h2 h3 h4 h5 h6 h7 h => exact .xbd (by linarith) (by linarith) (by linarith) (by linarith) (by linarith) (by linarith) (by linarith) (by linarith)
    | xbd h1 h2 h3 h4 h5 h6 h7 h => exact .xac (by linarith) (by linarith) (by linarith) (by linarith) (by linarith) (by linarith) (by linarith) (by linarith)
    | pac h1 h2 h3 h4 h => exact .pbd (by linarith) (by linarith) (by linarith) (by linarith) (by linarith)
    | pbd h1 h2 h3 h4 h => exact .pac (by linarith) (by linarith) (by linarith) (by linarith) (by linarith)
    | mac h1 h2 h3 h => exact .mbd (by linarith) (by linarith) (by linarith) (by linarith)
    | mbd h1 h2 h3 h => exact .mac (by linarith) (by linarith) (by linarith) (by linarith)

/-- `flipWeight` only fails by being unable to halve. -/
theorem flipWeight_error {a b c d e : R} {err : PyErr} (h : flipWeight a b c d e = .error err) : err = .valueError := by
  have hh : ∀ x : R, half x = .error err → err = .valueError := by
    intro x hx
    rcases half_cases x with ⟨y, _, hy⟩ | ⟨_, hy⟩ <;> rw [hy] at hx <;> cases hx
    rfl
  unfold flipWeight at h
  split_ifs at h
  · exact hh _ h
  · exact hh _ h

theorem flipWeight_inv {a b c d e x : R} (ha : 0 ≤ a) (hb : 0 ≤ b) (hc : 0 ≤ c) (hd : 0 ≤ d)
    (h : flipWeight a b c d e = .ok x) : flipWeight b c d a x = .ok e :=
  (flipWeight_ok_iff hb hc hd ha).2 (((flipWeight_ok_iff ha hb hc hd).1 h).symm ha hb hc hd)

theorem flipWeight_rot {a b c d e : R} (ha : 0 ≤ a) (hb : 0 ≤ b) (hc : 0 ≤ c) (hd : 0 ≤ d) :
    flipWeight a b c d e = flipWeight c d a b e := by
  cases h : flipWeight a b c d e with
  | ok x => exact ((flipWeight_ok_iff hc hd ha hb).2 ((flipWeight_ok_iff ha hb hc hd).1 h).rot).symm
  | error err =>
    cases h' : flipWeight c d a b e with
    | ok x =>
      have := (flipWeight_ok_iff ha hb hc hd).2 ((flipWeight_ok_iff hc hd ha hb).1 h').rot
      rw [this] at h; cases h
    | error err' => rw [flipWeight_error h, flipWeight_error h']

/-- The weights of the sides of a triangle are consistent: when they satisfy the triangle inequalities they can be
joined up by normal arcs. -/
def TriEven (a b c : R) : Prop :=
  max a 0 ≤ max b 0 + max c 0 → max b 0 ≤ max c 0 + max a 0 → max c 0 ≤ max a 0 + max b 0 →
    Even (max a 0 + max b 0 + max c 0)

theorem TriEven.rot {a b c : R} (h : TriEven a b c) : TriEven b c a := by
  intro h1 h2 h3
  have := h h3 h1 h2
  convert this using 1; ring

theorem even_of {x y : R} (h : Even y) (z : R) (hx : x = y + (z + z)) : Even x := by
  rw [hx]; exact h.add ⟨z, rfl⟩

theorem flip_exists {a b c d e : R} (ha : 0 ≤ a) (hb : 0 ≤ b) (hc : 0 ≤ c) (hd : 0 ≤ d)
    (h1 : TriEven e a b) (h2 : TriEven e c d) : ∃ x, flipWeight a b c d e = .ok x := by
  unfold flipWeight
  split; · exact ⟨_, rfl⟩
  split; · exact ⟨_, rfl⟩
  split; · exact ⟨_, rfl⟩
  split; · exact ⟨_, rfl⟩
  split; · exact ⟨_, rfl⟩
  split; · exact ⟨_, rfl⟩
  split
  · rename_i h
    have he : 0 ≤ e := by linarith
    unfold TriEven at h1
    rw [max_eq_left ha, max_eq_left hb, max_eq_left he] at h1
    obtain ⟨y, hy⟩ := h1 (by linarith) (by linarith) (by linarith)
    exact ⟨y - e, half_ok_iff.2 (by linarith)⟩
  split
  · rename_i h
    have he : 0 ≤ e := by linarith
    unfold TriEven at h2
    rw [max_eq_left hc, max_eq_left hd, max_eq_left he] at h2
    obtain ⟨y, hy⟩ := h2 (by linarith) (by linarith) (by linarith)
    exact ⟨y - e, half_ok_iff.2 (by linarith)⟩
  exact ⟨_, rfl⟩

theorem flip_even {a b c d e x : R} (ha : 0 ≤ a) (hb : 0 ≤ b) (hc : 0 ≤ c) (hd : 0 ≤ d)
    (h1 : TriEven e a b) (h2 : TriEven e c d) (h : FlipCase a b c d e x) : TriEven x d a := by
  unfold TriEven at *
  simp only [max_eq_left ha, max_eq_left hb, max_eq_left hc, max_eq_left hd] at *
  intro t1 t2 t3
  rcases le_total x 0 with hx | hx
  · rw [max_eq_right hx] at *
    have : d = a := by linarith
    exact ⟨a, by rw [this]; ring⟩
  rw [max_eq_left hx] at *
  have hE : 0 ≤ e → e ≤ a + b → a ≤ b + e → b ≤ e + a → Even (e + a + b) := by
    intro h0 h3 h4 h5
    rw [max_eq_left h0] at h1
    exact h1 (by linarith) (by linarith) (by linarith)
  have hF : 0 ≤ e → e ≤ c + d → c ≤ d + e → d ≤ e + c → Even (e + c + d) := by
    intro h0 h3 h4 h5
    rw [max_eq_left h0] at h2
    exact h2 (by linarith) (by linarith) (by linarith)
  cases h with
  | aab g1 g2 g3 g => exact ⟨a, by linarith⟩
  | acd g1 g2 g3 g => exact ⟨d, by linarith⟩
  | dad g1 g2 g3 g => exact ⟨x, by linarith⟩
  | dbc g1 g2 g3 g => exact ⟨x, by linarith⟩
  | nad g1 g2 g3 g => exact ⟨a + d - e, by linarith⟩
  | nbc g1 g2 g3 g => exact ⟨x, by linarith⟩
  | nab g1 g2 g3 g => exact ⟨a, by linarith⟩
  | ncd g1 g2 g3 g => exact ⟨d, by linarith⟩
  | xac g1 g2 g3 g4 g5 g6 g7 g => exact even_of (hF g7 (by linarith) (by linarith) (by linarith)) (a - e) (by linarith)
  | xbd g1 g2 g3 g4 g5 g6 g7 g => exact even_of (hE g7 (by linarith) (by linarith) (by linarith)) (d - e) (by linarith)
  | pac g1 g2 g3 g4 g => exact ⟨a, by linarith⟩
  | pbd g1 g2 g3 g4 g => exact ⟨d, by linarith⟩
  | mac g1 g2 g3 g => exact ⟨x, by linarith⟩
  | mbd g1 g2 g3 g => exact ⟨x, by linarith⟩

end
end Curver
