import Verif.Proofs.DualWeights
import Verif.Proofs.FlipWeight

namespace Curver
variable {R : Type} [CommRing R] [LinearOrder R] [IsStrictOrderedRing R]

/-- there is room for `p`, `q`, `r` arcs around the tails of the sides of weights `a`, `b`, `c` -/
structure TriRoom (a b c p q r : R) : Prop where
  p0 : 0 ≤ p
  q0 : 0 ≤ q
  r0 : 0 ≤ r
  ha : p + q ≤ a
  hb : q + r ≤ b
  hc : r + p ≤ c
  hp : p = 0 ∨ 2 * p ≤ a + c - b
  hq : q = 0 ∨ 2 * q ≤ a + b - c
  hr : r = 0 ∨ 2 * r ≤ b + c - a

theorem TriRoom.rot {a b c p q r : R} (h : TriRoom a b c p q r) : TriRoom b c a q r p := by
  obtain ⟨h1, h2, h3, h4, h5, h6, h7, h8, h9⟩ := h
  refine ⟨h2, h3, h1, h5, h6, h4, ?_, h9, ?_⟩
  · rwa [add_comm a b] at h8
  · rwa [add_comm a c] at h7

theorem triRoom_iff {a b c x y z p q r : R} (h : TriDual a b c x y z) :
    TriRoom a b c p q r ↔ (0 ≤ p ∧ 0 ≤ q ∧ 0 ≤ r) ∧ p ≤ max y 0 ∧ q ≤ max z 0 ∧ r ≤ max x 0 := by
  have P : ∀ t : R, 0 ≤ t → max t 0 = t := fun t ht => max_eq_left ht
  have N : ∀ t : R, t < 0 → max t 0 = 0 := fun t ht => max_eq_right ht.le
  rcases h with ⟨h1, h2, h3, h4, h5, h6⟩ | ⟨h1, h2, h3, h4, h5, h6⟩ | ⟨h1, h2, h3, h4, h5, h6⟩ | ⟨h1, h2, h3, h4, h5, h6⟩
  · rw [P x h1, P y h2, P z h3]
    constructor
    · rintro ⟨a1, a2, a3, a4, a5, a6, a7, a8, a9⟩
      refine ⟨⟨a1, a2, a3⟩, ?_, ?_, ?_⟩
      · rcases a7 with h | h <;> linarith
      · rcases a8 with h | h <;> linarith
      · rcases a9 with h | h <;> linarith
    · rintro ⟨⟨a1, a2, a3⟩, a4, a5, a6⟩
      exact ⟨a1, a2, a3, by linarith, by linarith, by linarith, .inr (by linarith), .inr (by linarith), .inr (by linarith)⟩
  · rw [N x h1, P y h2, P z h3]
    constructor
    · rintro ⟨a1, a2, a3, a4, a5, a6, a7, a8, a9⟩
      refine ⟨⟨a1, a2, a3⟩, by linarith, by linarith, ?_⟩
      rcases a9 with h | h <;> linarith
    · rintro ⟨⟨a1, a2, a3⟩, a4, a5, a6⟩
      exact ⟨a1, a2, a3, by linarith, by linarith, by linarith, .inr (by linarith), .inr (by linarith), .inl (by linarith)⟩
  · rw [N y h1, P z h2, P x h3]
    constructor
    · rintro ⟨a1, a2, a3, a4, a5, a6, a7, a8, a9⟩
      refine ⟨⟨a1, a2, a3⟩, ?_, by linarith, by linarith⟩
      rcases a7 with h | h <;> linarith
    · rintro ⟨⟨a1, a2, a3⟩, a4, a5, a6⟩
      exact ⟨a1, a2, a3, by linarith, by linarith, by linarith, .inl (by linarith), .inr (by linarith), .inr (by linarith)⟩
  · rw [N z h1, P x h2, P y h3]
    constructor
    · rintro ⟨a1, a2, a3, a4, a5, a6, a7, a8, a9⟩
      refine ⟨⟨a1, a2, a3⟩, by linarith, ?_, by linarith⟩
      rcases a8 with h | h <;> linarith
    · rintro ⟨⟨a1, a2, a3⟩, a4, a5, a6⟩
      exact ⟨a1, a2, a3, by linarith, by linarith, by linarith, .inr (by linarith), .inl (by linarith), .inr (by linarith)⟩

/-- a flip of arcs around the corners -/
theorem FlipCase.links {p q r s : R} (hp : 0 ≤ p) (hq : 0 ≤ q) (hr : 0 ≤ r) (hs : 0 ≤ s) :
    FlipCase (p + q) (q + r) (r + s) (s + p) (r + p) (q + s) :=
  .xac (by linarith) (by linarith) (by linarith) (by linarith) (by linarith) (by linarith) (by linarith) (by linarith)

section
variable {a b c d e x p q r s : R}

/-- removing arcs around the corners before or after a flip -/
theorem FlipCase.remove (h : FlipCase a b c d e x) (h1 : TriRoom (max e 0) a b r p q) (h2 : TriRoom (max e 0) c d p r s) :
    FlipCase (a - p - q) (b - q - r) (c - r - s) (d - s - p) (e - r - p) (x - q - s) := by
  obtain ⟨r0, p0, q0, a1, a2, a3, a4, a5, a6⟩ := h1
  obtain ⟨-, -, s0, b1, b2, b3, b4, b5, b6⟩ := h2
  have hq := max_eq_left (a := e) (b := 0)
  have key : e < 0 → r = 0 ∧ p = 0 := fun he => by
    rw [max_eq_right he.le] at *
    exact ⟨by linarith, by linarith⟩
  rcases lt_or_ge e 0 with he | he
  · obtain ⟨rfl, rfl⟩ := key he
    rw [max_eq_right he.le] at *
    cases h with
    | aab h1 h2 h3 h => exact .aab (by linarith) (by linarith) (by linarith) (by linarith)
    | acd h1 h2 h3 h => exact .acd (by linarith) (by linarith) (by linarith) (by linarith)
    | dad h1 h2 h3 h => exact .dad (by linarith) (by linarith) (by linarith) (by linarith)
    | dbc h1 h2 h3 h => exact .dbc (by linarith) (by linarith) (by linarith) (by linarith)
    | nad h1 h2 h3 h => linarith
    | nbc h1 h2 h3 h => linarith
    | nab h1 h2 h3 h => exact .nab (by linarith) (by linarith) (by linarith) (by linarith)
    | ncd h1 h2 h3 h => exact .ncd (by linarith) (by linarith) (by linarith) (by linarith)
    | xac h1 h2 h3 h4 h5 h6 h7 h => linarith
    | xbd h1 h2 h3 h4 h5 h6 h7 h => linarith
    | pac h1 h2 h3 h4 h => exact .pac (by linarith) (by linarith) (by linarith) (by linarith) (by linarith)
    | pbd h1 h2 h3 h4 h => exact .pbd (by linarith) (by linarith) (by linarith) (by linarith) (by linarith)
    | mac h1 h2 h3 h => exact .mac (by linarith) (by linarith) (by linarith) (by linarith)
    | mbd h1 h2 h3 h => exact .mbd (by linarith) (by linarith) (by linarith) (by linarith)
  · rw [max_eq_left he] at *
    clear hq key
    -- a4: r at b, e; a5: p at e, a; a6: q; b4: p at d, e; b5: r at e, c; b6: s
    cases h with
    | aab h1 h2 h3 h => rcases a6 with a6 | a6 <;> rcases b6 with b6 | b6 <;> exact .aab (by linarith) (by linarith) (by linarith) (by linarith)
    | acd h1 h2 h3 h => rcases a6 with a6 | a6 <;> rcases b6 with b6 | b6 <;> exact .acd (by linarith) (by linarith) (by linarith) (by linarith)
    | dad h1 h2 h3 h => exact .dad (by linarith) (by linarith) (by linarith) (by linarith)
    | dbc h1 h2 h3 h => exact .dbc (by linarith) (by linarith) (by linarith) (by linarith)
    | nad h1 h2 h3 h => rcases a4 with a4 | a4 <;> exact .nad (by linarith) (by linarith) (by linarith) (by linarith)
    | nbc h1 h2 h3 h => rcases a5 with a5 | a5 <;> exact .nbc (by linarith) (by linarith) (by linarith) (by linarith)
    | nab h1 h2 h3 h => rcases a6 with a6 | a6 <;> rcases b6 with b6 | b6 <;> exact .nab (by linarith) (by linarith) (by linarith) (by linarith)
    | ncd h1 h2 h3 h => rcases a6 with a6 | a6 <;> rcases b6 with b6 | b6 <;> exact .ncd (by linarith) (by linarith) (by linarith) (by linarith)
    | xac h1 h2 h3 h4 h5 h6 h7 h =>
      rcases a6 with a6 | a6 <;> rcases b6 with b6 | b6 <;> rcases a5 with a5 | a5 <;> rcases b5 with b5 | b5 <;>
        exact .xac (by linarith) (by linarith) (by linarith) (by linarith) (by linarith) (by linarith) (by linarith) (by linarith)
    | xbd h1 h2 h3 h4 h5 h6 h7 h =>
      rcases a6 with a6 | a6 <;> rcases b6 with b6 | b6 <;> rcases a4 with a4 | a4 <;> rcases b4 with b4 | b4 <;>
        exact .xbd (by linarith) (by linarith) (by linarith) (by linarith) (by linarith) (by linarith) (by linarith) (by linarith)
    | pac h1 h2 h3 h4 h => rcases a6 with a6 | a6 <;> rcases b6 with b6 | b6 <;> exact .pac (by linarith) (by linarith) (by linarith) (by linarith) (by linarith)
    | pbd h1 h2 h3 h4 h => rcases a6 with a6 | a6 <;> rcases b6 with b6 | b6 <;> exact .pbd (by linarith) (by linarith) (by linarith) (by linarith) (by linarith)
    | mac h1 h2 h3 h => exact .mac (by linarith) (by linarith) (by linarith) (by linarith)
    | mbd h1 h2 h3 h => exact .mbd (by linarith) (by linarith) (by linarith) (by linarith)

set_option maxHeartbeats 2000000 in
/-- room for arcs around the corners after a flip: on one side -/
theorem FlipCase.room1 (ha : 0 ≤ a) (hb : 0 ≤ b) (hc : 0 ≤ c) (hd : 0 ≤ d) (h : FlipCase a b c d e x) (h1 : TriRoom (max e 0) a b r p q)
    (h2 : TriRoom (max e 0) c d p r s) : TriRoom (max x 0) d a q s p := by
  have hx1 := le_max_left x 0
  have hx2 := le_max_right x 0
  have he1 := le_max_left e 0
  have he2 := le_max_right e 0
  have hx3 : x ≤ 0 → max x 0 = 0 := max_eq_right
  have hx4 : 0 ≤ x → max x 0 = x := max_eq_left
  have he3 : e ≤ 0 → max e 0 = 0 := max_eq_right
  have he4 : 0 ≤ e → max e 0 = e := max_eq_left
  generalize max e 0 = e' at *
  generalize max x 0 = x' at *
  obtain ⟨r0, p0, q0, a1, a2, a3, a4, a5, a6⟩ := h1
  obtain ⟨-, -, s0, b1, b2, b3, b4, b5, b6⟩ := h2
  have hX : (x ≤ 0 ∧ x' = 0) ∨ (0 ≤ x ∧ x' = x) := (le_total x 0).imp (fun h => ⟨h, hx3 h⟩) (fun h => ⟨h, hx4 h⟩)
  have hE : (e ≤ 0 ∧ e' = 0) ∨ (0 ≤ e ∧ e' = e) := (le_total e 0).imp (fun h => ⟨h, he3 h⟩) (fun h => ⟨h, he4 h⟩)
  clear he3 he4 hx3 hx4
  rcases hX with ⟨hx, rfl⟩ | ⟨hx, rfl⟩ <;> rcases hE with ⟨he, rfl⟩ | ⟨he, rfl⟩ <;>
  cases h <;>
  refine ⟨q0, s0, p0, ?_, by linarith, by linarith, ?_, ?_, ?_⟩
  all_goals first
    | linarith
    | (left; linarith)
    | (rcases a6 with a6 | a6 <;> rcases b6 with b6 | b6 <;> linarith)
    | (rcases a6 with a6 | a6
       · exact .inl a6
       · right
         first | linarith | (rcases b6 with b6 | b6 <;> linarith))
    | (rcases b6 with b6 | b6
       · exact .inl b6
       · right
         first | linarith | (rcases a6 with a6 | a6 <;> linarith))
    | (rcases a5 with a5 | a5
       · exact .inl a5
       · rcases b4 with b4 | b4
         · exact .inl b4
         · right
           first | linarith | (rcases a6 with a6 | a6 <;> linarith))

theorem FlipCase.room2 (ha : 0 ≤ a) (hb : 0 ≤ b) (hc : 0 ≤ c) (hd : 0 ≤ d) (h : FlipCase a b c d e x) (h1 : TriRoom (max e 0) a b r p q)
    (h2 : TriRoom (max e 0) c d p r s) : TriRoom (max x 0) b c s q r := h.rot.room1 hc hd ha hb h2 h1
end
end Curver
