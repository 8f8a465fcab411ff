import Verif.Spec.Strands
import Verif.Proofs.FlipWeight

namespace Curver
namespace Strands
variable {R : Type} [CommRing R] [LinearOrder R] [IsStrictOrderedRing R]

macro "pick" : tactic => `(tactic| first
  | exact .aab (by linarith) (by linarith) (by linarith) (by linarith)
  | exact .acd (by linarith) (by linarith) (by linarith) (by linarith)
  | exact .dad (by linarith) (by linarith) (by linarith) (by linarith)
  | exact .dbc (by linarith) (by linarith) (by linarith) (by linarith)
  | exact .nad (by linarith) (by linarith) (by linarith) (by linarith)
  | exact .nbc (by linarith) (by linarith) (by linarith) (by linarith)
  | exact .nab (by linarith) (by linarith) (by linarith) (by linarith)
  | exact .ncd (by linarith) (by linarith) (by linarith) (by linarith)
  | exact .mac (by linarith) (by linarith) (by linarith) (by linarith)
  | exact .mbd (by linarith) (by linarith) (by linarith) (by linarith)
  | exact .pac (by linarith) (by linarith) (by linarith) (by linarith) (by linarith)
  | exact .pbd (by linarith) (by linarith) (by linarith) (by linarith) (by linarith)
  | exact .xac (by linarith) (by linarith) (by linarith) (by linarith) (by linarith) (by linarith) (by linarith) (by linarith)
  | exact .xbd (by linarith) (by linarith) (by linarith) (by linarith) (by linarith) (by linarith) (by linarith) (by linarith))

set_option maxHeartbeats 4000000 in
theorem flipCase (s : Strands R) (hn : s.NonNeg) (hx : s.NonCrossing) : FlipCase s.a s.b s.c s.d s.e s.e' := by
  obtain ⟨tl, tr, bl, br, ac, bd, aBL, aBR, bTR, bBR, cTL, cTR, dTL, dBL, al, acr⟩ := s
  obtain ⟨p1, p2, p3, p4, p5, p6, p7, p8, p9, p10, p11, p12, p13, p14, p15, p16⟩ := hn
  obtain ⟨q1, q2, q3, q4, q5, q6, q7, q8, q9, q10, q11, q12⟩ := hx
  unfold a b c d e e'
  simp only at *
  by_cases h1 : ac = 0
  swap
  · obtain ⟨rfl, rfl, rfl, rfl, rfl, rfl, rfl⟩ := q1 h1
    clear q1 q2 q3 q4 q7 q8 q11 q12
    by_cases h2 : aBL = 0
    · subst h2
      by_cases h3 : aBR = 0
      · subst h3; pick
      · obtain ⟨rfl, _, rfl, _⟩ := q6 h3; pick
    · obtain ⟨rfl, _, _, rfl, _⟩ := q5 h2
      by_cases h3 : aBR = 0
      · subst h3; pick
      · obtain ⟨rfl, _, rfl, _⟩ := q6 h3; pick
  subst h1
  by_cases h1 : bd = 0
  swap
  · obtain ⟨_, rfl, rfl, rfl, rfl, rfl, rfl⟩ := q2 h1
    clear q1 q2 q3 q4 q5 q6 q9 q10
    by_cases h2 : bTR = 0
    · subst h2
      by_cases h3 : bBR = 0
      · subst h3; pick
      · obtain ⟨rfl, _, _, _, rfl⟩ := q8 h3; pick
    · obtain ⟨rfl, _, _, _, rfl⟩ := q7 h2
      by_cases h3 : bBR = 0
      · subst h3; pick
      · obtain ⟨rfl, _, _, _, rfl⟩ := q8 h3; pick
  subst h1
  by_cases h1 : al = 0
  swap
  · obtain ⟨rfl, rfl, rfl, rfl, rfl, rfl, rfl⟩ := q3 h1
    by_cases h2 : aBL = 0
    · subst h2
      by_cases h3 : cTR = 0
      · subst h3; pick
      · obtain ⟨_, _, _, _, rfl⟩ := q10 h3; pick
    · obtain ⟨_, rfl, _⟩ := q5 h2
      by_cases h3 : cTR = 0
      · subst h3; pick
      · obtain ⟨_, _, _, _, rfl⟩ := q10 h3; pick
  subst h1
  by_cases h1 : acr = 0
  swap
  · obtain ⟨_, rfl, rfl, rfl, rfl, rfl, rfl⟩ := q4 h1
    by_cases h2 : aBR = 0
    · subst h2
      by_cases h3 : bBR = 0
      · subst h3; pick
      · obtain ⟨_, _, rfl, _⟩ := q8 h3; pick
    · obtain ⟨_, _, _, rfl, _⟩ := q6 h2
      by_cases h3 : bBR = 0
      · subst h3; pick
      · obtain ⟨_, _, rfl, _⟩ := q8 h3; pick
  subst h1
  clear q1 q2 q3 q4
  by_cases h1 : aBL = 0
  swap
  · obtain ⟨rfl, rfl, rfl, rfl, rfl⟩ := q5 h1
    by_cases h2 : aBR = 0
    · subst h2
      by_cases h3 : cTR = 0
      · subst h3; pick
      · obtain ⟨rfl, _, _, _, rfl⟩ := q10 h3; pick
    · obtain ⟨rfl, _, rfl, _, rfl⟩ := q6 h2; pick
  subst h1
  by_cases h1 : aBR = 0
  swap
  · obtain ⟨rfl, rfl, rfl, rfl, rfl⟩ := q6 h1
    by_cases h2 : bBR = 0
    · subst h2
      by_cases h3 : cTL = 0
      · subst h3; pick
      · obtain ⟨rfl, _⟩ := q9 h3; pick
    · obtain ⟨_, _, rfl, _⟩ := q8 h2; pick
  subst h1
  by_cases h1 : bTR = 0
  swap
  · obtain ⟨rfl, _, _, rfl, rfl⟩ := q7 h1
    by_cases h2 : bBR = 0
    · subst h2
      by_cases h3 : cTR = 0
      · subst h3
        by_cases h4 : dBL = 0
        · subst h4; pick
        · obtain ⟨rfl, _⟩ := q12 h4; pick
      · obtain ⟨_, _, _, _, rfl⟩ := q10 h3; pick
    · obtain ⟨rfl, _, _, rfl, rfl⟩ := q8 h2; pick
  subst h1
  by_cases h1 : bBR = 0
  swap
  · obtain ⟨rfl, _, rfl, rfl, rfl⟩ := q8 h1
    by_cases h2 : dTL = 0
    · subst h2; pick
    · obtain ⟨rfl, _⟩ := q11 h2; pick
  subst h1
  by_cases h1 : cTL = 0
  swap
  · obtain ⟨rfl, _, _, _, rfl⟩ := q9 h1
    by_cases h2 : cTR = 0
    · subst h2; pick
    · obtain ⟨rfl, _, _, rfl, _⟩ := q10 h2; pick
  subst h1
  by_cases h1 : cTR = 0
  swap
  · obtain ⟨rfl, _, _, rfl, rfl⟩ := q10 h1; pick
  subst h1
  by_cases h1 : dTL = 0
  · subst h1
    by_cases h2 : dBL = 0
    · subst h2
      pick
    · obtain ⟨rfl, _⟩ := q12 h2; pick
  · obtain ⟨rfl, _⟩ := q11 h1
    by_cases h2 : dBL = 0
    · subst h2; pick
    · obtain ⟨rfl, _⟩ := q12 h2; pick

/-- `s` realises the given weights of the sides and of the diagonal. -/
def Realises (s : Strands R) (a b c d e : R) : Prop :=
  s.NonNeg ∧ s.NonCrossing ∧ s.a = a ∧ s.b = b ∧ s.c = c ∧ s.d = d ∧ s.e = e

/-- reflect in the diagonal `e'` -/
def mirror (s : Strands R) : Strands R :=
  ⟨s.tl, s.bl, s.tr, s.br, s.bd, s.ac, s.bTR, s.bBR, s.aBL, s.aBR, s.dTL, s.dBL, s.cTL, s.cTR, s.along, s.across⟩

theorem Realises.mirror {s : Strands R} {a b c d e : R} (h : s.Realises a b c d e) : s.mirror.Realises b a d c e := by
  obtain ⟨h1, h2, h3, h4, h5, h6, h7⟩ := h
  refine ⟨⟨h1.tl, h1.bl, h1.tr, h1.br, h1.bd, h1.ac, h1.bTR, h1.bBR, h1.aBL, h1.aBR, h1.dTL, h1.dBL, h1.cTL, h1.cTR,
    h1.along, h1.across⟩, ?_, ?_, ?_, ?_, ?_, ?_⟩
  · constructor <;> simp only [Strands.mirror]
    · intro h; have := h2.bd h; tauto
    · intro h; have := h2.ac h; tauto
    · intro h; have := h2.along h; tauto
    · intro h; have := h2.across h; tauto
    · intro h; have := h2.bTR h; tauto
    · intro h; have := h2.bBR h; tauto
    · intro h; have := h2.aBL h; tauto
    · intro h; have := h2.aBR h; tauto
    · intro h; have := h2.dTL h; tauto
    · intro h; have := h2.dBL h; tauto
    · intro h; have := h2.cTL h; tauto
    · intro h; have := h2.cTR h; tauto
  · rw [← h4]; unfold Strands.a Strands.b Strands.mirror; dsimp only
  · rw [← h3]; unfold Strands.a Strands.b Strands.mirror; dsimp only
  · rw [← h6]; unfold Strands.c Strands.d Strands.mirror; dsimp only
  · rw [← h5]; unfold Strands.c Strands.d Strands.mirror; dsimp only
  · rw [← h7]; unfold Strands.e Strands.mirror; dsimp only; ring

macro "realise" : tactic => `(tactic| (
  refine ⟨⟨?_, ?_, ?_, ?_, ?_, ?_, ?_, ?_, ?_, ?_, ?_, ?_, ?_, ?_, ?_, ?_⟩, ⟨?_, ?_, ?_, ?_, ?_, ?_, ?_, ?_, ?_, ?_, ?_, ?_⟩,
    ?_, ?_, ?_, ?_, ?_⟩ <;>
    first
    | (simp only [Strands.a, Strands.b, Strands.c, Strands.d, Strands.e]; linarith)
    | simp))

/-- a triangle with sides `e`, `a`, `b`: the arcs around the corners opposite to `e`, `b`, `a`, and those into a corner -/
theorem split_tri {e a b : R} (he : 0 ≤ e) (ha : 0 ≤ a) (hb : 0 ≤ b) (h : TriEven e a b) (hba : b ≤ a + e) :
    ∃ k p q n m : R, 0 ≤ k ∧ 0 ≤ p ∧ 0 ≤ q ∧ 0 ≤ n ∧ 0 ≤ m ∧ a = k + p + m ∧ b = k + q ∧ e = p + n + q ∧
      (n = 0 ∨ k = 0 ∧ m = 0) ∧ (m = 0 ∨ q = 0 ∧ n = 0) := by
  rcases le_total (a + b) e with h1 | h1
  · exact ⟨0, a, b, e - a - b, 0, by linarith, ha, hb, by linarith, le_refl _, by linarith, by linarith, by linarith,
      .inr ⟨rfl, rfl⟩, .inl rfl⟩
  rcases le_total (b + e) a with h2 | h2
  · exact ⟨b, e, 0, 0, a - b - e, hb, he, le_refl _, le_refl _, by linarith, by linarith, by linarith, by linarith,
      .inl rfl, .inr ⟨rfl, rfl⟩⟩
  · unfold TriEven at h
    rw [max_eq_left ha, max_eq_left hb, max_eq_left he] at h
    obtain ⟨y, hy⟩ := h (by linarith) (by linarith) (by linarith)
    exact ⟨y - e, y - b, y - a, 0, 0, by linarith, by linarith, by linarith, le_refl _, le_refl _, by linarith,
      by linarith, by linarith, .inl rfl, .inl rfl⟩

theorem realise_xac {a b c d e : R} (ha : 0 ≤ a) (hb : 0 ≤ b) (hc : 0 ≤ c) (hd : 0 ≤ d)
    (h1 : TriEven e a b) (h2 : TriEven e c d) (g1 : e ≤ a + c) (g2 : d + e ≤ 2 * a + c) (g3 : b + e ≤ 2 * c + a)
    (g4 : b + d ≤ a + c) (g5 : b ≤ a + e) (g6 : d ≤ c + e) (g7 : 0 ≤ e) : ∃ s : Strands R, s.Realises a b c d e := by
  obtain ⟨k, p, q, n, m, hk, hp, hq, hn, hm, ea, eb, ee, o1, o2⟩ := split_tri g7 ha hb h1 g5
  obtain ⟨k', p', q', n', m', hk', hp', hq', hn', hm', ea', eb', ee', o1', o2'⟩ := split_tri g7 hc hd h2 g6
  have hpp : 0 ≤ p + p' - e := by
    rcases o1 with w1 | ⟨w1, w1'⟩ <;> rcases o1' with w2 | ⟨w2, w2'⟩ <;> rcases o2 with w3 | ⟨w3, w3'⟩ <;>
      rcases o2' with w4 | ⟨w4, w4'⟩ <;> linarith
  refine ⟨⟨k, q', q, k', p + p' - e, 0, m, n', 0, 0, n, m', 0, 0, 0, 0⟩, ?_⟩
  refine ⟨⟨hk, hq', hq, hk', hpp, le_refl _, hm, hn', le_refl _, le_refl _, hn, hm', le_refl _, le_refl _, le_refl _,
    le_refl _⟩, ⟨?_, ?_, ?_, ?_, ?_, ?_, ?_, ?_, ?_, ?_, ?_, ?_⟩, ?_, ?_, ?_, ?_, ?_⟩
  any_goals (simp only [Strands.a, Strands.b, Strands.c, Strands.d, Strands.e]; linarith)
  all_goals simp only [ne_eq, not_true_eq_false, false_implies, and_true, true_and]
  all_goals intro h
  all_goals (try tauto)

theorem exists_realises {a b c d e x : R} (ha : 0 ≤ a) (hb : 0 ≤ b) (hc : 0 ≤ c) (hd : 0 ≤ d)
    (h1 : TriEven e a b) (h2 : TriEven e c d) (h : FlipCase a b c d e x) : ∃ s : Strands R, s.Realises a b c d e := by
  have hp : ∀ {a b c d e : R}, 0 ≤ a → 0 ≤ b → 0 ≤ c → 0 ≤ d → a + b ≤ e → c + d ≤ e → d ≤ a → b ≤ c →
      ∃ s : Strands R, s.Realises a b c d e := by
    intro a b c d e ha hb hc hd h1 h2 h3 h4
    rcases le_total a (e - c) with h5 | h5
    · exact ⟨⟨0, d, b, 0, 0, 0, 0, a - d, 0, 0, c - b, 0, 0, 0, 0, e - c - a⟩, by realise⟩
    · exact ⟨⟨0, d, b, 0, a + c - e, 0, 0, e - c - d, 0, 0, e - b - a, 0, 0, 0, 0, 0⟩, by realise⟩
  cases h with
  | aab g1 g2 g3 g => exact ⟨⟨0, d, c, 0, 0, 0, 0, a - d, 0, b - c, 0, 0, 0, 0, 0, e - a - b⟩, by realise⟩
  | acd g1 g2 g3 g => exact ⟨⟨0, a, b, 0, 0, 0, 0, 0, 0, 0, c - b, 0, d - a, 0, 0, e - c - d⟩, by realise⟩
  | dad g1 g2 g3 g => exact ⟨⟨b, 0, 0, c, 0, 0, a - b, 0, 0, 0, 0, 0, 0, d - c, -e, 0⟩, by realise⟩
  | dbc g1 g2 g3 g => exact ⟨⟨a, 0, 0, d, 0, 0, 0, 0, b - a, 0, 0, c - d, 0, 0, -e, 0⟩, by realise⟩
  | nad g1 g2 g3 g => exact ⟨⟨b, e, 0, c, 0, 0, a - b - e, 0, 0, 0, 0, 0, 0, d - c - e, 0, 0⟩, by realise⟩
  | nbc g1 g2 g3 g => exact ⟨⟨a, 0, e, d, 0, 0, 0, 0, b - a - e, 0, 0, c - d - e, 0, 0, 0, 0⟩, by realise⟩
  | nab g1 g2 g3 g => exact ⟨⟨x, d, c, 0, 0, 0, 0, a - x - d, 0, b - x - c, 0, 0, 0, 0, 0, 0⟩, by realise⟩
  | ncd g1 g2 g3 g => exact ⟨⟨0, a, b, x, 0, 0, 0, 0, 0, 0, c - x - b, 0, d - x - a, 0, 0, 0⟩, by realise⟩
  | mac g1 g2 g3 g => exact ⟨⟨b, 0, 0, d, 0, 0, a - b, 0, 0, 0, 0, c - d, 0, 0, -e, 0⟩, by realise⟩
  | mbd g1 g2 g3 g => exact ⟨⟨a, 0, 0, c, 0, 0, 0, 0, b - a, 0, 0, 0, 0, d - c, -e, 0⟩, by realise⟩
  | xac g1 g2 g3 g4 g5 g6 g7 g => exact realise_xac ha hb hc hd h1 h2 g1 g2 g3 g4 g5 g6 g7
  | xbd g1 g2 g3 g4 g5 g6 g7 g =>
    have h1' : TriEven e b a := by
      intro t1 t2 t3; have := h1 (by linarith) (by linarith) (by linarith); convert this using 1; ring
    have h2' : TriEven e d c := by
      intro t1 t2 t3; have := h2 (by linarith) (by linarith) (by linarith); convert this using 1; ring
    obtain ⟨s, hs⟩ := realise_xac hb ha hd hc h1' h2' g1 g2 g3 g4 g5 g6 g7
    exact ⟨_, hs.mirror⟩
  | pac g1 g2 g3 g4 g => exact hp ha hb hc hd g1 g2 g3 g4
  | pbd g1 g2 g3 g4 g =>
    obtain ⟨s, hs⟩ := hp (e := e) hb ha hd hc (by linarith) (by linarith) g4 g3
    exact ⟨_, hs.mirror⟩

end Strands
end Curver
