import Verif.Proofs.LamFlip2

namespace Curver
open Triangulation
variable {R : Type} [CommRing R] [LinearOrder R] [IsStrictOrderedRing R] [Halvable R]

/-- `x`, `y`, `z` are the numbers of normal arcs opposite the sides of (non-negative) weights `a`, `b`, `c`; a negative number counts
arcs which run from the corner to the opposite side -/
def TriDual (a b c x y z : R) : Prop :=
  (0 ≤ x ∧ 0 ≤ y ∧ 0 ≤ z ∧ a = y + z ∧ b = z + x ∧ c = x + y) ∨
  (x < 0 ∧ 0 ≤ y ∧ 0 ≤ z ∧ a = y + z - x ∧ b = z ∧ c = y) ∨
  (y < 0 ∧ 0 ≤ z ∧ 0 ≤ x ∧ b = z + x - y ∧ c = x ∧ a = z) ∨
  (z < 0 ∧ 0 ≤ x ∧ 0 ≤ y ∧ c = x + y - z ∧ a = y ∧ b = x)

theorem TriDual.rot {a b c x y z : R} (h : TriDual a b c x y z) : TriDual b c a y z x := by
  unfold TriDual at h ⊢
  rcases h with h | h | h | h
  · left; tauto
  · right; right; right; exact ⟨h.1, h.2.1, h.2.2.1, h.2.2.2.1, h.2.2.2.2.1, h.2.2.2.2.2⟩
  · right; left; exact ⟨h.1, h.2.1, h.2.2.1, h.2.2.2.1, h.2.2.2.2.1, h.2.2.2.2.2⟩
  · right; right; left; exact ⟨h.1, h.2.1, h.2.2.1, h.2.2.2.1, h.2.2.2.2.1, h.2.2.2.2.2⟩

theorem dual2_eq {a b c : R} (ha : 0 ≤ a) (hb : 0 ≤ b) (hc : 0 ≤ c) :
    (a ≤ b + c → b ≤ c + a → c ≤ a + b → Lam.dual2 a b c = b + c - a) ∧ (b + c < a → Lam.dual2 a b c = (b + c - a) + (b + c - a)) ∧
    (c + a < b → Lam.dual2 a b c = c + c) ∧ (a + b < c → Lam.dual2 a b c = b + b) := by
  unfold Lam.dual2
  rw [max_eq_left ha, max_eq_left hb, max_eq_left hc]
  dsimp only
  refine ⟨?_, ?_, ?_, ?_⟩
  · intro h1 h2 h3
    rw [min_eq_right (a := min (min _ _) _)]
    · ring
    · refine le_min (le_min ?_ ?_) ?_ <;> linarith
  · intro h
    rw [min_eq_left (b := 0), min_eq_left (b := c + a - b), min_eq_right (b := b + c - a)]
    · linarith
    · refine (min_le_right _ _).trans ?_; linarith
    · refine (min_le_left _ _).trans ((min_le_right _ _).trans ?_); linarith
  · intro h
    rw [min_eq_left (b := 0), min_eq_right (b := c + a - b)]
    · ring
    · refine le_min ?_ ?_ <;> linarith
    · refine (min_le_right _ _).trans ?_; linarith
  · intro h
    rw [min_eq_left (b := 0), min_eq_left (b := c + a - b), min_eq_left (b := b + c - a)]
    · ring
    · linarith
    · refine (min_le_left _ _).trans ?_; linarith
    · refine (min_le_left _ _).trans ((min_le_left _ _).trans ?_); linarith

theorem two_inj {x y : R} (h : x + x = y + y) : x = y := by
  have : (2 : R) * x = 2 * y := by rw [two_mul, two_mul]; exact h
  exact mul_left_cancel₀ (by norm_num) this

theorem triDual_iff {a b c x y z : R} (ha : 0 ≤ a) (hb : 0 ≤ b) (hc : 0 ≤ c) : TriDual a b c x y z ↔
    x + x = Lam.dual2 a b c ∧ y + y = Lam.dual2 b c a ∧ z + z = Lam.dual2 c a b := by
  obtain ⟨a1, a2, a3, a4⟩ := dual2_eq ha hb hc
  obtain ⟨b1, b2, b3, b4⟩ := dual2_eq hb hc ha
  obtain ⟨c1, c2, c3, c4⟩ := dual2_eq hc ha hb
  constructor
  · rintro (⟨h1, h2, h3, h4, h5, h6⟩ | ⟨h1, h2, h3, h4, h5, h6⟩ | ⟨h1, h2, h3, h4, h5, h6⟩ | ⟨h1, h2, h3, h4, h5, h6⟩)
    · rw [a1 (by linarith) (by linarith) (by linarith), b1 (by linarith) (by linarith) (by linarith), c1 (by linarith) (by linarith) (by linarith)]
      refine ⟨?_, ?_, ?_⟩ <;> linarith
    · rw [a2 (by linarith), b4 (by linarith), c3 (by linarith)]
      refine ⟨?_, ?_, ?_⟩ <;> linarith
    · rw [b2 (by linarith), a3 (by linarith), c4 (by linarith)]
      refine ⟨?_, ?_, ?_⟩ <;> linarith
    · rw [c2 (by linarith), a4 (by linarith), b3 (by linarith)]
      refine ⟨?_, ?_, ?_⟩ <;> linarith
  · rintro ⟨h1, h2, h3⟩
    by_cases p1 : a ≤ b + c
    · by_cases p2 : b ≤ c + a
      · by_cases p3 : c ≤ a + b
        · rw [a1 p1 p2 p3] at h1
          rw [b1 p2 p3 p1] at h2
          rw [c1 p3 p1 p2] at h3
          left
          refine ⟨by linarith, by linarith, by linarith, ?_, ?_, ?_⟩ <;> linarith
        · push Not at p3
          rw [a4 p3] at h1; rw [b3 p3] at h2; rw [c2 p3] at h3
          right; right; right
          have := two_inj h1; have := two_inj h2; have := two_inj h3
          refine ⟨by linarith, by linarith, by linarith, ?_, ?_, ?_⟩ <;> linarith
      · push Not at p2
        rw [a3 p2] at h1; rw [b2 p2] at h2; rw [c4 p2] at h3
        right; right; left
        have := two_inj h1; have := two_inj h2; have := two_inj h3
        refine ⟨by linarith, by linarith, by linarith, ?_, ?_, ?_⟩ <;> linarith
    · push Not at p1
      rw [a2 p1] at h1; rw [b4 p1] at h2; rw [c3 p1] at h3
      right; left
      have := two_inj h1; have := two_inj h2; have := two_inj h3
      refine ⟨by linarith, by linarith, by linarith, ?_, ?_, ?_⟩ <;> linarith

theorem dual2_max {a b c : R} : Lam.dual2 (max a 0) (max b 0) (max c 0) = Lam.dual2 a b c := by
  unfold Lam.dual2
  simp

namespace Lam
variable {L : Lam R}

theorem dualWeight_eq (hw : L.WellFormed) {a b c : Int} (hg : L.tri.Glues a b c) : L.dualWeight a = half (dual2 (L.w a) (L.w b) (L.w c)) := by
  have hc := hw.1.comp
  have hl := hc.label_of_glues hg
  unfold dualWeight dualWeight2
  rw [hc.corner_eq hg]
  simp only [py_bind_ok, wt_eq hw.2 hl.1, wt_eq hw.2 hl.2.1, wt_eq hw.2 hl.2.2, py_pure]

theorem duals_iff (hw : L.WellFormed) {a b c : Int} (hg : L.tri.Glues a b c) {x y z : R} :
    (L.dualWeight a = .ok x ∧ L.dualWeight b = .ok y ∧ L.dualWeight c = .ok z) ↔ TriDual (max (L.w a) 0) (max (L.w b) 0) (max (L.w c) 0) x y z := by
  rw [dualWeight_eq hw hg, dualWeight_eq hw hg.rot, dualWeight_eq hw hg.rot.rot, half_ok_iff, half_ok_iff, half_ok_iff,
    triDual_iff (le_max_right _ _) (le_max_right _ _) (le_max_right _ _), dual2_max, dual2_max, dual2_max]

theorem leftWeight_eq (hw : L.WellFormed) {a b c : Int} (hg : L.tri.Glues a b c) : L.leftWeight a = L.dualWeight b := by
  unfold leftWeight
  rw [hw.1.comp.corner_eq hg]; rfl

theorem rightWeight_eq (hw : L.WellFormed) {a b c : Int} (hg : L.tri.Glues a b c) : L.rightWeight a = L.dualWeight c := by
  unfold rightWeight
  rw [hw.1.comp.corner_eq hg]; rfl

end Lam
end Curver
