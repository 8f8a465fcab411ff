import Verif.Proofs.Union
import Mathlib.Data.Nat.Nth

/-!
# Colourings of a part of a lamination
-/

namespace Curver
open Triangulation

theorem count_nth_exists {p : Nat → Bool} {s u : Nat} (h : s < Nat.count (fun t => p t = true) u) : ∃ t < u, p t = true ∧ Nat.count (fun t => p t = true) t = s := by
  induction u with
  | zero => simp at h
  | succ u ih =>
    rw [Nat.count_succ] at h
    by_cases q : s < Nat.count (fun t => p t = true) u
    · obtain ⟨t, h1, h2⟩ := ih q
      exact ⟨t, by omega, h2⟩
    · split_ifs at h with hp
      · exact ⟨u, by omega, hp, by omega⟩
      · omega

theorem count_succ_of {p : Nat → Bool} {t : Nat} (h : p t = true) : Nat.count (fun t => p t = true) (t + 1) = Nat.count (fun t => p t = true) t + 1 := by
  rw [Nat.count_succ, if_pos h]

theorem count_inj {p : Nat → Bool} {s t : Nat} (hs : p s = true) (ht : p t = true) (h : Nat.count (fun t => p t = true) s = Nat.count (fun t => p t = true) t) : s = t := by
  rcases lt_trichotomy s t with q | q | q
  · have := (count_mono p (show s + 1 ≤ t by omega)).1
    rw [count_succ_of hs] at this
    omega
  · exact q
  · have := (count_mono p (show t + 1 ≤ s by omega)).1
    rw [count_succ_of ht] at this
    omega

namespace Lam
variable {L X Y : Lam Int} {red blue : Int → Nat → Bool}

theorem IsPart.abs (h : L.IsPart red true X) {x : Int} (hx : L.tri.IsLabel x) : (X.w x).natAbs = Nat.count (fun t => red x t = true) (L.w x).natAbs := by
  have := abs_sign_mul (u := L.w x) (Nat.count_le (fun t => red x t = true) (n := (L.w x).natAbs))
  rw [← h.2.2 x hx] at this
  rw [← Int.natCast_natAbs] at this
  exact_mod_cast this

theorem IsPart.pos (h : L.IsPart red true X) {x : Int} (hx : L.tri.IsLabel x) (h0 : 0 ≤ L.w x) : 0 ≤ X.w x := by
  rw [h.2.2 x hx]
  exact mul_nonneg (Int.sign_nonneg_iff.2 h0) (by omega)

theorem IsPart.neg (h : L.IsPart red true X) {x : Int} (hx : L.tri.IsLabel x) (h0 : L.w x ≤ 0) : X.w x ≤ 0 := by
  rw [h.2.2 x hx]
  exact mul_nonpos_of_nonpos_of_nonneg (Int.sign_nonpos_iff.2 h0) (by omega)

theorem IsPart.sgn (h : L.IsPart red true X) {x : Int} (hx : L.tri.IsLabel x) : X.w x = (L.w x).sign * (X.w x).natAbs := by
  rw [h.abs hx]; exact h.2.2 x hx

/-- the part in a triangle -/
theorem IsPart.counts (hL : L.Consistent) (hc : L.Colouring red) (h : L.IsPart red true X) {x y z : Int} (hg : L.tri.Glues x y z) :
    ∃ p q r : Nat, Corners (max (L.w x) 0) (max (L.w y) 0) (max (L.w z) 0) p q r ∧
      Counts (max (L.w x) 0) (max (L.w y) 0) (max (L.w z) 0) p q r (max (X.w x) 0) (max (X.w y) 0) (max (X.w z) 0) (Nat.count (fun t => red x t = true) p) (Nat.count (fun t => red y t = true) q)
        (Nat.count (fun t => red z t = true) r) := by
  have hcp := hL.1.1.comp
  have n : ∀ u : Int, 0 ≤ max u 0 := fun u => le_max_right _ _
  obtain ⟨p, q, r, c⟩ := corners_of (n _) (n _) (n _) (triEven_max1.2 ((consistent_iff.1 hL).2 x y z hg))
  have l := hcp.label_of_glues hg
  have side : ∀ {x}, L.tri.IsLabel x → Side (max (L.w x) 0) (max (X.w x) 0) (upto (red x)) (upto (red (inv x))) := by
    intro x hx
    rcases le_total 0 (L.w x) with h0 | h0
    · have := side_upto (fun t ht => hc.back x t hx ht)
      rw [max_eq_left h0, max_eq_left (h.pos hx h0)]
      have e1 : ((L.w x).natAbs : Int) = L.w x := Int.natAbs_of_nonneg h0
      have e2 : (Nat.count (fun t => red x t = true) (L.w x).natAbs : Int) = X.w x := by
        rw [← h.abs hx, Int.natAbs_of_nonneg (h.pos hx h0)]
      rwa [e2, e1] at this
    · rw [max_eq_right h0, max_eq_right (h.neg hx h0)]
      have := side_upto (p := red x) (q := red (inv x)) (n := 0) (fun t ht => by omega)
      simpa using this
  have around : ∀ {x y z : Int} {p q r : Int}, L.tri.Glues x y z → Corners (max (L.w x) 0) (max (L.w y) 0) (max (L.w z) 0) p q r → ∀ t, 0 ≤ t → t ≤ p → upto (red x) t = upto (red (inv z)) t := by
    intro x y z p q r hg c t h0 ht
    obtain ⟨h1, h2, h3, h4⟩ := c
    unfold upto
    congr 1
    refine count_congr_lt ?_
    intro s hs
    have hw := n (L.w x)
    have hw2 := n (L.w y)
    have hw3 := n (L.w z)
    refine hc.corner x y z s hg ?_ ?_ ?_ <;> generalize max (L.w x) 0 = a at * <;> generalize max (L.w y) 0 = b at * <;> generalize max (L.w z) 0 = c at * <;> omega
  have k := c.counts (side l.1) (side l.2.1) (side l.2.2) (around hg c) (around hg.rot c.rot) (around hg.rot.rot c.rot.rot)
  obtain ⟨p', rfl⟩ := Int.eq_ofNat_of_zero_le c.np
  obtain ⟨q', rfl⟩ := Int.eq_ofNat_of_zero_le c.nq
  obtain ⟨r', rfl⟩ := Int.eq_ofNat_of_zero_le c.nr
  refine ⟨p', q', r', c, ?_⟩
  unfold upto at k
  simpa using k

/-- a part of a lamination is a lamination -/
theorem IsPart.consistent (hL : L.Consistent) (hc : L.Colouring red) (h : L.IsPart red true X) : X.Consistent := by
  rw [consistent_iff]
  refine ⟨h.1, ?_⟩
  intro x y z hg
  rw [h.2.1] at hg
  obtain ⟨p, q, r, -, -, -, -, hf⟩ := h.counts hL hc hg
  intro h1 h2 h3
  rw [Int.even_iff]
  have n : ∀ u : Int, 0 ≤ max u 0 := fun u => le_max_right _ _
  have := n (X.w x)
  have := n (X.w y)
  have := n (X.w z)
  generalize max (X.w x) 0 = a at *
  generalize max (X.w y) 0 = b at *
  generalize max (X.w z) 0 = c at *
  rcases hf with q | q | q | q <;> omega

/-- a strand of the part around a corner -/
theorem IsPart.down (hL : L.Consistent) (hc : L.Colouring red) (h : L.IsPart red true X) {x y z : Int} (hg : L.tri.Glues x y z) {t : Nat} (h1 : (t : Int) + 1 ≤ max (L.w x) 0)
    (h2 : (t : Int) + 1 ≤ max (L.w z) 0) (h3 : 2 * ((t : Int) + 1) ≤ max (L.w x) 0 + max (L.w z) 0 - max (L.w y) 0) :
    Nat.count (fun t => red x t = true) t = Nat.count (fun t => red (inv z) t = true) t ∧ (red x t = true → ∀ s : Nat, Nat.count (fun t => red x t = true) t = s →
      (s : Int) + 1 ≤ max (X.w x) 0 ∧ (s : Int) + 1 ≤ max (X.w z) 0 ∧ 2 * ((s : Int) + 1) ≤ max (X.w x) 0 + max (X.w z) 0 - max (X.w y) 0) := by
  refine ⟨count_congr_lt (fun s hs => hc.corner x y z s hg (by omega) (by omega) (by omega)), ?_⟩
  intro hr s hs
  obtain ⟨p, q, r, ⟨c1, c2, c3, c4⟩, k1, k2, k3, hf⟩ := h.counts hL hc hg
  have n : ∀ u : Int, 0 ≤ max u 0 := fun u => le_max_right _ _
  have n1 := n (L.w x)
  have n2 := n (L.w y)
  have n3 := n (L.w z)
  have n4 := n (X.w x)
  have n5 := n (X.w y)
  have n6 := n (X.w z)
  have hp : t + 1 ≤ p := by
    generalize max (L.w x) 0 = a at *
    generalize max (L.w y) 0 = b at *
    generalize max (L.w z) 0 = c at *
    clear hf
    omega
  have m := (count_mono (red x) hp).1
  rw [count_succ_of hr, hs] at m
  generalize max (L.w x) 0 = a at *
  generalize max (L.w y) 0 = b at *
  generalize max (L.w z) 0 = c at *
  generalize max (X.w x) 0 = a' at *
  generalize max (X.w y) 0 = b' at *
  generalize max (X.w z) 0 = c' at *
  clear c4
  rcases hf with hf | hf | hf | hf <;> omega

/-- all the strands of the part around a corner -/
theorem IsPart.up (hL : L.Consistent) (hc : L.Colouring red) (h : L.IsPart red true X) {x y z : Int} (hg : L.tri.Glues x y z) {s : Nat} (h1 : (s : Int) + 1 ≤ max (X.w x) 0)
    (h2 : (s : Int) + 1 ≤ max (X.w z) 0) (h3 : 2 * ((s : Int) + 1) ≤ max (X.w x) 0 + max (X.w z) 0 - max (X.w y) 0) :
    ∃ t : Nat, red x t = true ∧ red (inv z) t = true ∧ Nat.count (fun t => red x t = true) t = s ∧ Nat.count (fun t => red (inv z) t = true) t = s ∧
      (t : Int) + 1 ≤ max (L.w x) 0 ∧ (t : Int) + 1 ≤ max (L.w z) 0 ∧ 2 * ((t : Int) + 1) ≤ max (L.w x) 0 + max (L.w z) 0 - max (L.w y) 0 := by
  obtain ⟨p, q, r, ⟨c1, c2, c3, c4⟩, k1, k2, k3, hf⟩ := h.counts hL hc hg
  have n : ∀ u : Int, 0 ≤ max u 0 := fun u => le_max_right _ _
  have n1 := n (L.w x)
  have n2 := n (L.w y)
  have n3 := n (L.w z)
  have hp : s < Nat.count (fun t => red x t = true) p := by
    generalize max (L.w x) 0 = a at *
    generalize max (L.w y) 0 = b at *
    generalize max (L.w z) 0 = c at *
    generalize max (X.w x) 0 = a' at *
    generalize max (X.w y) 0 = b' at *
    generalize max (X.w z) 0 = c' at *
    clear c4
    rcases hf with hf | hf | hf | hf <;> omega
  obtain ⟨t, t1, t2, t3⟩ := count_nth_exists hp
  have g1 : (t : Int) + 1 ≤ max (L.w x) 0 ∧ (t : Int) + 1 ≤ max (L.w z) 0 ∧ 2 * ((t : Int) + 1) ≤ max (L.w x) 0 + max (L.w z) 0 - max (L.w y) 0 := by
    generalize max (L.w x) 0 = a at *
    generalize max (L.w y) 0 = b at *
    generalize max (L.w z) 0 = c at *
    clear hf
    omega
  have g2 := hc.corner x y z t hg g1.1 g1.2.1 g1.2.2
  refine ⟨t, t2, by rw [← g2, t2], t3, ?_, g1⟩
  rw [← (h.down hL hc hg g1.1 g1.2.1 g1.2.2).1, t3]

/-- the colour of the points of the part -/
noncomputable def restrict (red blue : Int → Nat → Bool) (x : Int) (s : Nat) : Bool := blue x (Nat.nth (fun t => red x t = true) s)

theorem restrict_at {x : Int} {t : Nat} (h : red x t = true) : restrict red blue x (Nat.count (fun t => red x t = true) t) = blue x t := by
  unfold restrict
  rw [Nat.nth_count (p := fun t => red x t = true) h]

/-- a point and the same point seen from the other end -/
theorem Colouring.mirror (hc : L.Colouring red) (h : L.IsPart red true X) {x : Int} (hx : L.tri.IsLabel x) {s : Nat} (hs : s < (X.w x).natAbs) :
    ∃ t, t < (L.w x).natAbs ∧ red (inv x) t = true ∧ Nat.count (fun t => red (inv x) t = true) t = s ∧
      red x ((L.w x).natAbs - 1 - t) = true ∧ Nat.count (fun t => red x t = true) ((L.w x).natAbs - 1 - t) = (X.w x).natAbs - 1 - s := by
  have e : Nat.count (fun t => red (inv x) t = true) (L.w x).natAbs = (X.w x).natAbs := by
    have := h.abs (isLabel_inv.2 hx)
    rw [w_inv, w_inv] at this
    exact this.symm
  obtain ⟨t, t1, t2, t3⟩ := count_nth_exists (p := red (inv x)) (s := s) (u := (L.w x).natAbs) (by rw [e]; exact hs)
  have b := hc.back x t hx t1
  refine ⟨t, t1, t2, t3, by rw [← b, t2], ?_⟩
  have k := count_back (fun t ht => hc.back x t hx ht) (t + 1) (by omega)
  rw [count_succ_of t2, ← h.abs hx, t3, show (L.w x).natAbs - (t + 1) = (L.w x).natAbs - 1 - t by omega] at k
  omega

/-- a colouring of the lamination gives one of the part -/
theorem Colouring.restrict (hL : L.Consistent) (hc : L.Colouring red) (h : L.IsPart red true X) (hb : L.Colouring blue) : X.Colouring (restrict red blue) := by
  refine ⟨?_, ?_⟩
  · intro x s hx hs
    rw [h.2.1] at hx
    obtain ⟨t, t1, t2, t3, t4, t5⟩ := hc.mirror h hx hs
    rw [← t3, restrict_at t2, t3, ← t5, restrict_at t4]
    exact hb.back x t hx t1
  · intro x y z s hg h1 h2 h3
    rw [h.2.1] at hg
    obtain ⟨t, t1, t2, t3, t4, t5, t6, t7⟩ := h.up hL hc hg h1 h2 h3
    have e1 := restrict_at (blue := blue) t1
    have e2 := restrict_at (blue := blue) t2
    rw [t3] at e1
    rw [t4] at e2
    rw [e1, e2]
    exact hb.corner x y z t hg t5 t6 t7

/-- the points of the lamination that belong to a part of the part -/
def extend (red blue : Int → Nat → Bool) (x : Int) (t : Nat) : Bool := red x t && blue x (Nat.count (fun t => red x t = true) t)

theorem Colouring.extend (hL : L.Consistent) (hc : L.Colouring red) (h : L.IsPart red true X) (hb : X.Colouring blue) : L.Colouring (extend red blue) := by
  refine ⟨?_, ?_⟩
  · intro x t hx ht
    unfold Lam.extend
    have b := hc.back x t hx ht
    by_cases q : red (inv x) t = true
    · have q' := b ▸ q
      rw [q, q', Bool.true_and, Bool.true_and]
      have k := count_back (fun t ht => hc.back x t hx ht) (t + 1) (by omega)
      rw [count_succ_of q, ← h.abs hx, show (L.w x).natAbs - (t + 1) = (L.w x).natAbs - 1 - t by omega] at k
      rw [hb.back x _ (by rw [h.2.1]; exact hx) (by omega)]
      congr 1
      omega
    · rw [Bool.not_eq_true] at q
      have q' := b ▸ q
      rw [q, q', Bool.false_and, Bool.false_and]
  · intro x y z t hg h1 h2 h3
    obtain ⟨d1, d2⟩ := h.down hL hc hg h1 h2 h3
    have e := hc.corner x y z t hg h1 h2 h3
    unfold Lam.extend
    by_cases q : red x t = true
    · obtain ⟨g1, g2, g3⟩ := d2 q _ rfl
      rw [← e, q, ← d1, hb.corner x y z _ (by rw [h.2.1]; exact hg) g1 g2 g3]
    · rw [Bool.not_eq_true] at q
      rw [← e, q, Bool.false_and, Bool.false_and]

theorem count_restrict {x : Int} {n : Nat} (hsub : ∀ t < n, blue x t = true → red x t = true) (u : Nat) : u ≤ n →
    Nat.count (fun s => Lam.restrict red blue x s = true) (Nat.count (fun t => red x t = true) u) = Nat.count (fun t => blue x t = true) u := by
  induction u with
  | zero => simp
  | succ u ih =>
    intro hu
    rw [Nat.count_succ (p := fun t => red x t = true), Nat.count_succ (p := fun t => blue x t = true), ← ih (by omega)]
    by_cases q : red x u = true
    · rw [if_pos q, Nat.count_succ, restrict_at q]
    · have : ¬ blue x u = true := fun q' => q (hsub u (by omega) q')
      rw [if_neg q, if_neg this]; rfl

theorem count_extend {x : Int} (u : Nat) : Nat.count (fun t => Lam.extend red blue x t = true) u = Nat.count (fun s => blue x s = true) (Nat.count (fun t => red x t = true) u) := by
  induction u with
  | zero => simp
  | succ u ih =>
    rw [Nat.count_succ (p := fun t => red x t = true), Nat.count_succ (p := fun t => Lam.extend red blue x t = true), ih]
    unfold Lam.extend
    by_cases q : red x u = true
    · rw [if_pos q, Nat.count_succ, q, Bool.true_and]
    · rw [if_neg q]
      rw [Bool.not_eq_true] at q
      rw [q, Bool.false_and]; rfl

theorem sign_of_part (h : L.IsPart red true X) {x : Int} (hx : L.tri.IsLabel x) {k : Nat} (hk : k ≤ (X.w x).natAbs) : (L.w x).sign * (k : Int) = (X.w x).sign * k := by
  have hw := h.sgn hx
  rcases Nat.eq_zero_or_pos k with q | q
  · subst q; simp
  · congr 1
    have h0 : X.w x ≠ 0 := by intro q'; rw [q'] at hk; simp at hk; omega
    rcases lt_trichotomy (L.w x) 0 with q1 | q1 | q1
    · rw [Int.sign_eq_neg_one_of_neg q1, Int.sign_eq_neg_one_of_neg]
      have := h.neg hx q1.le
      omega
    · exfalso
      have := h.neg hx q1.le
      have := h.pos hx q1.ge
      omega
    · rw [Int.sign_eq_one_of_pos q1, Int.sign_eq_one_of_pos]
      have := h.pos hx q1.le
      omega

/-- a part of the lamination inside the part -/
theorem IsPart.restrict (h : L.IsPart red true X) (hy : L.IsPart blue true Y) (hsub : ∀ x t, L.tri.IsLabel x → t < (L.w x).natAbs → blue x t = true → red x t = true) : X.IsPart (restrict red blue) true Y := by
  refine ⟨hy.1, by rw [hy.2.1, h.2.1], ?_⟩
  intro x hx
  rw [h.2.1] at hx
  have e := count_restrict (red := red) (blue := blue) (x := x) (fun t => hsub x t hx) (L.w x).natAbs le_rfl
  rw [← h.abs hx] at e
  rw [e, ← sign_of_part h hx, hy.2.2 x hx]
  rw [← e]
  exact Nat.count_le _

theorem IsPart.extend (h : L.IsPart red true X) (hy : X.IsPart blue true Y) : L.IsPart (extend red blue) true Y := by
  refine ⟨hy.1, by rw [hy.2.1, h.2.1], ?_⟩
  intro x hx
  rw [count_extend, ← h.abs hx, sign_of_part h hx (Nat.count_le _)]
  exact hy.2.2 x (by rw [h.2.1]; exact hx)

end Lam
end Curver
