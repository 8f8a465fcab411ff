import Verif.Spec.Union
import Verif.Proofs.PartMove

/-!
# Disjoint unions in terms of counting functions
-/

namespace Curver
open Triangulation

theorem count_split (p : Nat → Bool) (n : Nat) : Nat.count (fun t => p t = true) n + Nat.count (fun t => p t = false) n = n := by
  induction n with
  | zero => rfl
  | succ n ih =>
    rw [Nat.count_succ, Nat.count_succ]
    cases p n <;> simp <;> omega

theorem count_congr_lt {p q : Nat → Bool} {n : Nat} (h : ∀ t < n, p t = q t) : Nat.count (fun t => p t = true) n = Nat.count (fun t => q t = true) n := by
  induction n with
  | zero => rfl
  | succ n ih =>
    rw [Nat.count_succ, Nat.count_succ, ih (fun t ht => h t (by omega)), h n (by omega)]

/-- counting from the other end -/
theorem count_back {p q : Nat → Bool} {n : Nat} (h : ∀ t < n, q t = p (n - 1 - t)) : ∀ t ≤ n, Nat.count (fun t => q t = true) t + Nat.count (fun t => p t = true) (n - t) = Nat.count (fun t => p t = true) n := by
  intro t
  induction t with
  | zero => intro _; simp
  | succ t ih =>
    intro ht
    rw [← ih (by omega), Nat.count_succ, h t (by omega)]
    have : n - t = n - (t + 1) + 1 := by omega
    rw [this, Nat.count_succ, show n - 1 - t = n - (t + 1) by omega]
    split_ifs <;> omega

theorem count_mono (p : Nat → Bool) {s t : Nat} (h : s ≤ t) : Nat.count (fun t => p t = true) s ≤ Nat.count (fun t => p t = true) t ∧
    Nat.count (fun t => p t = true) t - Nat.count (fun t => p t = true) s ≤ t - s := by
  obtain ⟨k, rfl⟩ := Nat.exists_eq_add_of_le h
  rw [Nat.count_add]
  have : Nat.count (fun k => p (s + k) = true) k ≤ k := Nat.count_le _
  omega

/-- the counting function of a colour -/
def upto (p : Nat → Bool) (t : Int) : Int := Nat.count (fun t => p t = true) t.toNat

theorem side_upto {p q : Nat → Bool} {n : Nat} (h : ∀ t < n, q t = p (n - 1 - t)) : Side n (Nat.count (fun t => p t = true) n) (upto p) (upto q) := by
  unfold upto
  refine ⟨by omega, by simp, by simp, ?_, ?_⟩
  · intro s t h1 h2 h3
    have := count_mono p (Int.toNat_le_toNat h2)
    omega
  · intro t h1 h2
    have := count_back h t.toNat (by omega)
    rw [show ((n : Int) - t).toNat = n - t.toNat by omega]
    omega

theorem abs_sign_mul {u : Int} {k : Nat} (h : k ≤ u.natAbs) : |u.sign * k| = k := by
  rcases lt_trichotomy u 0 with q | q | q
  · rw [Int.sign_eq_neg_one_of_neg q, neg_one_mul, abs_neg, abs_of_nonneg (by omega)]
  · subst q
    have : k = 0 := by simpa using h
    subst this; rfl
  · rw [Int.sign_eq_one_of_pos q, one_mul, abs_of_nonneg (by omega)]

/-- the colour given by a counting function -/
def colour (f : Int → Int) (t : Nat) : Bool := decide (f (t + 1) - f t = 1)

theorem count_colour {u v : Int} {f g : Int → Int} (h : Side u v f g) : ∀ n : Nat, (n : Int) ≤ u → (Nat.count (fun t => colour f t = true) n : Int) = f n := by
  intro n
  induction n with
  | zero => intro _; simpa using h.zero.symm
  | succ n ih =>
    intro hn
    push_cast at hn
    rw [Nat.count_succ]
    push_cast
    rw [ih (by omega)]
    have := h.mono n (n + 1) (by omega) (by omega) (by omega)
    unfold colour
    simp only [decide_eq_true_eq]
    split_ifs with q <;> push_cast <;> omega

namespace Lam
variable {L X Y : Lam Int}

theorem IsUnion.splits (hL : L.WellFormed) (h : L.IsUnion X Y) : L.Splits X Y := by
  obtain ⟨red, hc, hX, hY⟩ := h
  have hcomp := hL.1.comp
  have hw : ∀ x, L.tri.IsLabel x → |X.w x| = Nat.count (fun t => red x t = true) (L.w x).natAbs := fun x hx => by rw [hX.2.2 x hx, abs_sign_mul (Nat.count_le _)]
  refine ⟨hX.1, hX.2.1, hY.1, hY.2.1, ?_, fun x => upto (red x), ?_, ?_, ?_, ?_⟩
  · intro x hx
    have := count_split (red x) (L.w x).natAbs
    rw [hX.2.2 x hx, hY.2.2 x hx, ← mul_add]
    norm_cast
    rw [this]
    exact (Int.sign_mul_natAbs (L.w x)).symm
  · intro x hx
    have := side_upto (fun t ht => hc.back x t hx ht)
    rw [← hw x hx] at this
    rwa [Int.natCast_natAbs] at this
  · intro x hx h0
    rw [hX.2.2 x hx]
    exact mul_nonneg (Int.sign_nonneg_iff.2 h0) (by omega)
  · intro x hx h0
    rw [hX.2.2 x hx]
    exact mul_nonpos_of_nonpos_of_nonneg (Int.sign_nonpos_iff.2 h0) (by omega)
  · intro x y z hg t h0 h1 h2 h3
    unfold upto
    have : ∀ s < t.toNat, red x s = red (inv z) s := by
      intro s hs
      exact hc.corner x y z s hg (by omega) (by omega) (by omega)
    rw [count_congr_lt this]

theorem Splits.isUnion (hL : L.WellFormed) (h : L.Splits X Y) : L.IsUnion X Y := by
  obtain ⟨wX, tX, wY, tY, hs, F, hF⟩ := h
  have hcomp := hL.1.comp
  have cnt : ∀ x, L.tri.IsLabel x → (Nat.count (fun t => colour (F x) t = true) (L.w x).natAbs : Int) = |X.w x| := by
    intro x hx
    have := hF.side x hx
    rw [count_colour this _ (by rw [Int.natCast_natAbs]), Int.natCast_natAbs]
    exact this.total
  have sgn : ∀ x, L.tri.IsLabel x → X.w x = (L.w x).sign * |X.w x| := by
    intro x hx
    rcases lt_trichotomy (L.w x) 0 with q | q | q
    · rw [Int.sign_eq_neg_one_of_neg q, abs_of_nonpos (hF.neg x hx q.le)]; ring
    · have h1 := hF.neg x hx (by omega)
      have h2 := hF.pos x hx (by omega)
      have : X.w x = 0 := by omega
      rw [this]; simp
    · rw [Int.sign_eq_one_of_pos q, abs_of_nonneg (hF.pos x hx q.le), one_mul]
  refine ⟨fun x => colour (F x), ⟨?_, ?_⟩, ⟨wX, tX, ?_⟩, wY, tY, ?_⟩
  · intro x t hx ht
    have hsd := hF.side x hx
    have e : ((L.w x).natAbs : Int) = |L.w x| := Int.natCast_natAbs _
    unfold colour
    rw [hsd.back t (by omega) (by omega), hsd.back (t + 1) (by omega) (by omega)]
    rw [show (((L.w x).natAbs - 1 - t : Nat) : Int) = |L.w x| - (t + 1) by omega, show |L.w x| - ((t : Int) + 1) + 1 = |L.w x| - t by omega]
    congr 1
    apply propext
    constructor <;> intro <;> omega
  · intro x y z t hg h1 h2 h3
    have l := hcomp.label_of_glues hg
    have q : (0 : Int) ≤ t := by omega
    unfold colour
    rw [hF.corner x y z hg t q (by omega) (by omega) (by omega), hF.corner x y z hg (t + 1) (by omega) (by omega) (by omega) (by omega)]
  · intro x hx
    rw [cnt x hx]; exact sgn x hx
  · intro x hx
    have h1 := count_split (colour (F x)) (L.w x).natAbs
    have h2 := hs x hx
    have h3 := sgn x hx
    rw [← cnt x hx] at h3
    have h4 : L.w x = (L.w x).sign * (L.w x).natAbs := (Int.sign_mul_natAbs (L.w x)).symm
    have h5 : ((L.w x).natAbs : Int) = Nat.count (fun t => colour (F x) t = true) (L.w x).natAbs + Nat.count (fun t => colour (F x) t = false) (L.w x).natAbs := by exact_mod_cast h1.symm
    have h6 : Y.w x = L.w x - X.w x := by omega
    rw [h6, h3]
    nth_rw 1 [h4]
    nth_rw 1 [h5]
    ring

end Lam
end Curver
