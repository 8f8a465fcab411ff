import Verif.Proofs.UnionConn
import Verif.Proofs.ShortenMain

/-!
# Corners of the parts; parts that are curves
-/

namespace Curver
open Triangulation
namespace Lam
variable {L X Y N : Lam Int} {red : Int → Nat → Bool}

theorem Consistent.left (hL : L.Consistent) {x : Int} (hx : L.tri.IsLabel x) : L.leftWeight x = .ok (L.lf x) := by
  obtain ⟨n, hn⟩ := leftWeight_ok hL hx
  rw [hn, lf_eq hn]

theorem Consistent.lf_tri (hL : L.Consistent) {x y z : Int} (hg : L.tri.Glues x y z) : TriDual (max (L.w x) 0) (max (L.w y) 0) (max (L.w z) 0) (L.lf z) (L.lf x) (L.lf y) := by
  have hl := hL.1.1.comp.label_of_glues hg
  refine (duals_iff hL.1 hg).1 ⟨?_, ?_, ?_⟩
  · rw [← leftWeight_eq hL.1 hg.rot.rot]; exact hL.left hl.2.2
  · rw [← leftWeight_eq hL.1 hg]; exact hL.left hl.1
  · rw [← leftWeight_eq hL.1 hg.rot]; exact hL.left hl.2.1

/-- the strands around a corner -/
theorem Consistent.strand_iff (hL : L.Consistent) {x y z : Int} (hg : L.tri.Glues x y z) {t : Int} (ht : 0 ≤ t) :
    (t + 1 ≤ max (L.w x) 0 ∧ t + 1 ≤ max (L.w z) 0 ∧ 2 * (t + 1) ≤ max (L.w x) 0 + max (L.w z) 0 - max (L.w y) 0) ↔ t + 1 ≤ L.lf x := by
  have h := hL.lf_tri hg
  have n : ∀ u : Int, 0 ≤ max u 0 := fun u => le_max_right _ _
  have n1 := n (L.w x)
  have n2 := n (L.w y)
  have n3 := n (L.w z)
  generalize max (L.w x) 0 = a at *
  generalize max (L.w y) 0 = b at *
  generalize max (L.w z) 0 = c at *
  unfold TriDual at h
  rcases h with h | h | h | h <;> omega

theorem Consistent.lf_le (hL : L.Consistent) {x y z : Int} (hg : L.tri.Glues x y z) (h0 : 0 < L.lf x) : L.lf x ≤ L.w x ∧ L.lf x ≤ L.w z := by
  have h := hL.lf_tri hg
  unfold TriDual at h
  rcases h with h | h | h | h <;> omega

theorem Consistent.lf_add (hL : L.Consistent) {x y z : Int} (hg : L.tri.Glues x y z) (h0 : 0 < L.lf x) (h1 : 0 < L.lf y) : L.lf x + L.lf y ≤ L.w x := by
  have h := hL.lf_tri hg
  unfold TriDual at h
  rcases h with h | h | h | h <;> omega

theorem IsUnion.max_sub (hL : L.WellFormed) (h : L.IsUnion X Y) {x : Int} (hx : L.tri.IsLabel x) : max (Y.w x) 0 = max (L.w x) 0 - max (X.w x) 0 := by
  have hs := h.splits hL
  obtain ⟨F, hF⟩ := hs.part
  have := hF.max_sub hx
  rw [← this]
  have := hs.sum x hx
  congr 1
  omega

/-- corners of a disjoint union -/
theorem IsUnion.lf (hL : L.Consistent) (h : L.IsUnion X Y) {x : Int} (hx : L.tri.IsLabel x) : L.lf x = X.lf x + Y.lf x := by
  obtain ⟨y, z, hg⟩ := hL.1.1.comp.exists_glues hx
  have l := hL.1.1.comp.label_of_glues hg
  have hC := h.consistent hL
  have w := h.wf
  have h1 := hL.lf_tri hg
  have h2 := hC.1.lf_tri (x := x) (y := y) (z := z) (by rw [w.2.2.1]; exact hg)
  have h3 := hC.2.lf_tri (x := x) (y := y) (z := z) (by rw [w.2.2.2]; exact hg)
  rw [h.max_sub hL.1 l.1, h.max_sub hL.1 l.2.1, h.max_sub hL.1 l.2.2] at h3
  obtain ⟨red, c1, c2, c3⟩ := h
  obtain ⟨p, q, r, ⟨-, -, -, -⟩, k1, k2, k3, hf⟩ := c2.counts hL c1 hg
  generalize max (L.w x) 0 = a at *
  generalize max (L.w y) 0 = b at *
  generalize max (L.w z) 0 = c at *
  generalize max (X.w x) 0 = a' at *
  generalize max (X.w y) 0 = b' at *
  generalize max (X.w z) 0 = c' at *
  generalize (Nat.count (fun t => red x t = true) p : Int) = P at *
  generalize (Nat.count (fun t => red y t = true) q : Int) = Q at *
  generalize (Nat.count (fun t => red z t = true) r : Int) = S at *
  clear c1 c2 c3 w hC hg l
  unfold TriDual at h1 h2 h3
  rcases hf with hf | hf | hf | hf <;> rcases h1 with h1 | h1 | h1 | h1 <;> first | (exfalso; omega) | (rcases h2 with h2 | h2 | h2 | h2 <;> first | (exfalso; omega) | (rcases h3 with h3 | h3 | h3 | h3 <;> omega))

theorem count_eq_at (r n : Nat) (h : r < n) : Nat.count (fun t => t = r) n = 1 := by
  induction n with
  | zero => omega
  | succ n ih =>
    rw [Nat.count_succ]
    by_cases q : n = r
    · subst q
      rw [if_pos rfl, Nat.add_eq_right, Nat.count_iff_forall_not]
      intro t ht; omega
    · rw [if_neg q, ih (by omega)]

theorem count_or {p q : Nat → Prop} [DecidablePred p] [DecidablePred q] {n : Nat} (h : ∀ t < n, ¬ (p t ∧ q t)) : Nat.count (fun t => p t ∨ q t) n = Nat.count p n + Nat.count q n := by
  induction n with
  | zero => simp
  | succ n ih =>
    rw [Nat.count_succ, Nat.count_succ, Nat.count_succ, ih (fun t ht => h t (by omega))]
    have := h n (by omega)
    by_cases h1 : p n
    · have h2 : ¬ q n := fun h2 => this ⟨h1, h2⟩
      simp [h1, h2]; omega
    · by_cases h2 : q n
      · simp [h1, h2]; omega
      · simp [h1, h2]

/-- the points on a curve that crosses the edges in `X` at the position `r` -/
def ring (L : Lam Int) (X : List Int) (r : Nat) (x : Int) (t : Nat) : Bool := decide ((x ∈ X ∧ t = r) ∨ (inv x ∈ X ∧ t + r + 1 = (L.w x).natAbs))

theorem ring_iff {X : List Int} {r : Nat} {x : Int} {t : Nat} : L.ring X r x t = true ↔ (x ∈ X ∧ t = r) ∨ (inv x ∈ X ∧ t + r + 1 = (L.w x).natAbs) := by
  unfold ring; rw [decide_eq_true_eq]

theorem ring_count {X : List Int} (hn : X.Nodup) {r : Nat} (h3 : ∀ x ∈ X, (r : Int) + 1 ≤ L.w x) (h4 : ∀ x ∈ X, inv x ∈ X → 2 * (r : Int) + 2 ≤ L.w x) (x : Int) :
    (Nat.count (fun t => L.ring X r x t = true) (L.w x).natAbs : Int) = cn X x := by
  unfold ring
  simp only [decide_eq_true_eq]
  have e1 : ∀ {x}, x ∈ X → X.count x = 1 := fun h => List.count_eq_one_of_mem hn h
  have e0 : ∀ {x}, x ∉ X → X.count x = 0 := fun h => List.count_eq_zero.2 h
  have c1 : x ∈ X → Nat.count (fun t => t = r) (L.w x).natAbs = 1 := fun h => count_eq_at _ _ (by have := h3 x h; omega)
  have c2 : inv x ∈ X → Nat.count (fun t => t + r + 1 = (L.w x).natAbs) (L.w x).natAbs = 1 := by
    intro h
    have h3' := h3 _ h
    rw [w_inv] at h3'
    have := count_eq_at ((L.w x).natAbs - 1 - r) (L.w x).natAbs (by omega)
    rw [← this]
    congr 1
    funext t
    apply propext
    constructor <;> intro <;> omega
  unfold cn
  by_cases a : x ∈ X <;> by_cases b : inv x ∈ X
  · simp only [a, b, true_and]
    have := h4 x a b
    rw [count_or, c1 a, c2 b, e1 a, e1 b]; · rfl
    intro t ht; omega
  · simp only [a, b, true_and, false_and, or_false]
    rw [c1 a, e1 a, e0 b]; rfl
  · simp only [a, b, true_and, false_and, false_or]
    rw [c2 b, e1 b, e0 a]; rfl
  · simp only [a, b, false_and, or_false]
    rw [e0 a, e0 b]; simp

theorem ring_colouring (hL : L.Consistent) {X : List Int} {r : Nat} (h1 : ∀ x y z, L.tri.Glues x y z → (r : Int) + 1 ≤ L.lf x → (x ∈ X ↔ inv z ∈ X))
    (h2 : ∀ x y z (t : Nat), L.tri.Glues x y z → (t : Int) + 1 ≤ L.lf x → ((inv x ∈ X ∧ (t : Int) + r + 1 = L.w x) ↔ (z ∈ X ∧ (t : Int) + r + 1 = L.w z))) : L.Colouring (L.ring X r) := by
  refine ⟨?_, ?_⟩
  · intro x t hx ht
    rw [Bool.eq_iff_iff, ring_iff, ring_iff, w_inv, inv_inv]
    constructor
    · rintro (q | q)
      · exact .inr ⟨q.1, by omega⟩
      · exact .inl ⟨q.1, by omega⟩
    · rintro (q | q)
      · exact .inr ⟨q.1, by omega⟩
      · exact .inl ⟨q.1, by omega⟩
  · intro x y z t hg q1 q2 q3
    have s := (hL.strand_iff hg (t := t) (by omega)).1 ⟨q1, q2, q3⟩
    have le := hL.lf_le hg (by omega)
    rw [Bool.eq_iff_iff, ring_iff, ring_iff, w_inv, inv_inv]
    have k1 : t = r → (x ∈ X ↔ inv z ∈ X) := fun e => h1 x y z hg (by omega)
    have k2 := h2 x y z t hg s
    have e1 : t + r + 1 = (L.w x).natAbs ↔ (t : Int) + r + 1 = L.w x := by omega
    have e2 : t + r + 1 = (L.w z).natAbs ↔ (t : Int) + r + 1 = L.w z := by omega
    rw [e1, e2, k2]
    constructor
    · rintro (⟨q, e⟩ | q)
      · exact .inl ⟨(k1 e).1 q, e⟩
      · exact .inr q
    · rintro (⟨q, e⟩ | q)
      · exact .inl ⟨(k1 e).2 q, e⟩
      · exact .inr q

theorem ring_part (hL : L.Consistent) {X : List Int} (hn : X.Nodup) {r : Nat} (h3 : ∀ x ∈ X, (r : Int) + 1 ≤ L.w x)
    (h4 : ∀ x ∈ X, inv x ∈ X → 2 * (r : Int) + 2 ≤ L.w x) : L.IsPart (L.ring X r) true (L.tri.curveFromCutSequence X) := by
  refine ⟨⟨hL.1.1, curve_length _ _⟩, rfl, ?_⟩
  intro x hx
  rw [ring_count hn h3 h4, curve_cn X hx]
  by_cases q : 0 < L.w x
  · rw [Int.sign_eq_one_of_pos q, one_mul]
  · have a : x ∉ X := fun h => by have := h3 x h; omega
    have b : inv x ∉ X := fun h => by have := h3 _ h; rw [w_inv] at this; omega
    unfold cn
    rw [List.count_eq_zero.2 a, List.count_eq_zero.2 b]; simp

end Lam
end Curver
