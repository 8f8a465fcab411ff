import Verif.Proofs.Boundary

/-!
# The curves around a multiarc do not meet the curves that do not meet the multiarc
-/

namespace Curver
open Triangulation
namespace Lam
variable {L K s X Y S B M : Lam Int} {U p : List Int}

/-- a lamination that crosses each edge once for each direction in which it was passed -/
structure Around (B : Lam Int) (U p : List Int) : Prop where
  wf : B.WellFormed
  sym : Sym U
  full : B.tri.Full U
  label : ∀ x ∈ p, B.tri.IsLabel x
  free : ∀ x ∈ p, x ∉ U
  closed : ∀ x ∈ p, B.tri.around1 U x ∈ p
  start : ∀ x, B.tri.IsLabel x → x ∉ U → B.tri.nxt (B.tri.nxt x) ∈ U → x ∈ p
  weight : ∀ x, B.tri.IsLabel x → B.w x = (if x ∈ p then 1 else 0) + (if inv x ∈ p then 1 else 0)

/-- the four types of triangles -/
theorem Around.cases (h : B.Around U p) {a b c : Int} (hg : B.tri.Glues a b c) :
    (a ∈ U ∧ b ∈ U ∧ c ∈ U) ∨
    (a ∉ U ∧ b ∉ U ∧ c ∉ U ∧ (a ∈ p ↔ inv c ∈ p) ∧ (b ∈ p ↔ inv a ∈ p) ∧ (c ∈ p ↔ inv b ∈ p)) ∨
    (a ∉ U ∧ b ∉ U ∧ c ∈ U ∧ (a ∈ p ↔ inv b ∈ p) ∧ (b ∈ p ↔ inv a ∈ p)) ∨
    (b ∉ U ∧ c ∉ U ∧ a ∈ U ∧ (b ∈ p ↔ inv c ∈ p) ∧ (c ∈ p ↔ inv b ∈ p)) ∨
    (c ∉ U ∧ a ∉ U ∧ b ∈ U ∧ (c ∈ p ↔ inv a ∈ p) ∧ (a ∈ p ↔ inv c ∈ p)) := by
  have hT := h.wf.1
  by_cases ha : a ∈ U <;> by_cases hb : b ∈ U <;> by_cases hc : c ∈ U
  · exact .inl ⟨ha, hb, hc⟩
  · exact absurd (h.full _ _ _ hg ha hb) hc
  · exact absurd (h.full _ _ _ hg.rot.rot hc ha) hb
  · exact .inr (.inr (.inr (.inl ⟨hb, hc, ha, passed_one hT h.sym h.label h.free h.closed hg.rot hb hc ha⟩)))
  · exact absurd (h.full _ _ _ hg.rot hb hc) ha
  · exact .inr (.inr (.inr (.inr ⟨hc, ha, hb, passed_one hT h.sym h.label h.free h.closed hg.rot.rot hc ha hb⟩)))
  · exact .inr (.inr (.inl ⟨ha, hb, hc, passed_one hT h.sym h.label h.free h.closed hg ha hb hc⟩))
  · exact .inr (.inl ⟨ha, hb, hc, passed_none hT h.sym h.label h.free h.closed hg ha hc, passed_none hT h.sym h.label h.free h.closed hg.rot hb ha,
      passed_none hT h.sym h.label h.free h.closed hg.rot.rot hc hb⟩)

theorem Around.zero (h : B.Around U p) {x : Int} (hx : B.tri.IsLabel x) (hU : x ∈ U) : x ∉ p ∧ inv x ∉ p ∧ B.w x = 0 := by
  have h1 : x ∉ p := fun q => h.free x q hU
  have h2 : inv x ∉ p := fun q => h.free _ q ((h.sym x).1 hU)
  exact ⟨h1, h2, by rw [h.weight x hx, if_neg h1, if_neg h2]; rfl⟩

theorem Around.noArcs (h : B.Around U p) : B.NoArcs := by
  have key : ∀ a b c, B.tri.Glues a b c → Even (B.w a + B.w b + B.w c) ∧ 0 ≤ B.w a ∧ B.w a ≤ B.w b + B.w c := by
    intro a b c hg
    have l := h.wf.1.comp.label_of_glues hg
    rw [h.weight a l.1, h.weight b l.2.1, h.weight c l.2.2]
    rcases h.cases hg with ⟨q1, q2, q3⟩ | ⟨_, _, _, q1, q2, q3⟩ | ⟨_, _, q3, q1, q2⟩ | ⟨_, _, q3, q1, q2⟩ | ⟨_, _, q3, q1, q2⟩
    · have a1 := h.zero l.1 q1
      have a2 := h.zero l.2.1 q2
      have a3 := h.zero l.2.2 q3
      simp [a1.1, a1.2.1, a2.1, a2.2.1, a3.1, a3.2.1]
    · simp only [← q1, ← q2, ← q3]
      refine ⟨⟨(if a ∈ p then 1 else 0) + (if b ∈ p then 1 else 0) + (if c ∈ p then 1 else 0), by ring⟩, ?_, ?_⟩ <;> (try split_ifs) <;> omega
    · have a3 := h.zero l.2.2 q3
      simp only [← q1, ← q2, a3.1, a3.2.1, if_false]
      refine ⟨⟨(if a ∈ p then 1 else 0) + (if b ∈ p then 1 else 0), by ring⟩, ?_, ?_⟩ <;> (try split_ifs) <;> omega
    · have a3 := h.zero l.1 q3
      simp only [← q1, ← q2, a3.1, a3.2.1, if_false]
      refine ⟨⟨(if b ∈ p then 1 else 0) + (if c ∈ p then 1 else 0), by ring⟩, ?_, ?_⟩ <;> (try split_ifs) <;> omega
    · have a3 := h.zero l.2.1 q3
      simp only [← q1, ← q2, a3.1, a3.2.1, if_false]
      refine ⟨⟨(if c ∈ p then 1 else 0) + (if a ∈ p then 1 else 0), by ring⟩, ?_, ?_⟩ <;> (try split_ifs) <;> omega
  rw [noArcs_iff, consistent_iff]
  refine ⟨⟨h.wf, fun a b c hg => ?_⟩, fun a b c hg => (key a b c hg).2⟩
  intro _ _ _
  rw [max_eq_left (key a b c hg).2.1, max_eq_left (key b c a hg.rot).2.1, max_eq_left (key c a b hg.rot.rot).2.1]
  exact (key a b c hg).1

/-- the red points are the first one of an edge that was passed and the last one of an edge that was passed in the other direction -/
theorem Around.disjoint (h : B.Around U p) (hM : M.NoArcs) (ht : M.tri = B.tri) (h0 : ∀ x ∈ U, M.w x = 0) : B.DisjointFrom M := by
  classical
  have hc := h.wf.1.comp
  have hM' := noArcs_iff.1 hM
  have hB' := noArcs_iff.1 h.noArcs
  let S : Lam Int := make B.tri (fun x => B.w x + M.w x) .integral
  have hS : ∀ x, B.tri.IsLabel x → S.w x = B.w x + M.w x := fun x hx => make_w _ (fun y => by rw [w_inv, w_inv]) hx
  have nM : ∀ x, B.tri.IsLabel x → 0 ≤ M.w x := fun x hx => hM.nonneg (by rw [ht]; exact hx)
  have nB : ∀ x, B.tri.IsLabel x → 0 ≤ B.w x := fun x hx => h.noArcs.nonneg hx
  have nS : ∀ x, B.tri.IsLabel x → 0 ≤ S.w x := fun x hx => by rw [hS x hx]; have := nM x hx; have := nB x hx; omega
  have wS : S.WellFormed := make_wellFormed h.wf.1 _ _
  let red : Int → Nat → Bool := fun x t => decide ((t = 0 ∧ x ∈ p) ∨ (t + 1 = (S.w x).toNat ∧ inv x ∈ p))
  have hcount : ∀ x, B.tri.IsLabel x → (Nat.count (fun t => red x t = true) (S.w x).toNat : Int) = B.w x := by
    intro x hx
    have e1 := hS x hx
    have e2 := h.weight x hx
    have e3 := nM x hx
    rw [e2]
    have hw : S.w x = (if x ∈ p then 1 else 0) + (if inv x ∈ p then 1 else 0) + M.w x := by rw [e1, e2]
    simp only [red, decide_eq_true_eq]
    generalize S.w x = n at *
    have key : ∀ (A C : Prop) [Decidable A] [Decidable C] (n : Nat), (A → 1 ≤ n) → (C → 1 ≤ n) → (A → C → 2 ≤ n) →
        Nat.count (fun t => (t = 0 ∧ A) ∨ (t + 1 = n ∧ C)) n = (if A then 1 else 0) + (if C then 1 else 0) := by
      intro A C _ _ n k1 k2 k3
      cases n with
      | zero =>
        have : ¬ A := fun h => by have := k1 h; omega
        have : ¬ C := fun h => by have := k2 h; omega
        simp [*]
      | succ n =>
        rw [Nat.count_succ]
        cases n with
        | zero =>
          by_cases qA : A
          · have : ¬ C := fun h => by have := k3 qA h; omega
            simp [qA, this]
          · by_cases qC : C <;> simp [qA, qC]
        | succ n =>
          have e : ∀ k, k ≤ n → Nat.count (fun t => (t = 0 ∧ A) ∨ (t + 1 = n + 1 + 1 ∧ C)) (k + 1) = if A then 1 else 0 := by
            intro k hk
            induction k with
            | zero => rw [Nat.count_succ, Nat.count_zero]; by_cases qA : A <;> simp [qA]
            | succ k ih =>
              rw [Nat.count_succ, ih (by omega), if_neg (c := (k + 1 = 0 ∧ A) ∨ _) (by omega), add_zero]
          rw [e n le_rfl]
          simp
    rw [key]
    · push_cast; rfl
    · intro q; rw [if_pos q] at hw; split_ifs at hw <;> omega
    · intro q; rw [if_pos q] at hw; split_ifs at hw <;> omega
    · intro q q'; rw [if_pos q, if_pos q'] at hw; omega
  have tri : ∀ a b c, B.tri.Glues a b c → S.w a ≤ S.w b + S.w c := by
    intro a b c hg
    have l := hc.label_of_glues hg
    have := (hM'.2 a b c (by rw [ht]; exact hg)).2
    have := (hB'.2 a b c hg).2
    rw [hS a l.1, hS b l.2.1, hS c l.2.2]
    omega
  have natAbs : ∀ x, B.tri.IsLabel x → (S.w x).natAbs = (S.w x).toNat := fun x hx => by have := nS x hx; omega
  refine ⟨S, consistent_iff.2 ⟨wS, fun a b c hg => ?_⟩, red, ⟨?_, ?_⟩, ⟨h.wf, rfl, ?_⟩, hM.1, ht, ?_⟩
  · have l := hc.label_of_glues hg
    have m1 := (consistent_iff.1 hM'.1).2 a b c (by rw [ht]; exact hg)
    have b1 := (consistent_iff.1 hB'.1).2 a b c hg
    unfold TriEven at m1 b1 ⊢
    have g' : M.tri.Glues a b c := by rw [ht]; exact hg
    obtain ⟨x1, y1⟩ := hM'.2 a b c g'
    obtain ⟨x2, y2⟩ := hM'.2 b c a g'.rot
    obtain ⟨x3, y3⟩ := hM'.2 c a b g'.rot.rot
    obtain ⟨u1, v1⟩ := hB'.2 a b c hg
    obtain ⟨u2, v2⟩ := hB'.2 b c a hg.rot
    obtain ⟨u3, v3⟩ := hB'.2 c a b hg.rot.rot
    rw [max_eq_left x1, max_eq_left x2, max_eq_left x3] at m1
    rw [max_eq_left u1, max_eq_left u2, max_eq_left u3] at b1
    rw [max_eq_left (nS a l.1), max_eq_left (nS b l.2.1), max_eq_left (nS c l.2.2), hS a l.1, hS b l.2.1, hS c l.2.2]
    intro _ _ _
    obtain ⟨k1, e1⟩ := m1 y1 y2 y3
    obtain ⟨k2, e2⟩ := b1 v1 v2 v3
    exact ⟨k1 + k2, by omega⟩
  · intro x t hx ht
    have hx : B.tri.IsLabel x := hx
    rw [natAbs x hx] at ht ⊢
    simp only [red, w_inv, Curver.inv_inv]
    rw [decide_eq_decide]
    have : t = 0 ↔ (S.w x).toNat - 1 - t + 1 = (S.w x).toNat := by omega
    have : t + 1 = (S.w x).toNat ↔ (S.w x).toNat - 1 - t = 0 := by omega
    tauto
  · intro x y z t hg h1 h2 h3
    have hg : B.tri.Glues x y z := hg
    have l := hc.label_of_glues hg
    rw [max_eq_left (nS x l.1)] at h1 h3
    rw [max_eq_left (nS z l.2.2)] at h2 h3
    rw [max_eq_left (nS y l.2.1)] at h3
    simp only [red, w_inv, Curver.inv_inv]
    rw [decide_eq_decide]
    have wx := hS x l.1
    have wy := hS y l.2.1
    have wz := hS z l.2.2
    rw [h.weight x l.1] at wx
    rw [h.weight y l.2.1] at wy
    rw [h.weight z l.2.2] at wz
    have g' : M.tri.Glues x y z := by rw [ht]; exact hg
    obtain ⟨x1, y1⟩ := hM'.2 x y z g'
    obtain ⟨x2, y2⟩ := hM'.2 y z x g'.rot
    obtain ⟨x3, y3⟩ := hM'.2 z x y g'.rot.rot
    have zU : ∀ v, B.tri.IsLabel v → v ∈ U → S.w v = 0 := by
      intro v lv hv
      rw [hS v lv, h0 v hv, (h.zero lv hv).2.2]; rfl
    rcases h.cases hg with ⟨q1, q2, q3⟩ | ⟨_, _, _, q1, q2, q3⟩ | ⟨_, _, q3, q1, q2⟩ | ⟨_, _, q3, q1, q2⟩ | ⟨_, _, q3, q1, q2⟩
    · have := zU x l.1 q1
      omega
    · simp only [← q1, ← q2, ← q3] at *
      by_cases px : x ∈ p <;> by_cases py : y ∈ p <;> by_cases pz : z ∈ p <;> simp only [px, py, pz, if_true, if_false] at wx wy wz <;> simp only [px, py, pz, and_true, and_false, or_false, false_or, iff_false, false_iff] <;> try omega
    · have := zU z l.2.2 q3
      omega
    · have := zU x l.1 q3
      omega
    · have hy0 := zU y l.2.1 q3
      have e := tri x y z hg
      have e' := tri z x y hg.rot.rot
      have : S.w x = S.w z := by omega
      rw [this, q2, ← q1]
  · intro x hx
    have hx : B.tri.IsLabel x := hx
    rw [natAbs x hx, hcount x hx]
    have a1 := hS x hx
    have a2 := nM x hx
    have a3 := nB x hx
    rcases eq_or_lt_of_le (nS x hx) with q | q
    · rw [← q] at a1 ⊢; simp; omega
    · rw [Int.sign_eq_one_of_pos q, one_mul]
  · intro x hx
    have hx : B.tri.IsLabel x := hx
    rw [natAbs x hx]
    have a1 := hS x hx
    have a2 := nM x hx
    have a3 := nB x hx
    have a4 := hcount x hx
    have a5 := count_split (red x) (S.w x).toNat
    rcases eq_or_lt_of_le (nS x hx) with q | q
    · rw [← q] at a1 ⊢; simp; omega
    · rw [Int.sign_eq_one_of_pos q, one_mul]
      omega

end Lam
end Curver
