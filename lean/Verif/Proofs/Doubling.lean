import Verif.Proofs.UnionAssoc
import Mathlib.Order.WellFounded
import Mathlib.SetTheory.Cardinal.Order

/-!
# Two copies of a lamination
-/

namespace Curver
open Triangulation

/-- an involution without fixed points is a pairing -/
theorem exists_side {α : Type} (σ : α → α) (h1 : ∀ a, σ (σ a) = a) (h2 : ∀ a, σ a ≠ a) : ∃ f : α → Bool, ∀ a, f (σ a) = !f a := by
  classical
  refine ⟨fun a => decide (WellOrderingRel a (σ a)), fun a => ?_⟩
  dsimp only
  rw [h1]
  rcases trichotomous_of WellOrderingRel a (σ a) with h | h | h
  · have : ¬ WellOrderingRel (σ a) a := fun h' => asymm h h'
    simp [h, this]
  · exact absurd h.symm (h2 a)
  · have : ¬ WellOrderingRel a (σ a) := fun h' => asymm h h'
    simp [h, this]

/-- walks along a partial bijection that an involution reverses do not lead back in the other direction -/
theorem exists_directions {α : Type} (R : α → α → Prop) (σ : α → α) (h1 : ∀ a, σ (σ a) = a) (h2 : ∀ a, σ a ≠ a) (hr : ∀ a b, R a b → R (σ b) (σ a))
    (hf : ∀ a b c, R a b → R a c → b = c) (hn : ∀ a, ¬ R a (σ a)) : ∃ f : α → Bool, (∀ a, f (σ a) = !f a) ∧ ∀ a b, R a b → f a = f b := by
  have hi : ∀ a b c, R b a → R c a → b = c := by
    intro a b c hb hc
    have := hf _ _ _ (hr _ _ hb) (hr _ _ hc)
    rw [← h1 b, this, h1]
  have back : ∀ a b, Relation.ReflTransGen R a b → Relation.ReflTransGen R (σ b) (σ a) := by
    intro a b h
    induction h with
    | refl => exact .refl
    | tail _ hR ih => exact .head (hr _ _ hR) ih
  -- no walk from a to σ a
  have key : ∀ n : Nat, ∀ a, ¬ ∃ l : Nat → α, l 0 = a ∧ l n = σ a ∧ ∀ i < n, R (l i) (l (i + 1)) := by
    intro n a
    rintro ⟨l, l0, ln, hl⟩
    have e : ∀ i ≤ n, σ (l (n - i)) = l i := by
      intro i hi
      induction i with
      | zero => rw [Nat.sub_zero, ln, h1, l0]
      | succ i ih =>
        have a1 := hl i (by omega)
        have a2 := hr _ _ (hl (n - (i + 1)) (by omega))
        rw [show n - (i + 1) + 1 = n - i by omega, ih (by omega)] at a2
        exact hf _ _ _ a2 a1
    rcases Nat.even_or_odd' n with ⟨m, rfl | rfl⟩
    · have := e m (by omega)
      rw [show 2 * m - m = m by omega] at this
      exact h2 _ this
    · have a1 := hl m (by omega)
      have := e (m + 1) (by omega)
      rw [show 2 * m + 1 - (m + 1) = m by omega] at this
      rw [← this] at a1
      exact hn _ a1
  have walk : ∀ a b, Relation.ReflTransGen R a b → ∃ n : Nat, ∃ l : Nat → α, l 0 = a ∧ l n = b ∧ ∀ i < n, R (l i) (l (i + 1)) := by
    intro a b h
    induction h with
    | refl => exact ⟨0, fun _ => a, rfl, rfl, by simp⟩
    | tail _ hR ih =>
      rename_i b c _
      obtain ⟨n, l, l0, ln, hl⟩ := ih
      refine ⟨n + 1, fun i => if i ≤ n then l i else c, by simpa using l0, by simp, ?_⟩
      intro i hi
      by_cases q : i = n
      · subst q
        simp only [le_refl, if_true, show ¬ i + 1 ≤ i by omega, if_false, ln]
        exact hR
      · simp only [show i ≤ n by omega, show i + 1 ≤ n by omega, if_true]
        exact hl i (by omega)
  have comp : ∀ a b, Relation.EqvGen R a b → Relation.ReflTransGen R a b ∨ Relation.ReflTransGen R b a := by
    intro a b h
    induction h with
    | rel _ _ h => exact .inl (.single h)
    | refl => exact .inl .refl
    | symm _ _ _ ih => exact ih.symm
    | trans x y z _ _ ih1 ih2 =>
      rcases ih1 with p | p <;> rcases ih2 with q | q
      · exact .inl (p.trans q)
      · rcases Relation.ReflTransGen.total_of_right_unique (r := Function.swap R) (fun a b c hb hc => hi _ _ _ hb hc) (Relation.reflTransGen_swap.2 p) (Relation.reflTransGen_swap.2 q) with r | r
        · exact .inr (Relation.reflTransGen_swap.1 r)
        · exact .inl (Relation.reflTransGen_swap.1 r)
      · exact Relation.ReflTransGen.total_of_right_unique (fun a b c hb hc => hf _ _ _ hb hc) p q
      · exact .inr (q.trans p)
  let S : Setoid α := ⟨Relation.EqvGen R, Relation.EqvGen.is_equivalence R⟩
  have hσ : ∀ a b, Relation.EqvGen R a b → Relation.EqvGen R (σ a) (σ b) := by
    intro a b h
    induction h with
    | rel _ _ h => exact (Relation.EqvGen.rel _ _ (hr _ _ h)).symm
    | refl => exact .refl _
    | symm _ _ _ ih => exact ih.symm
    | trans _ _ _ _ _ p q => exact p.trans _ _ _ q
  obtain ⟨f, hfS⟩ := exists_side (α := Quotient S) (Quotient.map σ hσ) (by
    intro q
    induction q using Quotient.inductionOn with
    | h a => show (⟦σ (σ a)⟧ : Quotient S) = ⟦a⟧; rw [h1]) (by
    intro q
    induction q using Quotient.inductionOn with
    | h a =>
      intro e
      have e : Relation.EqvGen R (σ a) a := Quotient.exact e
      rcases comp _ _ e with h | h
      · obtain ⟨n, l, l0, ln, hl⟩ := walk _ _ h
        exact key n (σ a) ⟨l, l0, by rw [ln, h1], hl⟩
      · obtain ⟨n, l, l0, ln, hl⟩ := walk _ _ h
        exact key n a ⟨l, l0, ln, hl⟩)
  exact ⟨fun a => f ⟦a⟧, fun a => hfS ⟦a⟧, fun a b h => congrArg f (Quotient.sound (Relation.EqvGen.rel _ _ h))⟩

namespace Lam
variable {L X N : Lam Int}

/-- a point of an edge seen from the other side -/
def flipPoint (L : Lam Int) (p : Int × Nat) : Int × Nat := (inv p.1, (L.w p.1).toNat - 1 - p.2)

/-- the points where the lamination crosses edges, with a direction -/
abbrev Point (L : Lam Int) : Type := {p : Int × Nat // L.tri.IsLabel p.1 ∧ (p.2 : Int) < L.w p.1}

def Point.flip (p : L.Point) : L.Point := ⟨L.flipPoint p.1, isLabel_inv.2 p.2.1, by
  have := p.2.2
  unfold flipPoint
  dsimp only
  rw [w_inv]
  omega⟩

/-- a strand around a corner leads from one point to another -/
def Turn (L : Lam Int) (x y z : Int) (t : Nat) : Prop :=
  L.tri.Glues x y z ∧ (t : Int) + 1 ≤ max (L.w x) 0 ∧ (t : Int) + 1 ≤ max (L.w z) 0 ∧ 2 * ((t : Int) + 1) ≤ max (L.w x) 0 + max (L.w z) 0 - max (L.w y) 0

def Step (L : Lam Int) (p q : L.Point) : Prop :=
  ∃ x y z t, L.Turn x y z t ∧ (p.1 = (inv z, t) ∧ q.1 = (x, t) ∨ p.1 = L.flipPoint (x, t) ∧ q.1 = L.flipPoint (inv z, t))

theorem flip_flip (p : L.Point) : p.flip.flip = p := by
  obtain ⟨⟨x, i⟩, h1, h2⟩ := p
  apply Subtype.ext
  show L.flipPoint (L.flipPoint (x, i)) = (x, i)
  unfold flipPoint
  dsimp only at *
  rw [w_inv, Curver.inv_inv]
  congr 1
  omega

theorem exists_sides (hL : L.Consistent) : ∃ o : Int → Nat → Bool, (∀ x (t : Nat), L.tri.IsLabel x → (t : Int) < L.w x → o (inv x) ((L.w x).toNat - 1 - t) = !o x t) ∧
    ∀ x y z t, L.Turn x y z t → o x t = o (inv z) t := by
  classical
  have hc := hL.1.1.comp
  obtain ⟨f, f1, f2⟩ := exists_directions L.Step Point.flip flip_flip (by
    intro a h
    have h := congrArg (fun p : L.Point => p.1.1) h
    have h : inv a.1.1 = a.1.1 := h
    unfold inv at h
    omega) (by
    rintro a b ⟨x, y, z, t, ht, h⟩
    refine ⟨x, y, z, t, ht, ?_⟩
    rcases h with ⟨h1, h2⟩ | ⟨h1, h2⟩
    · right
      exact ⟨by show L.flipPoint b.1 = _; rw [h2], by show L.flipPoint a.1 = _; rw [h1]⟩
    · left
      have e1 := congrArg Subtype.val (flip_flip a)
      have e2 := congrArg Subtype.val (flip_flip b)
      have l := hc.label_of_glues ht.1
      obtain ⟨g1, g2, g3, g4⟩ := ht
      constructor
      · show L.flipPoint b.1 = _
        rw [h2]
        unfold flipPoint
        dsimp only
        rw [w_inv, w_inv, Curver.inv_inv]
        congr 1
        omega
      · show L.flipPoint a.1 = _
        rw [h1]
        unfold flipPoint
        dsimp only
        rw [w_inv, Curver.inv_inv]
        congr 1
        omega) (by
    rintro a b c ⟨x, y, z, t, ht, h⟩ ⟨x', y', z', t', ht', h'⟩
    apply Subtype.ext
    obtain ⟨g1, g2, g3, g4⟩ := ht
    obtain ⟨g1', g2', g3', g4'⟩ := ht'
    have hev := (consistent_iff.1 hL).2 _ _ _ g1
    rcases h with ⟨h1, h2⟩ | ⟨h1, h2⟩ <;> rcases h' with ⟨h1', h2'⟩ | ⟨h1', h2'⟩
    · rw [h1] at h1'
      injection h1' with e1 e2
      have e1 : z = z' := by unfold inv at e1; omega
      subst e1 e2
      have := hc.nxt_of_glues g1.rot.rot
      have := hc.nxt_of_glues g1'.rot.rot
      rw [h2, h2', ← ‹L.tri.nxt z = x›, ← ‹L.tri.nxt z = x'›]
    · exfalso
      rw [h1] at h1'
      unfold flipPoint at h1'
      injection h1' with e1 e2
      have e1 : z = x' := by unfold inv at e1; dsimp only at e1; omega
      subst e1
      have a1 := hc.nxt_of_glues g1.rot.rot
      have a2 := hc.nxt_of_glues g1'
      have a3 := hc.nxt_of_glues g1
      have a4 := hc.nxt_of_glues g1'.rot
      rw [a1] at a2
      subst a2
      rw [a3] at a4
      subst a4
      dsimp only at e2
      omega
    · exfalso
      rw [h1] at h1'
      unfold flipPoint at h1'
      injection h1' with e1 e2
      have e1 : x = z' := by unfold inv at e1; dsimp only at e1; omega
      subst e1
      have a1 := hc.nxt_of_glues g1'.rot.rot
      have a2 := hc.nxt_of_glues g1
      have a3 := hc.nxt_of_glues g1'
      have a4 := hc.nxt_of_glues g1.rot
      rw [a1] at a2
      subst a2
      rw [a3] at a4
      subst a4
      dsimp only at e2
      omega
    · rw [h1] at h1'
      unfold flipPoint at h1'
      injection h1' with e1 e2
      have e1 : x = x' := by unfold inv at e1; dsimp only at e1; omega
      subst e1
      have a1 := hc.nxt_of_glues g1
      have a2 := hc.nxt_of_glues g1'
      have a3 := hc.nxt_of_glues g1.rot
      have a4 := hc.nxt_of_glues g1'.rot
      rw [a1] at a2
      subst a2
      rw [a3] at a4
      subst a4
      dsimp only at e2
      have : t = t' := by omega
      rw [h2, h2', this]) (by
    rintro a ⟨x, y, z, t, ht, h⟩
    have hne := hc.glues_ne ht.1
    rcases h with ⟨h1, h2⟩ | ⟨h1, h2⟩
    · have h2 : L.flipPoint a.1 = _ := h2
      rw [h1] at h2
      unfold flipPoint at h2
      injection h2 with e1 e2
      dsimp only at e1
      rw [Curver.inv_inv] at e1
      exact hne.2.2 e1
    · have h2 : L.flipPoint a.1 = _ := h2
      rw [h1] at h2
      unfold flipPoint at h2
      injection h2 with e1 e2
      dsimp only at e1
      rw [Curver.inv_inv, Curver.inv_inv] at e1
      exact hne.2.2 e1.symm)
  refine ⟨fun x t => if h : L.tri.IsLabel x ∧ (t : Int) < L.w x then f ⟨(x, t), h⟩ else false, ?_, ?_⟩
  · intro x t hx ht
    have h' : L.tri.IsLabel (inv x) ∧ (((L.w x).toNat - 1 - t : Nat) : Int) < L.w (inv x) := ⟨isLabel_inv.2 hx, by rw [w_inv]; omega⟩
    dsimp only
    rw [dif_pos h', dif_pos ⟨hx, ht⟩]
    exact f1 ⟨(x, t), hx, ht⟩
  · intro x y z t h
    have l := hc.label_of_glues h.1
    obtain ⟨g1, g2, g3, g4⟩ := h
    have q1 : L.tri.IsLabel x ∧ (t : Int) < L.w x := ⟨l.1, by omega⟩
    have q2 : L.tri.IsLabel (inv z) ∧ (t : Int) < L.w (inv z) := ⟨isLabel_inv.2 l.2.2, by rw [w_inv]; omega⟩
    dsimp only
    rw [dif_pos q1, dif_pos q2]
    exact (f2 ⟨_, q2⟩ ⟨_, q1⟩ ⟨x, y, z, t, ⟨g1, g2, g3, g4⟩, .inl ⟨rfl, rfl⟩⟩).symm

/-- half of the points of a doubled edge -/
theorem count_pairs (p : Nat → Bool) (n : Nat) (hp : ∀ i < n, p (2 * i + 1) = !p (2 * i)) (b : Bool) : Nat.count (fun t => p t = b) (2 * n) = n := by
  induction n with
  | zero => simp
  | succ n ih =>
    rw [show 2 * (n + 1) = 2 * n + 1 + 1 by ring, Nat.count_succ, Nat.count_succ, ih (fun i hi => hp i (by omega)), hp n (by omega)]
    cases p (2 * n) <;> cases b <;> simp

/-- every lamination can be drawn twice -/
theorem double (hL : L.Consistent) : ∃ S : Lam Int, S.Consistent ∧ S.IsUnion L L := by
  classical
  obtain ⟨o, o1, o2⟩ := exists_sides hL
  let S : Lam Int := make L.tri (fun x => 2 * L.w x) .integral
  have hS : ∀ x, L.tri.IsLabel x → S.w x = 2 * L.w x := fun x hx => make_w _ (fun y => by rw [w_inv]) hx
  have hc := hL.1.1.comp
  have hC := consistent_iff.1 hL
  have wS : S.WellFormed := make_wellFormed hL.1.1 _ _
  have cS : S.Consistent := by
    refine consistent_iff.2 ⟨wS, fun a b c hg => ?_⟩
    have l := hc.label_of_glues hg
    intro _ _ _
    rw [hS a l.1, hS b l.2.1, hS c l.2.2]
    refine ⟨max (L.w a) 0 + max (L.w b) 0 + max (L.w c) 0, ?_⟩
    omega
  let red : Int → Nat → Bool := fun x t => if 0 < L.w x then (o x (t / 2)).xor (decide (t % 2 = 1)) else if 0 ≤ x then decide (t < (L.w x).natAbs) else decide ((L.w x).natAbs ≤ t)
  have hcount : ∀ x, L.tri.IsLabel x → ∀ b, L.w x = (S.w x).sign * Nat.count (fun t => red x t = b) (S.w x).natAbs := by
    intro x hx b
    rw [hS x hx]
    have hn : (2 * L.w x).natAbs = 2 * (L.w x).natAbs := by omega
    rw [hn]
    have k : Nat.count (fun t => red x t = b) (2 * (L.w x).natAbs) = (L.w x).natAbs := by
      by_cases q : 0 < L.w x
      · refine count_pairs (red x) _ (fun i hi => ?_) b
        simp only [red, if_pos q]
        have e1 : (2 * i + 1) / 2 = i := by omega
        have e2 : (2 * i) / 2 = i := by omega
        have e3 : (2 * i + 1) % 2 = 1 := by omega
        have e4 : (2 * i) % 2 = 0 := by omega
        simp [e1, e2, e3, e4]
      · simp only [red, if_neg q]
        generalize (L.w x).natAbs = n
        rw [two_mul, Nat.count_add]
        have c1 : ∀ c : Bool, Nat.count (fun t => decide (t < n) = c) n = if c then n else 0 := by
          intro c
          cases c
          · exact count_none.2 (fun t ht => by simpa using ht)
          · exact count_all.2 (fun t ht => by simpa using ht)
        have c2 : ∀ c : Bool, Nat.count (fun t => decide (n + t < n) = c) n = if c then 0 else n := by
          intro c
          cases c
          · exact count_all.2 (fun t ht => by simp)
          · exact count_none.2 (fun t ht => by simp)
        have c3 : ∀ c : Bool, Nat.count (fun t => decide (n ≤ t) = c) n = if c then 0 else n := by
          intro c
          cases c
          · exact count_all.2 (fun t ht => by simpa using ht)
          · exact count_none.2 (fun t ht => by simpa using ht)
        have c4 : ∀ c : Bool, Nat.count (fun t => decide (n ≤ n + t) = c) n = if c then n else 0 := by
          intro c
          cases c
          · exact count_none.2 (fun t ht => by simp)
          · exact count_all.2 (fun t ht => by simp)
        by_cases q : 0 ≤ x
        · simp only [if_pos q]
          rw [c1, c2]
          cases b <;> simp
        · simp only [if_neg q]
          rw [c3, c4]
          cases b <;> simp
    rw [k]
    rcases lt_trichotomy (L.w x) 0 with h | h | h
    · rw [Int.sign_eq_neg_one_of_neg (by omega)]; omega
    · rw [h]; simp
    · rw [Int.sign_eq_one_of_pos (by omega)]; omega
  refine ⟨S, cS, red, ⟨?_, ?_⟩, ⟨hL.1, rfl, fun x hx => hcount x hx true⟩, hL.1, rfl, fun x hx => hcount x hx false⟩
  · intro x t hx ht
    have hx : L.tri.IsLabel x := hx
    rw [hS x hx] at ht ⊢
    by_cases q : 0 < L.w x
    · have hn : (2 * L.w x).natAbs = 2 * (L.w x).toNat := by omega
      rw [hn] at ht ⊢
      simp only [red, w_inv, if_pos q]
      have := o1 x ((2 * (L.w x).toNat - 1 - t) / 2) hx (by omega)
      rw [show (L.w x).toNat - 1 - (2 * (L.w x).toNat - 1 - t) / 2 = t / 2 by omega] at this
      rw [this]
      have e : decide ((2 * (L.w x).toNat - 1 - t) % 2 = 1) = !decide (t % 2 = 1) := by
        by_cases e : t % 2 = 1
        · have : (2 * (L.w x).toNat - 1 - t) % 2 = 0 := by omega
          simp [e, this]
        · have : (2 * (L.w x).toNat - 1 - t) % 2 = 1 := by omega
          simp [e, this]
      rw [e]
      simp
    · have hn : (2 * L.w x).natAbs = 2 * (L.w x).natAbs := by omega
      rw [hn] at ht ⊢
      simp only [red, w_inv, if_neg q]
      by_cases q' : 0 ≤ x
      · have : ¬ 0 ≤ inv x := by unfold inv; omega
        simp only [if_pos q', if_neg this]
        rw [decide_eq_decide]
        omega
      · have : 0 ≤ inv x := by unfold inv; omega
        simp only [if_neg q', if_pos this]
        rw [decide_eq_decide]
        omega
  · intro x y z t hg h1 h2 h3
    have hg : L.tri.Glues x y z := hg
    have l := hc.label_of_glues hg
    rw [hS x l.1] at h1 h3
    rw [hS z l.2.2] at h2 h3
    rw [hS y l.2.1] at h3
    have q1 : 0 < L.w x := by omega
    have q2 : 0 < L.w z := by omega
    simp only [red, w_inv, if_pos q1, if_pos q2]
    rw [o2 x y z (t / 2) ⟨hg, by omega, by omega, ?_⟩]
    have hev := hC.2 _ _ _ hg
    unfold TriEven at hev
    by_cases b1 : max (L.w x) 0 ≤ max (L.w y) 0 + max (L.w z) 0
    · by_cases b2 : max (L.w z) 0 ≤ max (L.w x) 0 + max (L.w y) 0
      · by_cases b3 : max (L.w y) 0 ≤ max (L.w z) 0 + max (L.w x) 0
        · obtain ⟨k, hk⟩ := hev b1 b3 b2
          omega
        · omega
      · omega
    · omega

/-- a part can be drawn once more -/
theorem IsUnion.again (hu : L.IsUnion X N) (hL : L.Consistent) : ∃ S : Lam Int, S.Consistent ∧ S.IsUnion X L := by
  obtain ⟨S, s1, s2⟩ := double hL
  obtain ⟨M, m1, m2⟩ := s2.assoc' s1 hu.symm
  exact ⟨M, (m1.consistent s1).2, m2⟩

end Lam
end Curver
