import Verif.Proofs.DualWeights
import Verif.Props.Flips

/-!
# C41: dual weights
-/

namespace Curver
open Triangulation

variable {R : Type} [CommRing R] [LinearOrder R] [IsStrictOrderedRing R] [Halvable R]

/-- C41: in each triangle the weights of the sides are recovered from the dual weights of the corners: a side of positive weight is
crossed by the normal arcs around its two ends and by the arcs which end in the opposite corner. -/
theorem C41_recover (L : Lam R) (hL : L.WellFormed) (a b c : Int) (hg : L.tri.Glues a b c) (x y z : R)
    (hx : L.dualWeight a = .ok x) (hy : L.dualWeight b = .ok y) (hz : L.dualWeight c = .ok z) :
    max (L.w a) 0 = max y 0 + max z 0 + max (-x) 0 ∧ max (L.w b) 0 = max z 0 + max x 0 + max (-y) 0 ∧
      max (L.w c) 0 = max x 0 + max y 0 + max (-z) 0 := by
  have h := (Lam.duals_iff hL hg).1 ⟨hx, hy, hz⟩
  generalize max (L.w a) 0 = a at *
  generalize max (L.w b) 0 = b at *
  generalize max (L.w c) 0 = c at *
  have p : ∀ t : R, 0 ≤ t → max t 0 = t ∧ max (-t) 0 = 0 := fun t ht => ⟨max_eq_left ht, max_eq_right (by linarith)⟩
  have n : ∀ t : R, t < 0 → max t 0 = 0 ∧ max (-t) 0 = -t := fun t ht => ⟨max_eq_right ht.le, max_eq_left (by linarith)⟩
  rcases h with ⟨h1, h2, h3, h4, h5, h6⟩ | ⟨h1, h2, h3, h4, h5, h6⟩ | ⟨h1, h2, h3, h4, h5, h6⟩ | ⟨h1, h2, h3, h4, h5, h6⟩
  · rw [(p x h1).1, (p x h1).2, (p y h2).1, (p y h2).2, (p z h3).1, (p z h3).2]
    refine ⟨?_, ?_, ?_⟩ <;> linarith
  · rw [(n x h1).1, (n x h1).2, (p y h2).1, (p y h2).2, (p z h3).1, (p z h3).2]
    refine ⟨?_, ?_, ?_⟩ <;> linarith
  · rw [(n y h1).1, (n y h1).2, (p z h2).1, (p z h2).2, (p x h3).1, (p x h3).2]
    refine ⟨?_, ?_, ?_⟩ <;> linarith
  · rw [(n z h1).1, (n z h1).2, (p x h2).1, (p x h2).2, (p y h3).1, (p y h3).2]
    refine ⟨?_, ?_, ?_⟩ <;> linarith

/-- C41: at most one of the three dual weights of a triangle is negative. -/
theorem C41_one_negative (L : Lam R) (hL : L.WellFormed) (a b c : Int) (hg : L.tri.Glues a b c) (x y z : R)
    (hx : L.dualWeight a = .ok x) (hy : L.dualWeight b = .ok y) (hz : L.dualWeight c = .ok z) (h : x < 0) : 0 ≤ y ∧ 0 ≤ z := by
  rcases (Lam.duals_iff hL hg).1 ⟨hx, hy, hz⟩ with h' | h' | h' | h'
  · exact ⟨h'.2.1, h'.2.2.1⟩
  · exact ⟨h'.2.1, h'.2.2.1⟩
  · exact absurd h (not_lt.2 h'.2.2.1)
  · exact absurd h (not_lt.2 h'.2.1)

/-- C41: conversely the dual weights are the only numbers from which the weights can be recovered: if the weights are made of `x`, `y`,
`z` normal arcs at the corners, or of `y`, `z` normal arcs and `t` arcs ending in the first corner, then these are the dual weights. -/
theorem C41_normal_arcs (L : Lam R) (hL : L.WellFormed) (a b c : Int) (hg : L.tri.Glues a b c) (x y z t : R) (hx : 0 ≤ x) (hy : 0 ≤ y) (hz : 0 ≤ z) (ht : 0 ≤ t) :
    (max (L.w a) 0 = y + z → max (L.w b) 0 = z + x → max (L.w c) 0 = x + y →
      L.dualWeight a = .ok x ∧ L.dualWeight b = .ok y ∧ L.dualWeight c = .ok z) ∧
    (max (L.w a) 0 = y + z + t → max (L.w b) 0 = z → max (L.w c) 0 = y →
      L.dualWeight a = .ok (-t) ∧ L.dualWeight b = .ok y ∧ L.dualWeight c = .ok z) := by
  constructor
  · intro h1 h2 h3
    exact (Lam.duals_iff hL hg).2 (.inl ⟨hx, hy, hz, h1, h2, h3⟩)
  · intro h1 h2 h3
    rcases ht.lt_or_eq with h | rfl
    · exact (Lam.duals_iff hL hg).2 (.inr (.inl ⟨by linarith, hy, hz, by linarith, h2, h3⟩))
    · exact (Lam.duals_iff hL hg).2 (.inl ⟨by simp, hy, hz, by linarith, by linarith, by linarith⟩)

/-- C41: laminations with the same dual weights have the same intersection numbers with all edges. -/
theorem C41_determined (L L' : Lam R) (hL : L.Consistent) (hL' : L'.Consistent) (ht : L'.tri = L.tri)
    (h : ∀ e, L.tri.IsLabel e → L'.dualWeight e = L.dualWeight e) : ∀ e, L.tri.IsLabel e → max (L'.w e) 0 = max (L.w e) 0 := by
  intro e he
  obtain ⟨b, c, hg⟩ := hL.1.1.comp.exists_glues he
  have hl := hL.1.1.comp.label_of_glues hg
  obtain ⟨x, hx⟩ := hL.2 e hl.1
  obtain ⟨y, hy⟩ := hL.2 b hl.2.1
  obtain ⟨z, hz⟩ := hL.2 c hl.2.2
  rw [(C41_recover L hL.1 e b c hg x y z hx hy hz).1,
    (C41_recover L' hL'.1 e b c (by rw [ht]; exact hg) x y z (by rw [h e hl.1, hx]) (by rw [h b hl.2.1, hy]) (by rw [h c hl.2.2, hz])).1]

/-- C41: the left and right weights of an edge are the dual weights of the two corners at its ends in the triangle to its left; the right
weight of an edge is the left weight of the next one. -/
theorem C41_left_right (L : Lam R) (hL : L.WellFormed) (a b c : Int) (hg : L.tri.Glues a b c) :
    L.leftWeight a = L.dualWeight b ∧ L.rightWeight a = L.dualWeight c ∧ L.rightWeight a = L.leftWeight b := by
  refine ⟨Lam.leftWeight_eq hL hg, Lam.rightWeight_eq hL hg, ?_⟩
  rw [Lam.rightWeight_eq hL hg, Lam.leftWeight_eq hL hg.rot]

/-- C41: for integral weights, a dual weight exists unless the triangle inequalities hold and the weights of the triangle have odd sum,
and then all three raise `ValueError`. -/
theorem C41_halving (L : Lam Int) (hL : L.WellFormed) (a b c : Int) (hg : L.tri.Glues a b c) :
    (L.dualWeight a = .error .valueError ↔ (max (L.w a) 0 + max (L.w b) 0 + max (L.w c) 0) % 2 = 1 ∧ max (L.w a) 0 ≤ max (L.w b) 0 + max (L.w c) 0 ∧
      max (L.w b) 0 ≤ max (L.w c) 0 + max (L.w a) 0 ∧ max (L.w c) 0 ≤ max (L.w a) 0 + max (L.w b) 0) ∧
    (L.dualWeight a = .error .valueError ∨ ∃ x, L.dualWeight a = .ok x) ∧
    (L.dualWeight a = .error .valueError ↔ L.dualWeight b = .error .valueError) := by
  have key : ∀ {a b c : Int}, L.tri.Glues a b c →
      ((L.dualWeight a = .error .valueError ↔ (max (L.w a) 0 + max (L.w b) 0 + max (L.w c) 0) % 2 = 1 ∧ max (L.w a) 0 ≤ max (L.w b) 0 + max (L.w c) 0 ∧
      max (L.w b) 0 ≤ max (L.w c) 0 + max (L.w a) 0 ∧ max (L.w c) 0 ≤ max (L.w a) 0 + max (L.w b) 0) ∧
    (L.dualWeight a = .error .valueError ∨ ∃ x, L.dualWeight a = .ok x)) := by
    intro a b c hg
    rw [Lam.dualWeight_eq hL hg, ← dual2_max]
    have ha := le_max_right (L.w a) 0
    have hb := le_max_right (L.w b) 0
    have hc := le_max_right (L.w c) 0
    generalize max (L.w a) 0 = a at *
    generalize max (L.w b) 0 = b at *
    generalize max (L.w c) 0 = c at *
    refine ⟨?_, ?_⟩
    · rw [half_error_iff]
      obtain ⟨h1, h2, h3, h4⟩ := dual2_eq ha hb hc
      by_cases p1 : a ≤ b + c
      · by_cases p2 : b ≤ c + a
        · by_cases p3 : c ≤ a + b
          · rw [h1 p1 p2 p3]
            constructor
            · intro h
              refine ⟨?_, p1, p2, p3⟩
              have := h ((b + c - a) / 2)
              omega
            · rintro ⟨h, _⟩ y
              omega
          · rw [h4 (by omega)]
            exact ⟨fun h => absurd rfl (h b), fun h => by omega⟩
        · rw [h3 (by omega)]
          exact ⟨fun h => absurd rfl (h c), fun h => by omega⟩
      · rw [h2 (by omega)]
        exact ⟨fun h => absurd rfl (h _), fun h => by omega⟩
    · rcases half_cases (Lam.dual2 a b c) with ⟨y, _, h⟩ | ⟨_, h⟩
      · exact .inr ⟨y, h⟩
      · exact .inl h
  refine ⟨(key hg).1, (key hg).2, ?_⟩
  rw [(key hg).1, (key hg.rot).1]
  constructor <;> (intro h; omega)

/-- a terminal arc, a normal curve and an inconsistent triangle on the torus -/
example : (⟨torus, [3, 1, 1], .integral⟩ : Lam Int).dualWeight 0 = .ok (-1) ∧ (⟨torus, [1, 2, 1], .curve⟩ : Lam Int).dualWeight 0 = .ok 1 ∧
    (⟨torus, [1, 1, 1], .lamination⟩ : Lam Int).dualWeight 0 = .error .valueError ∧ torus.Glues 0 1 2 :=
  ⟨by decide, by decide, by decide, by unfold Glues; decide⟩

end Curver
