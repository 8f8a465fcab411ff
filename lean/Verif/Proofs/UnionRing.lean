import Verif.Proofs.UnionLeft

/-!
# Curves around an edge, curves around a vertex and arcs as parts
-/

namespace Curver
open Triangulation

namespace Triangulation
variable {T : Triangulation} {f β η : Int} {X : List Int}

theorem Loop.next (h : Loop T f β η X) {x y z : Int} (hg : T.Glues x y z) : inv z ∈ X ↔ x = f ∨ (x ∈ X ∧ x ≠ β) := by
  have := h.mem_spin (h.valid.comp.label_of_glues hg).1
  rwa [Sweep.spin_eq h.valid.comp hg] at this

theorem Loop.first_ne_last (h : Loop T f β η X) : inv η ≠ β := by
  intro q
  have hn := h.nodup
  obtain ⟨X', hX⟩ := h.sweep.first h.valid.comp h.glues h.ne_nil
  have h2 := h.two
  have hc := h.sweep.eq_concat h.valid.comp h.glues h.ne_nil
  have hb := h.b_notin
  rw [hX, q] at hb
  cases X' with
  | nil => rw [hX] at h2; simp at h2
  | cons c X' => simp at hb

theorem Loop.lf_eq (h : Loop T f β η X) (hc : (T.curveFromCutSequence X : Lam Int).Consistent) {x y z : Int} (hg : T.Glues x y z) :
    2 * (T.curveFromCutSequence X : Lam Int).lf x = cn X x + cn X z - cn X y := by
  have t := hc.lf_tri (x := x) (y := y) (z := z) hg
  have l := h.valid.comp.label_of_glues hg
  rw [Lam.curve_cn X l.1, Lam.curve_cn X l.2.1, Lam.curve_cn X l.2.2, max_eq_left (cn_nonneg _ _), max_eq_left (cn_nonneg _ _), max_eq_left (cn_nonneg _ _)] at t
  have c1 := (h.corner_nonneg hg).1
  have c2 := (h.corner_nonneg hg.rot).1
  have c3 := (h.corner_nonneg hg.rot.rot).1
  unfold TriDual at t
  rcases t with t | t | t | t <;> omega

theorem Loop.lf_f (h : Loop T f β η X) (hc : (T.curveFromCutSequence X : Lam Int).Consistent) : (T.curveFromCutSequence X : Lam Int).lf f = 0 := by
  have := h.lf_eq hc h.glues
  rw [h.cn_a, h.cn_b, h.cn_e] at this
  omega

theorem Loop.lf_b (h : Loop T f β η X) (hc : (T.curveFromCutSequence X : Lam Int).Consistent) : (T.curveFromCutSequence X : Lam Int).lf β = 0 := by
  have := h.lf_eq hc h.glues.rot
  rw [h.cn_a, h.cn_b, h.cn_e] at this
  omega

theorem Loop.lf_e (h : Loop T f β η X) (hc : (T.curveFromCutSequence X : Lam Int).Consistent) : (T.curveFromCutSequence X : Lam Int).lf η = cn X η := by
  have := h.lf_eq hc h.glues.rot.rot
  rw [h.cn_a, h.cn_b, h.cn_e] at this
  rw [h.cn_e]
  omega

theorem Loop.lf_other (h : Loop T f β η X) (hc : (T.curveFromCutSequence X : Lam Int).Consistent) {x : Int} (hx : T.IsLabel x) (h1 : x ≠ f) (h2 : x ≠ β) (h3 : x ≠ η) :
    (T.curveFromCutSequence X : Lam Int).lf x = X.count x := by
  obtain ⟨y, z, hg⟩ := h.valid.comp.exists_glues hx
  have := h.lf_eq hc hg
  rw [h.corner_other hg ⟨h1, h2, h3⟩] at this
  omega

end Triangulation

namespace Lam
variable {L N Y : Lam Int} {f β η : Int} {X : List Int} {a k : Int}

/-- at least `k` curves go round the edge `f`, and `a` strands lie between them and the edge -/
structure Belt (L : Lam Int) (f β η : Int) (X : List Int) (a k : Int) : Prop where
  con : L.Consistent
  loop : Loop L.tri f β η X
  first : L.lf f = a
  last : L.lf β = a
  nonneg : 0 ≤ a
  room : ∀ x ∈ X, x ≠ β → a + k ≤ L.lf x

namespace Belt

theorem glue (h : L.Belt f β η X a k) {x : Int} (hx : x ∈ X) : ∃ y z, L.tri.Glues x y z :=
  h.con.1.1.comp.exists_glues (h.loop.label_mem (by simp [hx]))

/-- the triangle with the side before an edge in `X` -/
theorem pred (h : L.Belt f β η X a k) {x : Int} (hx : x ∈ X) : ∃ y z, L.tri.Glues y z (inv x) ∧ (y = f ∨ (y ∈ X ∧ y ≠ β)) := by
  obtain ⟨y, z, hg⟩ := h.con.1.1.comp.exists_glues (isLabel_inv.2 (h.loop.label_mem (x := x) (by simp [hx])))
  refine ⟨y, z, hg.rot, ?_⟩
  have := (h.loop.next hg.rot).1
  rw [Curver.inv_inv] at this
  exact this hx

theorem le_w (h : L.Belt f β η X a k) (hk : 0 < k) {x : Int} (hx : x ∈ X) : a + k ≤ L.w x := by
  have h0 := h.nonneg
  obtain ⟨y, z, hg⟩ := h.glue hx
  by_cases q : x = β
  · obtain ⟨u, v, hg', hu | hu⟩ := h.pred hx
    · exfalso
      subst hu q
      have := h.con.1.1.comp.glues_unique hg' h.loop.glues
      exact h.loop.first_ne_last (by rw [← this.2, Curver.inv_inv])
    · have r := h.room u hu.1 hu.2
      have := (h.con.lf_le hg' (by omega)).2
      rw [w_inv] at this
      omega
  · have r := h.room x hx q
    have := (h.con.lf_le hg (by omega)).1
    omega

theorem le_w2 (h : L.Belt f β η X a k) (hk : 0 < k) {x : Int} (hx : x ∈ X) (hx' : inv x ∈ X) : 2 * (a + k) ≤ L.w x := by
  have h0 := h.nonneg
  have key : ∀ x, x ∈ X → inv x ∈ X → x ≠ β → inv x ≠ inv η → 2 * (a + k) ≤ L.w x := by
    intro x hx hx' q1 q2
    obtain ⟨y, z, hg⟩ := h.glue hx
    rcases (h.loop.next hg.rot).1 hx' with q | q
    · exfalso
      have q3 : L.tri.Glues f z x := q ▸ hg.rot
      have := h.con.1.1.comp.glues_unique q3 h.loop.glues
      exact q2 (by rw [this.2])
    · have r1 := h.room x hx q1
      have r2 := h.room y q.1 q.2
      have := h.con.lf_add hg (by omega) (by omega)
      omega
  have d := h.loop.fan.base.nes
  by_cases q : x ≠ β ∧ inv x ≠ inv η
  · exact key x hx hx' q.1 q.2
  · have := key (inv x) hx' (by rw [Curver.inv_inv]; exact hx) ?_ ?_
    · rwa [w_inv] at this
    · intro q3
      apply q
      constructor
      · intro q4; rw [← q3] at q4; exact Curver.inv_ne x q4.symm
      · intro q4; rw [q3] at q4; exact h.loop.first_ne_last q4.symm
    · rw [Curver.inv_inv]
      intro q3
      apply q
      constructor
      · intro q4; exact h.loop.first_ne_last (by rw [← q3, q4])
      · intro q4; rw [← q3] at q4; exact Curver.inv_ne x q4

/-- the sides next to the edge -/
theorem sides (h : L.Belt f β η X a k) (hk : 0 < k) : L.w β = L.w η ∧ L.lf η = L.w β - a ∧ k ≤ L.lf η := by
  have h0 := h.nonneg
  have t := h.con.lf_tri h.loop.glues
  have w1 := h.le_w hk h.loop.b_mem
  have w2 := h.le_w hk h.loop.inv_e_mem
  rw [w_inv] at w2
  rw [h.first, h.last] at t
  unfold TriDual at t
  rcases t with t | t | t | t <;> omega

theorem colouring (h : L.Belt f β η X a k) (hk : 0 < k) {r : Nat} (ha : a ≤ r) (hr : (r : Int) < a + k) : L.Colouring (L.ring X r) := by
  have h0 := h.nonneg
  have sd := h.sides hk
  refine ring_colouring h.con ?_ ?_
  · intro x y z hg hs
    rw [h.loop.next hg]
    have n1 : x ≠ f := by rintro rfl; rw [h.first] at hs; omega
    have n2 : x ≠ β := by rintro rfl; rw [h.last] at hs; omega
    simp [n1, n2]
  · intro x y z t hg hs
    constructor
    · rintro ⟨hx, e⟩
      rcases (h.loop.next hg.rot).1 hx with q | q
      · have q3 : L.tri.Glues f z x := q ▸ hg.rot
        have := h.con.1.1.comp.glues_unique q3 h.loop.glues
        rw [this.1]
        exact ⟨h.loop.b_mem, by rw [sd.1, ← this.2]; exact e⟩
      · have r2 := h.room y q.1 q.2
        have := h.con.lf_add hg (by omega) (by omega)
        omega
    · rintro ⟨hz, e⟩
      by_cases q : z = β
      · have q3 : L.tri.Glues β x y := q ▸ hg.rot.rot
        have := h.con.1.1.comp.glues_unique q3 h.loop.glues.rot
        rw [this.1]
        exact ⟨h.loop.inv_e_mem, by rw [← sd.1, ← q]; exact e⟩
      · have r2 := h.room z hz q
        have := h.con.lf_add hg.rot.rot (by omega) (by omega)
        omega

theorem isPart (h : L.Belt f β η X a k) (hk : 0 < k) {r : Nat} (hr : (r : Int) < a + k) : L.IsPart (L.ring X r) true (L.tri.curveFromCutSequence X) :=
  ring_part h.con h.loop.nodup (fun x hx => by have := h.le_w hk hx; omega) (fun x hx hx' => by have := h.le_w2 hk hx hx'; omega)

/-- one of the curves -/
theorem union (h : L.Belt f β η X a k) (hk : 0 < k) : ∃ N, L.IsUnion (L.tri.curveFromCutSequence X) N ∧ N.Belt f β η X a (k - 1) := by
  have h0 := h.nonneg
  obtain ⟨r, rfl⟩ := Int.eq_ofNat_of_zero_le h0
  have hc := h.colouring hk (r := r) le_rfl (by omega)
  have hp := h.isPart hk (r := r) (by omega)
  obtain ⟨N, hN, -⟩ := hc.exists_part h.con.1 false .integral
  have hu : L.IsUnion (L.tri.curveFromCutSequence X) N := ⟨_, hc, hp, hN⟩
  have hC := hu.consistent h.con
  have ht := hN.2.1
  refine ⟨N, hu, hC.2, by rw [ht]; exact h.loop, ?_, ?_, h0, ?_⟩
  · have := hu.lf h.con h.loop.sweep.label
    rw [h.first] at this
    rw [h.loop.lf_f hC.1] at this
    omega
  · have := hu.lf h.con (h.loop.label_mem (x := β) (by simp [h.loop.b_mem]))
    rw [h.last] at this
    rw [h.loop.lf_b hC.1] at this
    omega
  · intro x hx hb
    have hl := h.loop.label_mem (x := x) (by simp [hx])
    have e := hu.lf h.con hl
    by_cases q : x = η
    · subst q
      have := h.le_w2 hk hx h.loop.inv_e_mem
      have sd := h.sides hk
      rw [h.loop.lf_e hC.1, h.loop.cn_e, List.count_eq_one_of_mem h.loop.nodup hx] at e
      omega
    · rw [h.loop.lf_other hC.1 hl (by rintro rfl; exact h.loop.a_notin hx) hb q, List.count_eq_one_of_mem h.loop.nodup hx] at e
      have := h.room x hx hb
      omega

end Belt
end Lam
end Curver
