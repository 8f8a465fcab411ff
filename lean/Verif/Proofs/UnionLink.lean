import Verif.Proofs.UnionRing

/-!
# Curves around a vertex and arcs as parts; these parts are connected
-/

namespace Curver
open Triangulation

namespace Triangulation

/-- the edges that come out of a vertex -/
structure Star (T : Triangulation) (v : List Int) : Prop where
  valid : T.Valid
  ex : ∃ e, T.IsLabel e ∧ T.vertexOf e = .ok v

namespace Star
variable {T : Triangulation} {v : List Int}

theorem basic (h : T.Star v) : v.Nodup ∧ (∀ x ∈ v, T.IsLabel x) ∧ v ≠ [] := by
  obtain ⟨e, h1, h2⟩ := h.ex
  obtain ⟨w, _, k1, _, _, k4, _, k6, k7⟩ := h.valid.comp.vertexOf_ok h1
  rw [h2] at k1; cases k1
  exact ⟨k6, k7, List.ne_nil_of_mem k4⟩

theorem sv (h : T.Star v) {x y : Int} (hx : T.IsLabel x) (hs : T.SV x y) : x ∈ v ↔ y ∈ v := by
  have := h.valid.comp.link_consts h.ex x y hx hs
  rw [h.basic.1.count, h.basic.1.count] at this
  by_cases a : x ∈ v <;> by_cases b : y ∈ v <;> simp [a, b] at this ⊢

theorem next (h : T.Star v) {x y z : Int} (hg : T.Glues x y z) : x ∈ v ↔ inv z ∈ v := by
  have hl := (h.valid.comp.label_of_glues hg).1
  rw [← Sweep.spin_eq h.valid.comp hg]
  exact h.sv hl (h.valid.comp.sv_spin hl)

theorem mult (h : T.Star v) : (T.curveFromCutSequence v : Lam Int).Consistent ∧ ∀ x, T.IsLabel x → (T.curveFromCutSequence v : Lam Int).lf x = v.count x := by
  have hM : (T.curveFromCutSequence v : Lam Int).WellFormed := ⟨h.valid, cut_length v⟩
  have := Lam.isMult_links (M := (T.curveFromCutSequence v : Lam Int)) (m := fun e => (v.count e : Int)) hM (fun e _ => Nat.cast_nonneg _)
    (fun e f he hs => by rw [h.valid.comp.link_consts h.ex e f he hs]) (fun e he => by rw [link_w (T := T) v he, Nat.cast_add])
  exact ⟨this.1, fun x hx => Lam.lf_eq (this.2.1 x hx)⟩

end Star
end Triangulation

namespace Lam
variable {L N Y : Lam Int} {X v : List Int} {k : Int}

/-- `k` curves go round the vertex -/
structure Hub (L : Lam Int) (v : List Int) (k : Int) : Prop where
  con : L.Consistent
  star : L.tri.Star v
  room : ∀ x ∈ v, k ≤ L.lf x

theorem Hub.union (h : L.Hub v k) (hk : 0 < k) : ∃ N, L.IsUnion (L.tri.curveFromCutSequence v) N ∧ N.Hub v (k - 1) := by
  obtain ⟨b1, b2, b3⟩ := h.star.basic
  have hn : ∀ x ∈ v, ∃ y z, L.tri.Glues x y z := fun x hx => h.con.1.1.comp.exists_glues (b2 x hx)
  have hc : L.Colouring (L.ring v 0) := by
    refine ring_colouring h.con (fun x y z hg _ => h.star.next hg) ?_
    intro x y z t hg hs
    constructor
    · rintro ⟨hx, e⟩
      exfalso
      have := h.room y ((h.star.next hg.rot).2 hx)
      have := h.con.lf_add hg (by omega) (by omega)
      push_cast at e
      omega
    · rintro ⟨hz, e⟩
      exfalso
      have := h.room z hz
      have := h.con.lf_add hg.rot.rot (by omega) (by omega)
      push_cast at e
      omega
  have hp : L.IsPart (L.ring v 0) true (L.tri.curveFromCutSequence v) := by
    refine ring_part h.con b1 ?_ ?_
    · intro x hx
      obtain ⟨y, z, hg⟩ := hn x hx
      have := h.room x hx
      have := (h.con.lf_le hg (by omega)).1
      push_cast; omega
    · intro x hx hx'
      obtain ⟨y, z, hg⟩ := hn x hx
      have := h.room x hx
      have := h.room y ((h.star.next hg.rot).2 hx')
      have := h.con.lf_add hg (by omega) (by omega)
      push_cast; omega
  obtain ⟨N, hN, -⟩ := hc.exists_part h.con.1 false .integral
  have hu : L.IsUnion (L.tri.curveFromCutSequence v) N := ⟨_, hc, hp, hN⟩
  have hC := hu.consistent h.con
  have ht := hN.2.1
  refine ⟨N, hu, hC.2, by rw [ht]; exact h.star, ?_⟩
  intro x hx
  have := h.room x hx
  have e := hu.lf h.con (b2 x hx)
  rw [h.star.mult.2 x (b2 x hx), List.count_eq_one_of_mem b1 hx] at e
  omega

/-- an arc parallel to an edge -/
theorem arc_w {T : Triangulation} {f x : Int} (hx : T.IsLabel x) : (T.edgeArcOf f : Lam Int).w x = if x = f ∨ x = inv f then -1 else 0 := by
  have h1 := idx_lt hx
  have h0 := norm_nonneg x
  unfold Lam.w edgeArcOf
  rw [List.getElem?_map, List.getElem?_range h1]
  have e : (((norm x).toNat : Nat) : Int) = norm x := by omega
  simp only [Option.map_some, Option.getD_some, e]
  have : norm x = norm f ↔ x = f ∨ x = inv f := by
    unfold norm inv
    omega
  by_cases q : norm x = norm f
  · rw [if_neg (by simpa using q), if_pos (this.1 q)]
  · rw [if_pos q, if_neg (fun h => q (this.2 h))]

theorem arc_wf {T : Triangulation} (hT : T.Valid) (f : Int) : (T.edgeArcOf f : Lam Int).WellFormed := ⟨hT, by simp [edgeArcOf]⟩

/-- the first of the arcs parallel to `f` -/
def firstArc (L : Lam Int) (f : Int) (x : Int) (t : Nat) : Bool := decide ((x = f ∧ t = 0) ∨ (x = inv f ∧ t + 1 = (L.w f).natAbs))

theorem arc_union (hL : L.WellFormed) {f : Int} (hw : L.w f < 0) : ∃ N, L.IsUnion (L.tri.edgeArcOf f) N := by
  have hc : L.Colouring (L.firstArc f) := by
    refine ⟨?_, ?_⟩
    · intro x t hx ht
      unfold firstArc
      congr 1
      apply propext
      constructor
      · rintro (⟨q, e⟩ | ⟨q, e⟩)
        · have : x = inv f := by rw [← q, Curver.inv_inv]
          subst this
          rw [w_inv] at ht ⊢
          exact .inr ⟨rfl, by omega⟩
        · have : x = f := (Curver.inv_inj.1 q)
          subst this
          exact .inl ⟨rfl, by omega⟩
      · rintro (⟨q, e⟩ | ⟨q, e⟩)
        · subst q
          exact .inr ⟨rfl, by omega⟩
        · subst q
          rw [w_inv] at ht e
          exact .inl ⟨Curver.inv_inv f, by omega⟩
    · intro x y z t hg h1 h2 h3
      unfold firstArc
      have e1 : x ≠ f := by rintro rfl; omega
      have e2 : x ≠ inv f := by rintro rfl; rw [w_inv] at h1; omega
      have e3 : inv z ≠ f := by intro q; rw [← q, w_inv] at hw; omega
      have e4 : inv z ≠ inv f := by intro q; rw [(Curver.inv_inj.1 q)] at h2; omega
      simp [e1, e2, e3, e4]
  obtain ⟨N, hN, -⟩ := hc.exists_part hL false .integral
  refine ⟨N, _, hc, ⟨arc_wf hL.1 f, rfl, ?_⟩, hN⟩
  intro x hx
  rw [arc_w hx]
  unfold firstArc
  simp only [decide_eq_true_eq]
  by_cases q1 : x = f
  · subst q1
    have q2 : x ≠ inv x := fun h => Curver.inv_ne x h.symm
    simp only [true_and, q2, false_and, or_false, if_true]
    rw [count_eq_at _ _ (by omega), Int.sign_eq_neg_one_of_neg hw]; rfl
  · by_cases q2 : x = inv f
    · subst q2
      simp only [q1, false_and, false_or, true_and, or_true, if_true]
      rw [w_inv, Int.sign_eq_neg_one_of_neg hw]
      have := count_eq_at ((L.w f).natAbs - 1) (L.w f).natAbs (by omega)
      have e : (fun t => t + 1 = (L.w f).natAbs) = (fun t => t = (L.w f).natAbs - 1) := by
        funext t
        apply propext
        constructor <;> intro <;> omega
      simp only [e, this]
      rfl
    · simp [q1, q2]

/-! ## Connectedness -/

theorem arc_connected {T : Triangulation} {f : Int} (hf : T.IsLabel f) : (T.edgeArcOf f : Lam Int).Connected := by
  refine connected_of ?_ ?_
  · intro h
    have := h f hf
    rw [arc_w hf, if_pos (.inl rfl)] at this
    omega
  · intro red hc
    refine ⟨red f 0, ?_⟩
    intro x t hx ht
    change T.IsLabel x at hx
    rw [arc_w hx] at ht
    split_ifs at ht with q
    · have ht' : t = 0 := by simpa using ht
      subst ht'
      rcases q with rfl | rfl
      · rfl
      · have := hc.back f 0 hf (by rw [arc_w hf, if_pos (.inl rfl)]; decide)
        rw [this, arc_w hf, if_pos (.inl rfl)]
        rfl
    · simp at ht

theorem ring_connected {T : Triangulation} {X : List Int} (hn : X.Nodup) (hne : X ≠ []) (hl : ∀ x ∈ X, T.IsLabel x)
    (h : ∀ red, (T.curveFromCutSequence X : Lam Int).Colouring red → ∃ b, ∀ x ∈ X, red x 0 = b) : (T.curveFromCutSequence X : Lam Int).Connected := by
  have e1 : ∀ {x}, x ∈ X → X.count x = 1 := fun h => List.count_eq_one_of_mem hn h
  have e0 : ∀ {x}, x ∉ X → X.count x = 0 := fun h => List.count_eq_zero.2 h
  refine connected_of ?_ ?_
  · intro hb
    obtain ⟨x, hx⟩ := List.exists_mem_of_ne_nil X hne
    have := hb x (hl x hx)
    rw [curve_cn X (hl x hx)] at this
    unfold cn at this
    rw [e1 hx] at this
    omega
  · intro red hc
    obtain ⟨b, hb⟩ := h red hc
    refine ⟨b, ?_⟩
    intro x t hx ht
    change T.IsLabel x at hx
    have key : ∀ x t, T.IsLabel x → inv x ∈ X → t + 1 = ((T.curveFromCutSequence X : Lam Int).w x).natAbs → red x t = b := by
      intro x t hx hx' e
      have := hc.back (inv x) t (isLabel_inv.2 hx) (by rw [w_inv]; omega)
      rw [Curver.inv_inv, w_inv] at this
      rw [this, show ((T.curveFromCutSequence X : Lam Int).w x).natAbs - 1 - t = 0 by omega]
      exact hb _ hx'
    have ht' := ht
    rw [curve_cn X hx] at ht'
    unfold cn at ht'
    by_cases a : x ∈ X
    · by_cases q : t = 0
      · rw [q]; exact hb x a
      · have b : inv x ∈ X := by
          by_contra b
          rw [e1 a, e0 b] at ht'
          omega
        refine key x t hx b ?_
        rw [curve_cn X hx]
        unfold cn
        rw [e1 a, e1 b] at ht' ⊢
        omega
    · have b : inv x ∈ X := by
        by_contra b
        rw [e0 a, e0 b] at ht'
        omega
      refine key x t hx b ?_
      rw [curve_cn X hx]
      unfold cn
      rw [e0 a, e1 b] at ht' ⊢
      omega

theorem loop_consistent {T : Triangulation} {f β η : Int} (h : Loop T f β η X) : (T.curveFromCutSequence X : Lam Int).Consistent := by
  rw [consistent_iff]
  refine ⟨⟨h.valid, curve_length _ _⟩, ?_⟩
  intro x y z hg
  have l := h.valid.comp.label_of_glues hg
  rw [curve_cn X l.1, curve_cn X l.2.1, curve_cn X l.2.2]
  intro _ _ _
  have := (h.corner_nonneg hg).2
  rw [max_eq_left (cn_nonneg _ _), max_eq_left (cn_nonneg _ _), max_eq_left (cn_nonneg _ _)]
  rw [Int.even_iff] at this ⊢
  omega

theorem loop_connected {T : Triangulation} {f β η : Int} (h : Loop T f β η X) : (T.curveFromCutSequence X : Lam Int).Connected := by
  have hC := loop_consistent h
  refine ring_connected h.nodup h.ne_nil (fun x hx => h.label_mem (by simp [hx])) ?_
  intro red hc
  refine ⟨red (inv η) 0, ?_⟩
  have step : ∀ x ∈ X, x ≠ β → red (T.spin x) 0 = red x 0 := by
    intro x hx hb
    have hl := h.label_mem (x := x) (by simp [hx])
    obtain ⟨y, z, hg⟩ := h.valid.comp.exists_glues hl
    rw [Sweep.spin_eq h.valid.comp hg]
    have h1 : 1 ≤ (T.curveFromCutSequence X : Lam Int).lf x := by
      by_cases q : x = η
      · subst q
        rw [h.lf_e hC, h.cn_e]; omega
      · rw [h.lf_other hC hl (by rintro rfl; exact h.a_notin hx) hb q, List.count_eq_one_of_mem h.nodup hx]
        rfl
    have s := (hC.strand_iff (x := x) (y := y) (z := z) hg (t := 0) le_rfl).2 (by omega)
    exact (hc.corner x y z 0 hg s.1 s.2.1 s.2.2).symm
  obtain ⟨X', hX⟩ := h.sweep.first h.valid.comp h.glues h.ne_nil
  have hch := h.sweep.chain
  have ind : ∀ (l : List Int), (∀ x ∈ l, x ∈ X) → ∀ (a : Int), a ∈ X → List.IsChain (fun x y => y = T.spin x) (a :: (l ++ [inv f])) → ∀ x ∈ a :: l, red x 0 = red a 0 := by
    intro l
    induction l with
    | nil => intro _ a ha _ x hx; rw [List.mem_singleton.1 hx]
    | cons c l ih =>
      intro hl a ha hch x hx
      rw [List.cons_append, List.isChain_cons_cons] at hch
      have hcX := hl c (by simp)
      have hab : a ≠ β := by
        rintro rfl
        have := Sweep.spin_eq h.valid.comp h.glues.rot
        rw [← hch.1] at this
        exact h.sweep.notin (this ▸ hcX)
      rcases List.mem_cons.1 hx with rfl | hx
      · rfl
      · rw [ih (fun x hx => hl x (by simp [hx])) c hcX hch.2 x hx, hch.1]
        exact step a ha hab
  rw [hX] at hch ⊢
  rw [List.cons_append, List.isChain_cons_cons] at hch
  exact ind X' (fun x hx => by rw [hX]; simp [hx]) (inv η) h.inv_e_mem hch.2

theorem link_connected {T : Triangulation} (h : T.Star v) : (T.curveFromCutSequence v : Lam Int).Connected := by
  obtain ⟨b1, b2, b3⟩ := h.basic
  refine ring_connected b1 b3 b2 ?_
  intro red hc
  obtain ⟨e, h1, h2⟩ := h.ex
  refine ⟨red e 0, ?_⟩
  intro x hx
  have hev : e ∈ v := by
    obtain ⟨w, _, k1, _, _, k4, _⟩ := h.valid.comp.vertexOf_ok h1
    rw [h2] at k1; cases k1
    exact k4
  have := h.valid.comp.sv_induct (x := e) (y := x) h1 ⟨v, h2, hx⟩ (fun x => x ∈ v ∧ red x 0 = red e 0) ⟨hev, rfl⟩ ?_
  · exact this.2
  · rintro z hz ⟨hzv, hr⟩
    obtain ⟨y, u, hg⟩ := h.valid.comp.exists_glues hz
    refine ⟨(h.sv hz (h.valid.comp.sv_spin hz)).1 hzv, ?_⟩
    rw [Sweep.spin_eq h.valid.comp hg, ← hr]
    have s := (h.mult.1.strand_iff (x := z) (y := y) (z := u) hg (t := 0) le_rfl).2 (by rw [h.mult.2 z hz, List.count_eq_one_of_mem b1 hzv]; rfl)
    exact (hc.corner z y u 0 hg s.1 s.2.1 s.2.2).symm

end Lam
end Curver
