import Verif.Proofs.CrushUnion

/-!
# Lifting a disjoint union
-/

namespace Curver
open Triangulation

namespace Lam
variable {M M1 M2 N N1 N2 : Lam Int} {T T' : Triangulation} {a b e : Int} {X : List Int} {red : Int → Nat → Bool}

/-- which edge of the crushed triangulation an edge comes from -/
def hatLabel (b e x : Int) : Int := if x = b then inv e else if x = inv b then e else x

/-- the colours of the lift; `W` strands are put in -/
def liftRed (b e : Int) (X : List Int) (W : Nat) (u : Int → Nat) (red : Int → Nat → Bool) (x : Int) (s : Nat) : Bool :=
  if x ∈ X ∧ s < W then red b s else if inv x ∈ X ∧ u x ≤ s + W then red b (u x - 1 - s) else red (hatLabel b e x) (s - if x ∈ X then W else 0)

theorem hatLabel_inv {x : Int} : hatLabel b e (inv x) = inv (hatLabel b e x) := by
  unfold hatLabel
  by_cases q : x = b
  · rw [q, if_neg (Curver.inv_ne b), if_pos rfl, if_pos rfl, Curver.inv_inv]
  · by_cases q2 : x = inv b
    · rw [q2, Curver.inv_inv, if_pos rfl, if_neg (Curver.inv_ne b), if_pos rfl]
    · rw [if_neg (fun p => q2 (inv_eq_iff.1 p)), if_neg (fun p => q (inv_inj.1 p)), if_neg q, if_neg q2]

theorem LiftW.w_hat (h : LiftW N M T b e X) (hN : N.NoArcs) (hl : Loop T a b e X) (hc : Crushed T T' b e) (ht : N.tri = T') {x : Int} (hx : T.IsLabel x) :
    0 ≤ N.w b ∧ 0 ≤ N.w (hatLabel b e x) ∧ M.w x = N.w (hatLabel b e x) + (if x ∈ X then N.w b else 0) + (if inv x ∈ X then N.w b else 0) ∧ T'.IsLabel (hatLabel b e x) := by
  have B := hl.fan.base
  have lb := hc.label.2 B.labels.2.1
  have le := hc.label.2 B.labels.2.2
  have lh : T'.IsLabel (hatLabel b e x) := by
    unfold hatLabel
    split_ifs
    · exact isLabel_inv.2 le
    · exact le
    · exact hc.label.2 hx
  refine ⟨hN.nonneg (by rw [ht]; exact lb), hN.nonneg (by rw [ht]; exact lh), ?_, lh⟩
  have e1 : (if norm x = norm b then N.w e else N.w x) = N.w (hatLabel b e x) := by
    unfold hatLabel
    by_cases q : x = b
    · rw [q, if_pos rfl, if_pos rfl, w_inv]
    · by_cases q2 : x = inv b
      · rw [q2, norm_inv, if_pos rfl, if_neg (Curver.inv_ne b), if_pos rfl]
      · rw [if_neg q, if_neg q2, if_neg]
        intro q'
        rcases norm_eq_iff.1 q' with q' | q'
        · exact q q'
        · exact q2 q'
  rw [h.w x hx, e1]
  unfold cn
  by_cases q1 : x ∈ X <;> by_cases q2 : inv x ∈ X <;> simp only [q1, q2, if_true, if_false, List.count_eq_one_of_mem hl.nodup, List.count_eq_zero.2, not_false_eq_true] <;> push_cast <;> ring

set_option maxHeartbeats 1000000 in
theorem LiftW.colouring (h : LiftW N M T b e X) (hN : N.NoArcs) (hl : Loop T a b e X) (hc : Crushed T T' b e) (ht : N.tri = T') (hr : N.Colouring red) :
    M.Colouring (liftRed b e X (N.w b).toNat (fun x => (M.w x).toNat) red) := by
  have B := hl.fan.base
  have nn := norm_ne B
  have nbb := Curver.inv_ne b
  have cl := hN.clear hl hc ht
  have lb0 := cl.lb
  have fo := cl.fold hc B ht
  obtain ⟨fl, lfo, lfe⟩ := h.flat cl hl hc ht
  have step : ∀ x y z (s : Nat), T'.Glues x y z → (s : Int) < N.lf x → red x s = red (inv z) s := by
    intro x y z s hg hs
    rw [← ht] at hg
    have := (cl.con.strand_iff hg (t := s) (by omega)).2 (by omega)
    exact hr.corner x y z s hg this.1 this.2.1 this.2.2
  have v1 : ∀ x s, x ∈ X → s < (N.w b).toNat → liftRed b e X (N.w b).toNat (fun x => (M.w x).toNat) red x s = red b s := fun x s h1 h2 => if_pos ⟨h1, h2⟩
  have va : ∀ s, liftRed b e X (N.w b).toNat (fun x => (M.w x).toNat) red a s = red a s := by
    intro s
    unfold liftRed hatLabel
    rw [if_neg (fun p => hl.a_notin p.1), if_neg (fun p => hl.sweep.notin p.1), if_neg hl.a_notin, if_neg B.nes.1, if_neg (fun p => B.bn (inv_eq_iff.1 p.symm)), Nat.sub_zero]
  have via : ∀ s, liftRed b e X (N.w b).toNat (fun x => (M.w x).toNat) red (inv a) s = red (inv a) s := by
    intro s
    unfold liftRed
    rw [if_neg (fun p => hl.sweep.notin p.1), if_neg (fun p => hl.a_notin (by have := p.1; rwa [Curver.inv_inv] at this)), if_neg hl.sweep.notin, hatLabel_inv, Nat.sub_zero]
    unfold hatLabel
    rw [if_neg B.nes.1, if_neg (fun p => B.bn (inv_eq_iff.1 p.symm))]
  have wp : ∀ x, T.IsLabel x → 0 ≤ M.w x := by
    intro x hx
    obtain ⟨h1, h2, h3, -⟩ := h.w_hat hN hl hc ht hx
    split_ifs at h3 <;> omega
  constructor
  · intro x s hx hs
    rw [h.tri] at hx
    obtain ⟨h1, h2, h3, h4⟩ := h.w_hat hN hl hc ht hx
    have p := wp x hx
    have bk := fun s => hr.back (hatLabel b e x) s (by rw [ht]; exact h4)
    unfold liftRed
    simp only [Curver.inv_inv, w_inv, hatLabel_inv]
    by_cases q1 : x ∈ X <;> by_cases q2 : inv x ∈ X <;> simp only [q1, q2, true_and, false_and, if_true, if_false] at h3 ⊢
    · by_cases r1 : s < (N.w b).toNat
      · rw [if_pos r1, if_neg (by omega), if_pos (by omega)]
        congr 1; omega
      · rw [if_neg r1]
        by_cases r2 : (M.w x).toNat ≤ s + (N.w b).toNat
        · rw [if_pos r2, if_pos (by omega)]
          congr 1; omega
        · rw [if_neg r2, if_neg (by omega), if_neg (by omega), bk _ (by omega)]
          congr 1; omega
    · by_cases r2 : (M.w x).toNat ≤ s + (N.w b).toNat
      · rw [if_pos r2, if_pos (by omega)]
        congr 1; omega
      · rw [if_neg r2, if_neg (by omega), bk _ (by omega)]
        congr 1; omega
    · by_cases r1 : s < (N.w b).toNat
      · rw [if_pos r1, if_pos (by omega)]
        congr 1; omega
      · rw [if_neg r1, if_neg (by omega), bk _ (by omega)]
        congr 1; omega
    · rw [bk _ (by omega)]
      congr 1; omega
  · intro x y z s hg i1 i2 i3
    have hs : (s : Int) < M.lf x := by
      have := (fl.belt.con.strand_iff hg (t := s) (by omega)).1 ⟨i1, i2, i3⟩
      omega
    rw [h.tri] at hg
    by_cases qa : x = a
    · subst qa
      obtain ⟨rfl, rfl⟩ := B.comp.glues_unique hg hl.glues
      rw [fl.belt.first] at hs
      rw [va, v1 _ _ hl.inv_e_mem (by omega), step x y (inv y) s (hc.folded B) hs, Curver.inv_inv]
    by_cases qb : x = b
    · subst qb
      obtain ⟨rfl, rfl⟩ := B.comp.glues_unique hg hl.glues.rot
      rw [fl.belt.last] at hs
      rw [via, v1 _ _ hl.b_mem (by omega)]
      exact step x (inv x) z s (hc.folded B).rot (by omega)
    by_cases qe : x = e
    · subst qe
      obtain ⟨rfl, rfl⟩ := B.comp.glues_unique hg hl.glues.rot.rot
      have w1 := h.w x B.labels.2.2
      have w2 := h.w z B.labels.2.1
      rw [if_neg nn.1, hl.cn_e] at w1
      rw [if_pos rfl, hl.cn_b] at w2
      unfold liftRed
      simp only [Curver.inv_inv, w_inv, hl.inv_e_mem, hl.b_mem, true_and, hl.e_mem_iff, hatLabel_inv]
      have hz : hatLabel z x z = inv x := if_pos rfl
      have hx : hatLabel z x x = x := by
        unfold hatLabel
        rw [if_neg B.nes.2.1.symm, if_neg (fun p => nn.1 (by rw [p, norm_inv]))]
      rw [hz, hx, Curver.inv_inv, show M.w x = M.w z by omega]
    have nx : x ≠ a ∧ x ≠ b ∧ x ≠ e := ⟨qa, qb, qe⟩
    have o := B.other hg nx
    have l := B.comp.label_of_glues hg
    have hat1 : hatLabel b e x = crushLabel b e x := by unfold hatLabel crushLabel; rw [if_neg qb, if_neg qe]
    have hat2 : hatLabel b e z = crushLabel b e z := by unfold hatLabel crushLabel; rw [if_neg o.2.2.1, if_neg o.2.2.2]
    have mem : inv z ∈ X ↔ x ∈ X := by
      rw [hl.next hg]
      constructor
      · rintro (p | p)
        · exact absurd p qa
        · exact p.1
      · intro p; exact .inr ⟨p, qb⟩
    have mem' : inv x ∈ X ↔ y ∈ X := by
      rw [hl.next hg.rot]
      constructor
      · rintro (p | p)
        · exact absurd p o.1.1
        · exact p.1
      · intro p; exact .inr ⟨p, o.1.2.1⟩
    have cg := hc.glues hg
    have nlf : 0 ≤ N.lf (crushLabel b e x) ∧ 0 ≤ N.lf (crushLabel b e y) ∧ 0 ≤ N.lf (crushLabel b e z) := by
      have lc := hc.comp.label_of_glues cg
      rw [← ht] at lc
      exact ⟨hN.lf_nonneg lc.1, hN.lf_nonneg lc.2.1, hN.lf_nonneg lc.2.2⟩
    have cg' : N.tri.Glues (crushLabel b e x) (crushLabel b e y) (crushLabel b e z) := by rw [ht]; exact cg
    have ntri := cl.con.lf_tri cg'
    obtain ⟨h1, h2, h3, -⟩ := h.w_hat hN hl hc ht l.1
    obtain ⟨-, g2, g3, -⟩ := h.w_hat hN hl hc ht l.2.2
    rw [hat1] at h2 h3
    rw [hat2] at g2 g3
    rw [max_eq_left h2, max_eq_left g2] at ntri
    have sx : N.lf (crushLabel b e x) ≤ N.w (crushLabel b e x) ∧ N.lf (crushLabel b e x) ≤ N.w (crushLabel b e z) := by
      unfold TriDual at ntri
      rcases ntri with ntri | ntri | ntri | ntri <;> omega
    have hlx := lfo x l.1 nx
    have step' : ∀ u : Nat, (u : Int) < N.lf (crushLabel b e x) → red (crushLabel b e x) u = red (inv (crushLabel b e z)) u := fun u hu => step _ _ _ _ cg hu
    clear ntri step v1 va via wp lfo lfe fo i1 i2 i3 lb0 nlf
    unfold liftRed
    simp only [Curver.inv_inv, w_inv, hatLabel_inv, hat1, hat2, mem]
    by_cases q1 : x ∈ X
    · rw [List.count_eq_one_of_mem hl.nodup q1] at hlx
      simp only [q1, mem.2 q1, true_and, if_true] at h3 g3 ⊢
      push_cast at hlx
      by_cases r1 : s < (N.w b).toNat
      · rw [if_pos r1, if_pos r1]
      · rw [if_neg r1, if_neg r1, if_neg, if_neg]
        · exact step' _ (by omega)
        · rintro ⟨p1, p2⟩
          rw [if_pos p1] at g3
          omega
        · rintro ⟨p1, p2⟩
          rw [if_pos p1] at h3
          omega
    · rw [List.count_eq_zero.2 q1] at hlx
      have q1' : ¬ inv z ∈ X := fun p => q1 (mem.1 p)
      simp only [q1, q1', false_and, if_false, Nat.sub_zero] at h3 g3 ⊢
      push_cast at hlx
      rw [if_neg, if_neg]
      · exact step' _ (by omega)
      · rintro ⟨p1, p2⟩
        rw [if_pos p1] at g3
        omega
      · rintro ⟨p1, p2⟩
        rw [if_pos p1] at h3
        omega

theorem LiftW.part (h : LiftW N M T b e X) (hN : N.NoArcs) (hl : Loop T a b e X) (hc : Crushed T T' b e) (ht : N.tri = T') (hr : N.Colouring red) (hp : N.IsPart red true N1) (h1 : LiftW N1 M1 T b e X) (hN1 : N1.NoArcs) :
    M.IsPart (liftRed b e X (N.w b).toNat (fun x => (M.w x).toNat) red) true M1 := by
  have B := hl.fan.base
  have cM := h.colouring hN hl hc ht hr
  refine ⟨h1.wf, h1.tri.trans h.tri.symm, fun x hx => ?_⟩
  rw [h.tri] at hx
  have sg : ∀ {A : Int} {f : Nat → Prop} [DecidablePred f], 0 ≤ A → A.sign * (Nat.count f A.natAbs : Int) = Nat.count f A.toNat := by
    intro A f _ hA
    rcases eq_or_lt_of_le hA with z | z
    · rw [← z]; simp
    · rw [Int.sign_eq_one_of_pos z, one_mul, show A.natAbs = A.toNat by omega]
  obtain ⟨w1, w2, w3, w4⟩ := h.w_hat hN hl hc ht hx
  obtain ⟨-, -, z3, -⟩ := h1.w_hat hN1 hl hc (hp.2.1.trans ht) hx
  have w0 : 0 ≤ M.w x := by split_ifs at w3 <;> omega
  rw [sg w0, z3]
  have nb := hp.2.2 b (by rw [ht]; exact hc.label.2 B.labels.2.1)
  rw [sg w1] at nb
  have nh := hp.2.2 (hatLabel b e x) (by rw [ht]; exact w4)
  rw [sg w2] at nh
  have front : ∀ y, (Nat.count (fun s => liftRed b e X (N.w b).toNat (fun x => (M.w x).toNat) red y s = true) (if y ∈ X then (N.w b).toNat else 0) : Int) = if y ∈ X then N1.w b else 0 := by
    intro y
    by_cases q : y ∈ X
    · rw [if_pos q, if_pos q, nb]
      congr 1
      refine count_congr' (fun s hs => ?_)
      unfold liftRed
      rw [if_pos ⟨q, hs⟩]
    · rw [if_neg q, if_neg q]; simp
  have bk := count_back (p := liftRed b e X (N.w b).toNat (fun x => (M.w x).toNat) red x) (q := liftRed b e X (N.w b).toNat (fun x => (M.w x).toNat) red (inv x)) (n := (M.w x).toNat) (fun s hs => by
    have := cM.back x s (by rw [h.tri]; exact hx) (by omega)
    rwa [show (M.w x).natAbs = (M.w x).toNat by omega] at this) (if inv x ∈ X then (N.w b).toNat else 0) (by split_ifs at w3 ⊢ <;> omega)
  have sub : (M.w x).toNat - (if inv x ∈ X then (N.w b).toNat else 0) = (if x ∈ X then (N.w b).toNat else 0) + (N.w (hatLabel b e x)).toNat := by split_ifs at w3 ⊢ <;> omega
  rw [sub, Nat.count_add] at bk
  have mid : Nat.count (fun s => liftRed b e X (N.w b).toNat (fun x => (M.w x).toNat) red x ((if x ∈ X then (N.w b).toNat else 0) + s) = true) (N.w (hatLabel b e x)).toNat = Nat.count (fun s => red (hatLabel b e x) s = true) (N.w (hatLabel b e x)).toNat := by
    refine count_congr' (fun s hs => ?_)
    unfold liftRed
    rw [if_neg, if_neg, Nat.add_sub_cancel_left]
    · rintro ⟨p1, p2⟩
      rw [if_pos p1] at w3
      dsimp only at p2
      split_ifs at w3 p2 <;> omega
    · rintro ⟨p1, p2⟩
      rw [if_pos p1] at p2
      omega
  have f1 := front x
  have f2 := front (inv x)
  rw [mid] at bk
  rw [← bk, nh]
  push_cast
  omega

theorem liftRed_not {W : Nat} {u : Int → Nat} : liftRed b e X W u (fun x s => !red x s) = fun x s => !liftRed b e X W u red x s := by
  funext x s
  unfold liftRed
  split_ifs <;> rfl

/-- the lift of a union is the union of the lifts -/
theorem LiftW.union (h : LiftW N M T b e X) (hN : N.NoArcs) (hl : Loop T a b e X) (hc : Crushed T T' b e) (ht : N.tri = T') (hu : N.IsUnion N1 N2) (h1 : LiftW N1 M1 T b e X) (hN1 : N1.NoArcs)
    (h2 : LiftW N2 M2 T b e X) (hN2 : N2.NoArcs) : M.IsUnion M1 M2 := by
  obtain ⟨red, r1, r2, r3⟩ := hu
  refine ⟨_, h.colouring hN hl hc ht r1, h.part hN hl hc ht r1 r2 h1 hN1, ?_⟩
  have := h.part hN hl hc ht r1.not r3.not h2 hN2
  rw [liftRed_not] at this
  have := this.not
  simpa using this

end Lam
end Curver
