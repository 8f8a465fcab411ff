import Verif.Proofs.CrushUse
import Verif.Proofs.CrossAdd

/-!
# Crushing a disjoint union
-/

namespace Curver
open Triangulation

namespace Lam
variable {S N N1 N2 K K1 K2 : Lam Int} {T' : Triangulation} {a b e k t k1 t1 : Int} {X : List Int} {red : Int → Nat → Bool}

/-- the parts of what is disjoint from the curve -/
theorem Flat.part (hS : S.Flat a b e X k) (hu : S.IsUnion N1 N2) : N1.Flat a b e X (N1.lf a) := by
  have B := hS.belt
  have hl := B.loop
  have w := hu.wf
  have hC := hu.consistent B.con
  have la := hl.label_mem (x := a) (by simp)
  have lb := hl.label_mem (x := b) (by simp [hl.b_mem])
  have le := hl.fan.base.labels.2.2
  have k0 := B.nonneg
  have rl : ∀ x ∈ a :: X, S.lf a ≤ S.lf x := by
    intro x hx
    rw [B.first]
    rcases List.mem_cons.1 hx with rfl | hx
    · rw [B.first]
    · by_cases q : x = b
      · rw [q, B.last]
      · have := B.room x hx q; omega
  have r1 := hu.round_le B.con hl (x0 := a) (by simp) rl (by rw [B.first]; exact k0)
  have r2 := hu.round_le B.con hl (x0 := b) (by simp [hl.b_mem]) (fun x hx => by rw [B.last, ← B.first]; exact rl x hx) (by rw [B.last]; exact k0)
  have a1 := (hu.at_corner B.con la).2.1 (by rw [B.first]; exact k0)
  refine ⟨⟨hC.1, by rw [w.2.2.1]; exact hl, rfl, ?_, a1.1, fun x hx q => ?_⟩, fun x hx => ?_, ?_⟩
  · have := r1 b (by simp [hl.b_mem])
    have := r2 a (by simp)
    omega
  · have := r1 x (by simp [hx]); omega
  · have := hS.pos x hx
    have := hu.at_corner B.con (hl.label_mem (x := x) (by simp [hx]))
    omega
  · exact ((hu.at_corner B.con le).2.1 hS.top).1

/-- the colours of the strands that go round -/
theorem Thick.colours (h : S.Thick a b e X k t) (hc : S.Colouring red) : (∀ s : Nat, (s : Int) < k + t → ∀ x ∈ X, red x s = red b s) ∧ (∀ s : Nat, (s : Int) < k → red a s = red b s ∧ red (inv a) s = red b s) := by
  have B := h.flat.belt
  have hl := B.loop
  have step : ∀ x y z (s : Nat), S.tri.Glues x y z → (s : Int) < S.lf x → red x s = red (inv z) s := by
    intro x y z s hg hs
    have := (B.con.strand_iff hg (t := s) (by omega)).2 (by omega)
    exact hc.corner x y z s hg this.1 this.2.1 this.2.2
  have one : ∀ s : Nat, (s : Int) < k + t → ∀ x ∈ X, red x s = red b s := by
    intro s hs
    have ch := hl.sweep.chain
    rw [← List.cons_append] at ch
    have ch' : List.IsChain (fun x y => y = S.tri.spin x) X := by
      have := ch.left_of_append
      cases X with
      | nil => exact .nil
      | cons => exact (List.isChain_cons_cons.1 this).2
    have main : ∀ (l : List Int), List.IsChain (fun x y => y = S.tri.spin x) l → (∀ x ∈ l, x ∈ X) → b ∉ l.dropLast → ∀ x ∈ l, ∀ y ∈ l, red x s = red y s := by
      intro l
      induction l with
      | nil => intro _ _ _ x hx; simp at hx
      | cons p l ih =>
        intro ch hin hb
        cases l with
        | nil => intro x hx y hy; simp at hx hy; rw [hx, hy]
        | cons q l =>
          rw [List.isChain_cons_cons] at ch
          rw [List.dropLast_cons_cons, List.mem_cons, not_or] at hb
          have ih' := ih ch.2 (fun x hx => hin x (by simp at hx ⊢; tauto)) hb.2
          have pq : red p s = red q s := by
            obtain ⟨y, z, hg⟩ := hl.valid.comp.exists_glues (hl.label_mem (x := p) (by simp [hin p (by simp)]))
            rw [ch.1, Sweep.spin_eq hl.valid.comp hg]
            have := h.room p (hin p (by simp)) (Ne.symm hb.1)
            exact step p y z s hg (by omega)
          intro x hx y hy
          have key : ∀ x ∈ p :: q :: l, red x s = red q s := by
            intro x hx
            rcases List.mem_cons.1 hx with rfl | hx
            · exact pq
            · exact ih' x hx q (by simp)
          rw [key x hx, key y hy]
    intro x hx
    exact main X ch' (fun _ h => h) hl.b_notin x hx b hl.b_mem
  refine ⟨one, fun s hs => ⟨?_, ?_⟩⟩
  · rw [step a b e s hl.glues (by rw [B.first]; exact hs)]
    exact one s (by have := h.nonneg; omega) _ hl.inv_e_mem
  · exact (step b e a s hl.glues.rot (by rw [B.last]; exact hs)).symm

/-- the colours after the crush -/
def crushRed (b : Int) (X : List Int) (k m : Nat) (red : Int → Nat → Bool) (x : Int) (s : Nat) : Bool :=
  if x = b then red b s else if x = inv b then red b (k - 1 - s) else red x (s + if x ∈ X then m else 0)

/-- weights of the crushed lamination -/
theorem CrushW.cases (h : CrushW S K T' b X k t) (hth : S.Thick a b e X k t) (hc : Crushed S.tri T' b e) {x : Int} (hx : T'.IsLabel x) (q : norm x ≠ norm b) :
    (K.w x = S.w x ∧ x ∉ X ∧ inv x ∉ X) ∨ (0 ≤ K.w x ∧ 0 ≤ S.w x ∧ S.w x = K.w x + (if x ∈ X then k + t else 0) + (if inv x ∈ X then k + t else 0)) := by
  have hl := hth.flat.belt.loop
  have e1 := h.w x hx
  rw [if_neg q] at e1
  have c := h.clear hth hc
  by_cases q1 : x ∈ X <;> by_cases q2 : inv x ∈ X
  · right
    have := c.pos x q1 q
    have := hth.flat.pos x q1
    simp only [q1, q2, if_true]
    unfold cn at e1
    rw [List.count_eq_one_of_mem hl.nodup q1, List.count_eq_one_of_mem hl.nodup q2] at e1
    push_cast at e1
    omega
  · right
    have := c.pos x q1 q
    have := hth.flat.pos x q1
    simp only [q1, q2, if_true, if_false]
    unfold cn at e1
    rw [List.count_eq_one_of_mem hl.nodup q1, List.count_eq_zero.2 q2] at e1
    push_cast at e1
    omega
  · right
    have := c.pos _ q2 (by rw [norm_inv]; exact q)
    have := hth.flat.pos _ q2
    rw [w_inv] at *
    simp only [q1, q2, if_true, if_false]
    unfold cn at e1
    rw [List.count_eq_zero.2 q1, List.count_eq_one_of_mem hl.nodup q2] at e1
    push_cast at e1
    omega
  · left
    unfold cn at e1
    rw [List.count_eq_zero.2 q1, List.count_eq_zero.2 q2] at e1
    push_cast at e1
    exact ⟨by omega, q1, q2⟩

/-- the colouring after the crush -/
theorem CrushW.colouring (h : CrushW S K T' b X k t) (hth : S.Thick a b e X k t) (hc : Crushed S.tri T' b e) (hr : S.Colouring red) : K.Colouring (crushRed b X k.toNat (k + t).toNat red) := by
  have hl := hth.flat.belt.loop
  have B := hl.fan.base
  have tr := hth.tri
  have nn := norm_ne B
  have cnt := hth.count
  have t0 := hth.nonneg
  obtain ⟨c1, c2⟩ := hth.colours hr
  obtain ⟨hK, ka, kb, kib, ko⟩ := h.corners hth hc
  have nbb := Curver.inv_ne b
  have vb : ∀ s, crushRed b X k.toNat (k + t).toNat red b s = red b s := fun s => if_pos rfl
  have vib : ∀ s, crushRed b X k.toNat (k + t).toNat red (inv b) s = red b (k.toNat - 1 - s) := fun s => by
    unfold crushRed; rw [if_neg nbb, if_pos rfl]
  have vo : ∀ x s, norm x ≠ norm b → crushRed b X k.toNat (k + t).toNat red x s = red x (s + if x ∈ X then (k + t).toNat else 0) := by
    intro x s q
    unfold crushRed
    rw [if_neg (fun p => q (by rw [p])), if_neg (fun p => q (by rw [p, norm_inv]))]
  constructor
  · intro x s hx hs
    rw [h.tri] at hx
    by_cases q : norm x = norm b
    · have hw := h.w x hx
      rw [if_pos q] at hw
      rcases norm_eq_iff.1 q with p | p <;> subst p
      · rw [vib, vb, hw]
        congr 1
        omega
      · rw [Curver.inv_inv, vb, vib, hw]
        congr 1
        omega
    · have q' : norm (inv x) ≠ norm b := by rwa [norm_inv]
      rw [vo _ _ q', vo _ _ q]
      have lx := hc.label.1 hx
      rcases h.cases hth hc hx q with ⟨p1, p2, p3⟩ | ⟨p1, p2, p3⟩
      · simp only [p2, p3, if_false, Nat.add_zero]
        rw [p1] at hs ⊢
        exact hr.back x s lx hs
      · have := hr.back x (s + if inv x ∈ X then (k + t).toNat else 0) lx (by split_ifs at p3 ⊢ <;> omega)
        rw [this]
        congr 1
        split_ifs at p3 ⊢ <;> omega
  · intro x₀ y₀ z₀ s hg₀ i1 i2 i3
    have hs : (s : Int) < K.lf x₀ := by
      have := (hK.strand_iff hg₀ (t := s) (by omega)).1 ⟨i1, i2, i3⟩
      omega
    rw [h.tri] at hg₀
    clear i3 i2
    revert hs i1
    refine hc.cases hl (Q := fun x y z => (s : Int) + 1 ≤ max (K.w x) 0 → (s : Int) < K.lf x → crushRed b X k.toNat (k + t).toNat red x s = crushRed b X k.toNat (k + t).toNat red (inv z) s) ?_ ?_ ?_ ?_ hg₀
    · intro _ hs
      rw [Curver.inv_inv, vb, vo a s nn.2.1, if_neg hl.a_notin, Nat.add_zero]
      exact (c2 s (by omega)).1
    · intro _ hs
      rw [vb, vo (inv a) s (by rw [norm_inv]; exact nn.2.1), if_neg hl.sweep.notin, Nat.add_zero]
      exact ((c2 s (by omega)).2).symm
    · intro _ hs
      omega
    · intro x y z hg nx ny nz i1 hs
      have l := B.comp.label_of_glues hg
      have stepe : ∀ u : Nat, (u : Int) < S.lf e → red e u = red (inv b) u := by
        intro u hu
        have := (hth.flat.belt.con.strand_iff hl.glues.rot.rot (t := u) (by omega)).2 (by omega)
        exact hr.corner e a b u hl.glues.rot.rot this.1 this.2.1 this.2.2
      have mu : ∀ x, x ≠ e → (if x = inv b then e else x) = crushLabel b e x := by
        intro x hx; unfold crushLabel; rw [if_neg hx]
      have we := h.w e (hc.label.2 B.labels.2.2)
      rw [if_neg nn.1, hl.cn_e] at we
      have left : crushRed b X k.toNat (k + t).toNat red (if x = inv b then e else x) s = red x (s + if x ∈ X then (k + t).toNat else 0) := by
        by_cases q : x = inv b
        · rw [if_pos q] at i1 ⊢
          rw [vo e s nn.1, q, ← if_congr hl.e_mem_iff rfl rfl, stepe]
          by_cases q1 : e ∈ X
          · rw [List.count_eq_one_of_mem hl.nodup q1] at we
            rw [if_pos q1]
            push_cast at we ⊢
            omega
          · rw [List.count_eq_zero.2 q1] at we
            rw [if_neg q1]
            push_cast at we ⊢
            omega
        · rw [if_neg q]
          refine vo x s (fun q' => ?_)
          rcases norm_eq_iff.1 q' with q' | q'
          · exact nx.2.1 q'
          · exact q q'
      have right : crushRed b X k.toNat (k + t).toNat red (inv (if z = inv b then e else z)) s = red (inv z) (s + if inv z ∈ X then (k + t).toNat else 0) := by
        by_cases q : z = inv b
        · rw [if_pos q, vo (inv e) s (by rw [norm_inv]; exact nn.1), q, Curver.inv_inv, if_pos hl.inv_e_mem, if_pos hl.b_mem]
          have xmem : x ∈ X := by
            have := (hl.next hg).1 (by rw [q, Curver.inv_inv]; exact hl.b_mem)
            rcases this with p | p
            · exact absurd p nx.1
            · exact p.1
          have s1 : (s : Int) + (k + t) < S.w b := by
            rw [mu x nx.2.2, ko x l.1 nx, List.count_eq_one_of_mem hl.nodup xmem] at hs
            have := (hth.flat.belt.con.lf_le hg (by push_cast at hs; omega)).2
            rw [q, w_inv] at this
            push_cast at hs
            omega
          have b1 := hr.back e (s + (k + t).toNat) B.labels.2.2 (by omega)
          have b2 := hr.back (inv b) (s + (k + t).toNat) (isLabel_inv.2 B.labels.2.1) (by rw [w_inv]; omega)
          rw [Curver.inv_inv] at b2
          rw [b1, b2, w_inv, stepe _ (by omega)]
          congr 1
          omega
        · rw [if_neg q]
          refine vo (inv z) s (fun q' => ?_)
          rw [norm_inv] at q'
          rcases norm_eq_iff.1 q' with q' | q'
          · exact nz.2.1 q'
          · exact q q'
      rw [left, right]
      have nx' : inv z ∈ X ↔ x ∈ X := by
        rw [hl.next hg]
        constructor
        · rintro (p | p)
          · exact absurd p nx.1
          · exact p.1
        · intro p; exact .inr ⟨p, nx.2.1⟩
      rw [if_congr nx' rfl rfl]
      rw [mu x nx.2.2, ko x l.1 nx] at hs
      have hs' : ((s + if x ∈ X then (k + t).toNat else 0 : Nat) : Int) < S.lf x := by
        by_cases q1 : x ∈ X
        · rw [List.count_eq_one_of_mem hl.nodup q1] at hs
          rw [if_pos q1]
          push_cast at hs ⊢
          omega
        · rw [List.count_eq_zero.2 q1] at hs
          rw [if_neg q1]
          push_cast at hs ⊢
          omega
      have := (hth.flat.belt.con.strand_iff hg (t := (s + if x ∈ X then (k + t).toNat else 0 : Nat)) (by omega)).2 (by omega)
      exact hr.corner x y z _ hg this.1 this.2.1 this.2.2

/-- the red strands that go round are those of the red part -/
theorem Thick.part_counts (h : S.Thick a b e X k t) (hm : ∃ x ∈ X, x ≠ b ∧ S.lf x = k + t) (hr : S.Colouring red) (hp : S.IsPart red true N) (h1 : N.Thick a b e X k1 t1)
    (hm1 : ∃ x ∈ X, x ≠ b ∧ N.lf x = k1 + t1) : k1 = Nat.count (fun s => red b s = true) k.toNat ∧ ∀ x ∈ X, k1 + t1 = Nat.count (fun s => red x s = true) (k + t).toNat := by
  have B := h.flat.belt
  have hl := B.loop
  have hN := h1.flat.belt.con
  have t0 := h.nonneg
  have k0 := B.nonneg
  obtain ⟨c1, c2⟩ := h.colours hr
  have lfm : ∀ {x}, x ∈ X → x ≠ b → k1 + t1 ≤ N.lf x := fun hx q => h1.room _ hx q
  constructor
  · have := (hp.lf B.con hr (hl.label_mem (x := b) (by simp [hl.b_mem])) hN).1 (by rw [B.last]; exact k0)
    rw [B.last, h1.flat.belt.last] at this
    exact this
  · have key : k1 + t1 = Nat.count (fun s => red b s = true) (k + t).toNat := by
      obtain ⟨x0, x1, x2, x3⟩ := hm
      obtain ⟨y0, y1, y2, y3⟩ := hm1
      have e1 := (hp.lf B.con hr (hl.label_mem (x := x0) (by simp [x1])) hN).1 (by omega)
      have e2 := (hp.lf B.con hr (hl.label_mem (x := y0) (by simp [y1])) hN).1 (by have := h.room y0 y1 y2; omega)
      have m1 := lfm x1 x2
      have m2 := Nat.count_monotone (fun s => red y0 s = true) (show (k + t).toNat ≤ (S.lf y0).toNat by have := h.room y0 y1 y2; omega)
      rw [x3] at e1
      rw [count_congr' (q := fun s => red b s = true) (fun s hs => by rw [c1 s (by omega) x0 x1])] at e1
      rw [count_congr' (n := (k + t).toNat) (q := fun s => red b s = true) (fun s hs => by rw [c1 s (by omega) y0 y1])] at m2
      omega
    intro x hx
    rw [key]
    congr 1
    exact count_congr' (fun s hs => by rw [c1 s (by omega) x hx])

/-- the red part after the crush -/
theorem CrushW.part (h : CrushW S K T' b X k t) (hth : S.Thick a b e X k t) (hc : Crushed S.tri T' b e) (hm : ∃ x ∈ X, x ≠ b ∧ S.lf x = k + t) (hr : S.Colouring red) (hp : S.IsPart red true N) (h1 : N.Thick a b e X k1 t1)
    (hm1 : ∃ x ∈ X, x ≠ b ∧ N.lf x = k1 + t1) (hK : CrushW N K1 T' b X k1 t1) : K.IsPart (crushRed b X k.toNat (k + t).toNat red) true K1 := by
  have hl := hth.flat.belt.loop
  have B := hl.fan.base
  have nbb := Curver.inv_ne b
  have cnt := hth.count
  have k0 := hth.flat.belt.nonneg
  obtain ⟨p1, p2⟩ := hth.part_counts hm hr hp h1 hm1
  refine ⟨hK.wf, hK.tri.trans h.tri.symm, fun x hx => ?_⟩
  rw [h.tri] at hx
  by_cases q : norm x = norm b
  · have hw := h.w x hx
    have hw1 := hK.w x hx
    rw [if_pos q] at hw hw1
    have e : (Nat.count (fun s => crushRed b X k.toNat (k + t).toNat red x s = true) k.toNat : Int) = k1 := by
      rw [p1]
      congr 1
      rcases norm_eq_iff.1 q with p | p <;> subst p
      · exact count_congr' (fun s _ => by unfold crushRed; rw [if_pos rfl])
      · have := count_back (p := red b) (q := fun s => crushRed b X k.toNat (k + t).toNat red (inv b) s) (n := k.toNat) (fun s _ => by unfold crushRed; rw [if_neg nbb, if_pos rfl]) k.toNat le_rfl
        simpa using this
    have kn : k.natAbs = k.toNat := by omega
    rw [hw, hw1, kn, e]
    rcases eq_or_lt_of_le k0 with z | z
    · rw [← z] at e ⊢
      simp at e ⊢
      exact e.symm
    · rw [Int.sign_eq_one_of_pos z, one_mul]
  · have lx := hc.label.1 hx
    have vo : ∀ s, crushRed b X k.toNat (k + t).toNat red x s = red x (s + if x ∈ X then (k + t).toNat else 0) := by
      intro s
      unfold crushRed
      rw [if_neg (fun p => q (by rw [p])), if_neg (fun p => q (by rw [p, norm_inv]))]
    have hw1 := hK.w x hx
    rw [if_neg q] at hw1
    have pw := hp.2.2 x lx
    rcases h.cases hth hc hx q with ⟨q1, q2, q3⟩ | ⟨q1, q2, q3⟩
    · have : cn X x = 0 := by unfold cn; rw [List.count_eq_zero.2 q2, List.count_eq_zero.2 q3]; rfl
      rw [hw1, this, q1, pw]
      simp only [vo, q2, if_false, Nat.add_zero, mul_zero, sub_zero]
    · have sg : ∀ {A : Int} {f : Nat → Prop} [DecidablePred f], 0 ≤ A → A.sign * (Nat.count f A.natAbs : Int) = Nat.count f A.toNat := by
        intro A f _ hA
        rcases eq_or_lt_of_le hA with z | z
        · rw [← z]; simp
        · rw [Int.sign_eq_one_of_pos z, one_mul, show A.natAbs = A.toNat by omega]
      rw [sg q1]
      rw [sg q2] at pw
      have bk := count_back (p := red x) (q := red (inv x)) (n := (S.w x).toNat) (fun s hs => by
        have := hr.back x s lx (by omega)
        rwa [show (S.w x).natAbs = (S.w x).toNat by omega] at this) (if inv x ∈ X then (k + t).toNat else 0) (by split_ifs at q3 ⊢ <;> omega)
      have sub : (S.w x).toNat - (if inv x ∈ X then (k + t).toNat else 0) = (if x ∈ X then (k + t).toNat else 0) + (K.w x).toNat := by split_ifs at q3 ⊢ <;> omega
      rw [sub, Nat.count_add] at bk
      have e1 : Nat.count (fun s => crushRed b X k.toNat (k + t).toNat red x s = true) (K.w x).toNat = Nat.count (fun s => red x ((if x ∈ X then (k + t).toNat else 0) + s) = true) (K.w x).toNat :=
        count_congr' (fun s _ => by rw [vo, Nat.add_comm])
      rw [e1, hw1, pw]
      have f1 : (Nat.count (fun s => red x s = true) (if x ∈ X then (k + t).toNat else 0) : Int) = X.count x * (k1 + t1) := by
        split_ifs with r
        · rw [← p2 x r, List.count_eq_one_of_mem hl.nodup r]; push_cast; ring
        · rw [List.count_eq_zero.2 r]; simp
      have f2 : (Nat.count (fun s => red (inv x) s = true) (if inv x ∈ X then (k + t).toNat else 0) : Int) = X.count (inv x) * (k1 + t1) := by
        split_ifs with r
        · rw [← p2 _ r, List.count_eq_one_of_mem hl.nodup r]; push_cast; ring
        · rw [List.count_eq_zero.2 r]; simp
      unfold cn
      rw [mul_comm, add_mul]
      omega

theorem crushRed_not {X : List Int} {k m : Nat} : crushRed b X k m (fun x s => !red x s) = fun x s => !crushRed b X k m red x s := by
  funext x s
  unfold crushRed
  split_ifs <;> rfl

/-- the crush of a union is the union of the crushes -/
theorem CrushW.union {k2 t2 : Int} (h : CrushW S K T' b X k t) (hth : S.Thick a b e X k t) (hc : Crushed S.tri T' b e) (hm : ∃ x ∈ X, x ≠ b ∧ S.lf x = k + t) (hu : S.IsUnion N1 N2)
    (h1 : N1.Thick a b e X k1 t1) (hm1 : ∃ x ∈ X, x ≠ b ∧ N1.lf x = k1 + t1) (hK1 : CrushW N1 K1 T' b X k1 t1)
    (h2 : N2.Thick a b e X k2 t2) (hm2 : ∃ x ∈ X, x ≠ b ∧ N2.lf x = k2 + t2) (hK2 : CrushW N2 K2 T' b X k2 t2) : K.IsUnion K1 K2 := by
  obtain ⟨red, r1, r2, r3⟩ := hu
  refine ⟨_, h.colouring hth hc r1, h.part hth hc hm r1 r2 h1 hm1 hK1, ?_⟩
  have := h.part hth hc hm r1.not r3.not h2 hm2 hK2
  rw [crushRed_not] at this
  have := this.not
  simpa using this

end Lam
end Curver
