import Verif.Proofs.CrushApply

/-!
# Weights before and after a crush
-/

namespace Curver
open Triangulation

theorem TriDual.add {A B C x y z p q r : Int} (h : TriDual A B C x y z) (hp : 0 ≤ p) (hq : 0 ≤ q) (hr : 0 ≤ r) (hp' : p = 0 ∨ 0 ≤ y) (hq' : q = 0 ∨ 0 ≤ z) (hr' : r = 0 ∨ 0 ≤ x) :
    TriDual (A + p + q) (B + q + r) (C + r + p) (x + r) (y + p) (z + q) := by
  unfold TriDual at h ⊢
  rcases h with h | h | h | h
  · left; omega
  · rcases hr' with hr' | hr'
    · right; left; omega
    · omega
  · rcases hp' with hp' | hp'
    · right; right; left; omega
    · omega
  · rcases hq' with hq' | hq'
    · right; right; right; omega
    · omega

namespace Lam
variable {L M N K c : Lam Int} {T T' : Triangulation} {a b e k t : Int} {X v : List Int} {P : Lam Int → Py LamClass}

/-- corner weights that fit -/
theorem of_corners (hw : L.WellFormed) {D : Int → Int} (h : ∀ x y z, L.tri.Glues x y z → TriDual (max (L.w x) 0) (max (L.w y) 0) (max (L.w z) 0) (D z) (D x) (D y)) :
    L.Consistent ∧ ∀ x, L.tri.IsLabel x → L.lf x = D x := by
  constructor
  · refine ⟨hw, fun x hx => ?_⟩
    obtain ⟨y, z, hg⟩ := hw.1.comp.exists_glues hx
    exact ⟨_, ((duals_iff hw hg).2 (h x y z hg)).1⟩
  · intro x hx
    obtain ⟨y, z, hg⟩ := hw.1.comp.exists_glues hx
    apply lf_eq
    rw [leftWeight_eq hw hg]
    exact ((duals_iff hw hg).2 (h x y z hg)).2.1

theorem wnorm {x y : Int} (q : norm x = norm y) : L.w x = L.w y := by unfold w; rw [q]

/-- the weights of a crushed lamination -/
structure CrushW (L K : Lam Int) (T' : Triangulation) (b : Int) (X : List Int) (k t : Int) : Prop where
  tri : K.tri = T'
  wf : K.WellFormed
  w : ∀ x, T'.IsLabel x → K.w x = if norm x = norm b then k else L.w x - (k + t) * cn X x

namespace CrushW

/-- the weights away from `(a, b, e)` -/
theorem w_mu (h : CrushW L K T' b X k t) (hth : L.Thick a b e X k t) (hc : Crushed L.tri T' b e) {x : Int} (hx : L.tri.IsLabel x) (hne : x ≠ b ∧ x ≠ e) :
    K.w (crushLabel b e x) = L.w x - (k + t) * cn X x := by
  have hl := hth.flat.belt.loop
  have B := hl.fan.base
  have tr := hth.tri
  by_cases q : x = inv b
  · rw [q, B.mu_ib, h.w e (hc.label.2 B.labels.2.2), if_neg, w_inv, cn_inv, hl.cn_b, hl.cn_e]
    · omega
    · intro q
      rcases norm_eq_iff.1 q with q | q
      · exact B.nes.2.1 q.symm
      · exact B.bi (inv_eq_iff.1 q.symm)
  · rw [Base.mu_other hne.2 q, h.w x (hc.label.2 hx), if_neg]
    intro q'
    rcases norm_eq_iff.1 q' with q' | q'
    · exact hne.1 q'
    · exact q q'

theorem corners (h : CrushW L K T' b X k t) (hth : L.Thick a b e X k t) (hc : Crushed L.tri T' b e) : K.Consistent ∧ K.lf a = k ∧ K.lf b = k ∧ K.lf (inv b) = 0 ∧
    ∀ x, L.tri.IsLabel x → x ≠ a ∧ x ≠ b ∧ x ≠ e → K.lf (crushLabel b e x) = L.lf x - X.count x * (k + t) := by
  have hl := hth.flat.belt.loop
  have B := hl.fan.base
  have tr := hth.tri
  have n := B.nes
  have cnt := hth.count
  have hmax : ∀ {x y z : Int}, L.tri.Glues x y z → x ≠ a ∧ x ≠ b ∧ x ≠ e → max (K.w (crushLabel b e x)) 0 = max (L.w x) 0 - (k + t) * cn X x := by
    intro x y z hg hne
    have lx := (hl.valid.comp.label_of_glues hg).1
    rw [h.w_mu hth hc lx hne.2]
    have d := (hth.dual hg hne).1.le
    by_cases q : x ∈ X ∨ inv x ∈ X
    · have : 0 ≤ L.w x := by
        rcases q with q | q
        · exact hth.flat.pos x q
        · have := hth.flat.pos _ q; rwa [w_inv] at this
      rw [max_eq_left this] at d ⊢
      have := le_max_right (L.lf x - X.count x * (k + t)) 0
      have := le_max_right (L.lf y - X.count y * (k + t)) 0
      omega
    · have c0 : cn X x = 0 := by
        unfold cn
        rw [List.count_eq_zero.2 (fun k => q (.inl k)), List.count_eq_zero.2 (fun k => q (.inr k))]; rfl
      rw [c0]; simp
  have nba : inv b ≠ a := fun q => B.bn (inv_eq_iff.1 q)
  have nbb : inv b ≠ b := Curver.inv_ne b
  let D : Int → Int := fun x => if x = a ∨ x = b then k else if x = inv b then 0 else L.lf (crushLabel b e x) - X.count (crushLabel b e x) * (k + t)
  have Da : D a = k := if_pos (.inl rfl)
  have Db : D b = k := if_pos (.inr rfl)
  have Dib : D (inv b) = 0 := by
    show (if _ ∨ _ then _ else _) = _
    rw [if_neg (by simp [nba, nbb]), if_pos rfl]
  have Do : ∀ x, x ≠ a ∧ x ≠ b ∧ x ≠ e → D (crushLabel b e x) = L.lf x - X.count x * (k + t) := by
    intro x hx
    show (if _ ∨ _ then _ else _) = _
    have h1 : crushLabel b e x ≠ a := by
      intro q
      refine hx.1 (B.mu_inj (q.trans (Base.mu_other (Ne.symm n.2.2) nba.symm).symm))
    have h2 : crushLabel b e x ≠ b := by
      intro q
      refine hx.2.1 (B.mu_inj (q.trans (Base.mu_other n.2.1 nbb.symm).symm))
    have h3 : crushLabel b e x ≠ inv b := by
      intro q
      refine hx.2.2 (B.mu_inj (q.trans Base.mu_e.symm))
    rw [if_neg (by simp [h1, h2]), if_neg h3, B.mu_mu]
  have wa : K.w a = L.w a := by
    rw [h.w a (hc.label.2 hl.sweep.label), if_neg, hl.cn_a, mul_zero, sub_zero]
    intro q
    rcases norm_eq_iff.1 q with q | q
    · exact n.1 q
    · exact nba q.symm
  have wb : K.w b = k := by rw [h.w b (hc.label.2 B.labels.2.1), if_pos rfl]
  have key := of_corners h.wf (D := D) (by
    rw [h.tri]
    intro x₀ y₀ z₀ hg₀
    have base : ∀ {x y z : Int}, T'.Glues x y z → x = a → TriDual (max (K.w x) 0) (max (K.w y) 0) (max (K.w z) 0) (D z) (D x) (D y) := by
      intro x y z hg q
      subst q
      obtain ⟨rfl, rfl⟩ := hc.comp.glues_unique hg (hc.folded B)
      rw [Da, Db, Dib, w_inv, wa, wb, tr.1]
      unfold TriDual
      left
      omega
    by_cases qa : x₀ = a
    · exact base hg₀ qa
    by_cases qb : y₀ = a
    · exact (base hg₀.rot qb).rot.rot
    by_cases qc : z₀ = a
    · exact (base hg₀.rot.rot qc).rot
    obtain ⟨x, y, z, hg, rfl, rfl, rfl⟩ := hc.back B hg₀
    have hne : x ≠ a ∧ x ≠ b ∧ x ≠ e := by
      have ma := Base.mu_other (b := b) (Ne.symm n.2.2) nba.symm
      refine ⟨?_, ?_, ?_⟩
      · rintro rfl; exact qa ma
      · rintro rfl
        have := hl.valid.comp.glues_unique hg hl.glues.rot
        exact qc (by rw [this.2, ma])
      · rintro rfl
        have := hl.valid.comp.glues_unique hg hl.glues.rot.rot
        exact qb (by rw [this.1, ma])
    have o := B.other hg hne
    rw [hmax hg hne, hmax hg.rot o.1, hmax hg.rot.rot o.2, Do x hne, Do y o.1, Do z o.2]
    exact (hth.dual hg hne).1)
  have lab : ∀ {x}, L.tri.IsLabel x → K.tri.IsLabel x := fun hx => by rw [h.tri]; exact hc.label.2 hx
  refine ⟨key.1, ?_, ?_, ?_, ?_⟩
  · rw [key.2 a (lab hl.sweep.label), Da]
  · rw [key.2 b (lab B.labels.2.1), Db]
  · rw [key.2 _ (lab (isLabel_inv.2 B.labels.2.1)), Dib]
  · intro x hx hne
    rw [key.2 _ (lab (B.mu_label hx)), Do x hne]

end CrushW

/-- nothing ends at the new vertices -/
structure Clear (N : Lam Int) (b e : Int) (X : List Int) : Prop where
  con : N.Consistent
  wb : 0 ≤ N.w b
  lb : 0 ≤ N.lf (inv b)
  pos : ∀ x ∈ X, norm x ≠ norm b → 0 ≤ N.w x
  left : ∀ x ∈ X, x ≠ b → x ≠ e → 0 ≤ N.lf (crushLabel b e x)

/-- the weights of a lift -/
structure LiftW (N M : Lam Int) (T : Triangulation) (b e : Int) (X : List Int) : Prop where
  tri : M.tri = T
  wf : M.WellFormed
  w : ∀ x, T.IsLabel x → M.w x = cn X x * N.w b + (if norm x = norm b then N.w e else N.w x)

theorem norm_ne (B : Base T a b e) : norm e ≠ norm b ∧ norm a ≠ norm b ∧ norm a ≠ norm e := by
  have n := B.nes
  refine ⟨?_, ?_, ?_⟩ <;> intro q <;> rcases norm_eq_iff.1 q with q | q
  · exact n.2.1 q.symm
  · exact B.bi (inv_eq_iff.1 q.symm)
  · exact n.1 q
  · exact B.bn (inv_eq_iff.1 q.symm)
  · exact n.2.2 q.symm
  · exact B.en (inv_eq_iff.1 q.symm)

/-- the folded triangle -/
theorem Clear.fold (h : N.Clear b e X) (hc : Crushed T T' b e) (B : Base T a b e) (ht : N.tri = T') : max (N.w a) 0 = 2 * N.lf a ∧ N.lf b = N.lf a ∧ N.w b = N.lf a + N.lf (inv b) ∧ 0 ≤ N.lf a := by
  have tr := h.con.lf_tri (x := a) (y := b) (z := inv b) (by rw [ht]; exact hc.folded B)
  rw [w_inv, max_eq_left h.wb] at tr
  have := h.lb
  have := h.wb
  unfold TriDual at tr
  rcases tr with tr | tr | tr | tr <;> omega

theorem LiftW.flat (h : LiftW N M T b e X) (hN : N.Clear b e X) (hl : Loop T a b e X) (hc : Crushed T T' b e) (ht : N.tri = T') : M.Flat a b e X (N.lf a) ∧
    (∀ x, T.IsLabel x → x ≠ a ∧ x ≠ b ∧ x ≠ e → M.lf x = N.lf (crushLabel b e x) + X.count x * N.w b) ∧ M.lf e = cn X e * N.w b + N.w e - N.lf a := by
  have B := hl.fan.base
  have n := B.nes
  have nn := norm_ne B
  have f := hN.fold hc B ht
  have h0 := hN.wb
  have hlb := hN.lb
  have le := B.labels.2.2
  have lb := B.labels.2.1
  have la := hl.sweep.label
  have we : 0 ≤ N.w e := by
    have := hN.pos (inv e) hl.inv_e_mem (by rw [norm_inv]; exact nn.1)
    rwa [w_inv] at this
  have hwmu : ∀ {x : Int}, T.IsLabel x → x ≠ a ∧ x ≠ b ∧ x ≠ e → M.w x = N.w (crushLabel b e x) + cn X x * N.w b := by
    intro x hx hne
    rw [h.w x hx]
    by_cases q : x = inv b
    · rw [q, norm_inv, if_pos rfl, B.mu_ib]; ring
    · rw [if_neg, Base.mu_other hne.2.2 q]
      · ring
      · intro q'
        rcases norm_eq_iff.1 q' with q' | q'
        · exact hne.2.1 q'
        · exact q q'
  have hposw : ∀ {x : Int}, x ∈ X ∨ inv x ∈ X → x ≠ a ∧ x ≠ b ∧ x ≠ e → 0 ≤ N.w (crushLabel b e x) := by
    intro x hx hne
    by_cases q : x = inv b
    · rw [q, B.mu_ib]; exact we
    · rw [Base.mu_other hne.2.2 q]
      have qn : norm x ≠ norm b := by
        intro q'
        rcases norm_eq_iff.1 q' with q' | q'
        · exact hne.2.1 q'
        · exact q q'
      rcases hx with hx | hx
      · exact hN.pos x hx qn
      · have := hN.pos _ hx (by rw [norm_inv]; exact qn)
        rwa [w_inv] at this
  have hmax : ∀ {x : Int}, T.IsLabel x → x ≠ a ∧ x ≠ b ∧ x ≠ e → max (M.w x) 0 = max (N.w (crushLabel b e x)) 0 + cn X x * N.w b := by
    intro x hx hne
    rw [hwmu hx hne]
    have c0 := mul_nonneg (cn_nonneg X x) h0
    by_cases q : x ∈ X ∨ inv x ∈ X
    · have := hposw q hne
      omega
    · have c1 : cn X x = 0 := by
        unfold cn
        rw [List.count_eq_zero.2 (fun k => q (.inl k)), List.count_eq_zero.2 (fun k => q (.inr k))]; rfl
      rw [c1]; simp
  have wa : M.w a = N.w a := by rw [h.w a la, hl.cn_a, if_neg nn.2.1]; ring
  have wb : M.w b = cn X e * N.w b + N.w e := by rw [h.w b lb, if_pos rfl, hl.cn_b, hl.cn_e]
  have we' : M.w e = cn X e * N.w b + N.w e := by rw [h.w e le, if_neg nn.1]
  have ce : N.w b ≤ cn X e * N.w b := by
    have : 1 ≤ cn X e := by rw [hl.cn_e]; omega
    nlinarith
  let D : Int → Int := fun x => if x = a ∨ x = b then N.lf a else if x = e then cn X e * N.w b + N.w e - N.lf a else N.lf (crushLabel b e x) + X.count x * N.w b
  have Da : D a = N.lf a := if_pos (.inl rfl)
  have Db : D b = N.lf a := if_pos (.inr rfl)
  have De : D e = cn X e * N.w b + N.w e - N.lf a := by
    show (if _ ∨ _ then _ else _) = _
    rw [if_neg (by simp [n.2.2, n.2.1.symm]), if_pos rfl]
  have Do : ∀ x, x ≠ a ∧ x ≠ b ∧ x ≠ e → D x = N.lf (crushLabel b e x) + X.count x * N.w b := by
    intro x hx
    show (if _ ∨ _ then _ else _) = _
    rw [if_neg (by simp [hx.1, hx.2.1]), if_neg hx.2.2]
  have key := of_corners h.wf (D := D) (by
    rw [h.tri]
    intro x y z hg
    have base : ∀ {x y z : Int}, T.Glues x y z → x = a → TriDual (max (M.w x) 0) (max (M.w y) 0) (max (M.w z) 0) (D z) (D x) (D y) := by
      intro x y z hg q
      subst q
      obtain ⟨rfl, rfl⟩ := B.comp.glues_unique hg hl.glues
      rw [Da, Db, De, wa, wb, we', f.1]
      generalize cn X z * N.w y = C at *
      unfold TriDual
      left
      omega
    by_cases qa : x = a
    · exact base hg qa
    by_cases qb : x = b
    · have := B.comp.glues_unique (qb ▸ hg) hl.glues.rot
      exact (base hg.rot.rot this.2).rot
    by_cases qe : x = e
    · have := B.comp.glues_unique (qe ▸ hg) hl.glues.rot.rot
      exact (base hg.rot this.1).rot.rot
    have hne : x ≠ a ∧ x ≠ b ∧ x ≠ e := ⟨qa, qb, qe⟩
    have o := B.other hg hne
    have l := B.comp.label_of_glues hg
    rw [hmax l.1 hne, hmax l.2.1 o.1, hmax l.2.2 o.2, Do x hne, Do y o.1, Do z o.2]
    have c1 := hl.count_spin hg
    have c2 := hl.count_spin hg.rot
    have c3 := hl.count_spin hg.rot.rot
    rw [if_neg hne.2.1, if_neg hne.1] at c1
    rw [if_neg o.1.2.1, if_neg o.1.1] at c2
    rw [if_neg o.2.2.1, if_neg o.2.1] at c3
    have e1 : cn X x = X.count x + X.count y := by unfold cn; omega
    have e2 : cn X y = X.count y + X.count z := by unfold cn; omega
    have e3 : cn X z = X.count z + X.count x := by unfold cn; omega
    have cor : ∀ {x : Int}, x ≠ a ∧ x ≠ b ∧ x ≠ e → 0 ≤ X.count x * N.w b ∧ (X.count x * N.w b = 0 ∨ 0 ≤ N.lf (crushLabel b e x)) := by
      intro x hx
      refine ⟨mul_nonneg (by omega) h0, ?_⟩
      by_cases q : x ∈ X
      · exact .inr (hN.left x q hx.2.1 hx.2.2)
      · left; rw [List.count_eq_zero.2 q]; simp
    have gl : N.tri.Glues (crushLabel b e x) (crushLabel b e y) (crushLabel b e z) := by rw [ht]; exact hc.glues hg
    have := (hN.con.lf_tri gl).add (p := X.count x * N.w b) (q := X.count y * N.w b) (r := X.count z * N.w b) (cor hne).1 (cor o.1).1 (cor o.2).1 (cor hne).2 (cor o.1).2 (cor o.2).2
    rw [e1, e2, e3]
    have r : ∀ A B C : Int, A + (B + C) * N.w b = A + B * N.w b + C * N.w b := by intros; ring
    rw [r, r, r]
    exact this)
  have lab : ∀ {x}, T.IsLabel x → M.tri.IsLabel x := fun hx => by rw [h.tri]; exact hx
  have lfo : ∀ x, T.IsLabel x → x ≠ a ∧ x ≠ b ∧ x ≠ e → M.lf x = N.lf (crushLabel b e x) + X.count x * N.w b := by
    intro x hx hne
    rw [key.2 x (lab hx), Do x hne]
  refine ⟨⟨⟨key.1, by rw [h.tri]; exact hl, by rw [key.2 a (lab la), Da], by rw [key.2 b (lab lb), Db], f.2.2.2, ?_⟩, ?_, ?_⟩, lfo, by rw [key.2 e (lab le), De]⟩
  · intro x hx hxb
    have lx := hl.label_mem (x := x) (by simp [hx])
    by_cases q : x = e
    · subst q
      rw [key.2 x (lab lx), De, hl.cn_e, List.count_eq_one_of_mem hl.nodup hx]
      push_cast
      omega
    · have xa : x ≠ a := by rintro rfl; exact hl.a_notin hx
      rw [lfo x lx ⟨xa, hxb, q⟩, List.count_eq_one_of_mem hl.nodup hx]
      have := hN.left x hx hxb q
      push_cast
      omega
  · intro x hx
    have lx := hl.label_mem (x := x) (by simp [hx])
    have xa : x ≠ a := by rintro rfl; exact hl.a_notin hx
    by_cases q : x = e
    · rw [q, we']; omega
    by_cases q2 : x = b
    · rw [q2, wb]; omega
    rw [hwmu lx ⟨xa, q2, q⟩]
    have := hposw (.inl hx) ⟨xa, q2, q⟩
    have := mul_nonneg (cn_nonneg X x) h0
    omega
  · rw [key.2 e (lab le), De]; omega

end Lam
end Curver
