import Verif.Proofs.CrushMake
import Verif.Proofs.Filling

/-!
# The vertices of a crushed triangulation
-/

namespace Curver
open Triangulation

namespace Triangulation
variable {T T' : Triangulation} {a b e : Int} {X v : List Int}

/-- a function that is constant along the turns is constant around vertices -/
theorem Complete.sv_const (hT : T.Complete) {β : Type} {f : Int → β} (h : ∀ x y z, T.Glues x y z → f x = f (inv z)) {x y : Int} (hx : T.IsLabel x) (hs : T.SV x y) : f x = f y := by
  refine hT.sv_induct hx hs (fun y => f x = f y) rfl ?_
  intro z hz q
  obtain ⟨u, w, hg⟩ := hT.exists_glues hz
  rw [q, Sweep.spin_eq hT hg]
  exact h _ _ _ hg

theorem Star.mem_iff (h : T.Star v) {x y : Int} (hx : x ∈ v) : y ∈ v ↔ T.SV x y := by
  constructor
  · intro hy
    obtain ⟨e, h1, h2⟩ := h.ex
    have lx := h.basic.2.1 x hx
    exact h.valid.comp.sv_trans lx (h.valid.comp.sv_symm h1 ⟨v, h2, hx⟩) ⟨v, h2, hy⟩
  · intro hs
    exact (h.sv (h.basic.2.1 x hx) hs).1 hx

theorem exists_star (hT : T.Valid) {x : Int} (hx : T.IsLabel x) : ∃ v, T.Star v ∧ x ∈ v := by
  obtain ⟨w, _, k1, _, _, k4, _⟩ := hT.comp.vertexOf_ok hx
  exact ⟨w, ⟨hT, x, hx, k1⟩, k4⟩

variable (h : Loop T a b e X) (hc : Crushed T T' b e)
include h hc

/-- the folded triangle and the other ones -/
theorem Crushed.cases {Q : Int → Int → Int → Prop} (h1 : Q a b (inv b)) (h2 : Q b (inv b) a) (h3 : Q (inv b) a b)
    (h4 : ∀ x y z, T.Glues x y z → (x ≠ a ∧ x ≠ b ∧ x ≠ e) → (y ≠ a ∧ y ≠ b ∧ y ≠ e) → (z ≠ a ∧ z ≠ b ∧ z ≠ e) → Q (if x = inv b then e else x) (if y = inv b then e else y) (if z = inv b then e else z))
    {x y z : Int} (hg : T'.Glues x y z) : Q x y z := by
  have B := h.fan.base
  obtain ⟨x', y', z', g, rfl, rfl, rfl⟩ := hc.back B hg
  by_cases qa : x' = a
  · subst qa
    obtain ⟨rfl, rfl⟩ := B.comp.glues_unique g h.glues
    have e1 := hc.comp.glues_unique hg (a := Lam.crushLabel y' z' x') (by
      rw [Base.mu_other B.nes.2.2.symm (fun q => B.bn (inv_eq_iff.1 q.symm))]; exact hc.folded B)
    rw [e1.1, e1.2, Base.mu_other B.nes.2.2.symm (fun q => B.bn (inv_eq_iff.1 q.symm))]
    exact h1
  by_cases qb : x' = b
  · subst qb
    obtain ⟨rfl, rfl⟩ := B.comp.glues_unique g h.glues.rot
    have eb : Lam.crushLabel x' y' x' = x' := Base.mu_other B.nes.2.1 (Curver.inv_ne x').symm
    have e1 := hc.comp.glues_unique hg (a := Lam.crushLabel x' y' x') (by
      rw [eb]; exact (hc.folded B).rot)
    rw [e1.1, e1.2, eb]
    exact h2
  by_cases qe : x' = e
  · subst qe
    obtain ⟨rfl, rfl⟩ := B.comp.glues_unique g h.glues.rot.rot
    have e1 := hc.comp.glues_unique hg (a := Lam.crushLabel z' x' x') (by
      rw [Base.mu_e]; exact (hc.folded B).rot.rot)
    rw [e1.1, e1.2, Base.mu_e]
    exact h3
  have o := B.other g ⟨qa, qb, qe⟩
  have := h4 x' y' z' g ⟨qa, qb, qe⟩ o.1 o.2
  unfold Lam.crushLabel
  rwa [if_neg qe, if_neg o.1.2.2, if_neg o.2.2.2]

/-- the new vertex on the left -/
theorem Crushed.star_left : ∃ v, T'.Star v ∧ ∀ x, T'.IsLabel x → v.count x = if x = inv b then 1 else 0 := by
  have B := h.fan.base
  obtain ⟨v, hv, hb⟩ := exists_star hc.valid (hc.label.2 (isLabel_inv.2 B.labels.2.1))
  refine ⟨v, hv, fun x hx => ?_⟩
  split_ifs with q
  · rw [q]; exact List.count_eq_one_of_mem hv.basic.1 hb
  · rw [List.count_eq_zero]
    intro hx'
    have := hc.comp.sv_const (f := fun x => decide (x = inv b)) (by
      intro x y z hg
      refine hc.cases h (Q := fun x y z => decide (x = inv b) = decide (inv z = inv b)) ?_ ?_ ?_ ?_ hg
      · simp [Curver.inv_inv, (Curver.inv_ne b).symm]
        intro q; exact B.bn (inv_eq_iff.1 q.symm)
      · have : a ≠ b := B.nes.1
        simp [inv_inj, this, (Curver.inv_ne b).symm]
      · simp
      · intro x y z hg h1 h2 h3
        have e0 : e ≠ inv b := fun q => B.bi (inv_eq_iff.1 q.symm)
        split_ifs with q1 q2 q2
        · simp [e0, inv_inj, B.nes.2.1.symm]
        · simp [e0, inv_inj, h3.2.1]
        · simp [q1, inv_inj, B.nes.2.1.symm]
        · simp [q1, inv_inj, h3.2.1]) (isLabel_inv.2 (hc.label.2 B.labels.2.1)) ((hv.mem_iff hb).1 hx')
    simp only [decide_eq_decide] at this
    exact q (this.1 trivial)

/-- the new vertex on the right -/
theorem Crushed.star_right : ∃ v, T'.Star v ∧ ∀ x, T'.IsLabel x → v.count x = if norm x = norm b then 0 else X.count x := by
  have B := h.fan.base
  have nn := Lam.norm_ne B
  have le := isLabel_inv.2 (hc.label.2 B.labels.2.2)
  obtain ⟨v, hv, hb⟩ := exists_star hc.valid le
  have key : ∀ x, T'.IsLabel x → (x ∈ v ↔ x ∈ X ∧ norm x ≠ norm b) := by
    intro x hx
    constructor
    · intro hx'
      have := hc.comp.sv_const (f := fun x => decide (x ∈ X ∧ norm x ≠ norm b)) (by
        intro x y z hg
        refine hc.cases h (Q := fun x y z => decide (x ∈ X ∧ norm x ≠ norm b) = decide (inv z ∈ X ∧ norm (inv z) ≠ norm b)) ?_ ?_ ?_ ?_ hg
        · simp [h.a_notin, Curver.inv_inv]
        · have : inv a ∉ X := by
            intro q
            have := List.count_pos_iff.2 q
            rw [h.count_ia] at this; omega
          simp [this]
        · simp [norm_inv]
        · intro x y z hg h1 h2 h3
          have cs := h.count_spin hg
          rw [if_neg h1.2.1, if_neg h1.1] at cs
          have hm : x ∈ X ↔ inv z ∈ X := by
            rw [← List.count_pos_iff, ← List.count_pos_iff]; omega
          have ce : e ∈ X ↔ inv b ∈ X := by
            rw [← List.count_pos_iff, ← List.count_pos_iff, h.count_e]
          have nb : ∀ {x}, x ≠ b → x ≠ inv b → norm x ≠ norm b := by
            intro x h1 h2 q
            rcases norm_eq_iff.1 q with q | q
            · exact h1 q
            · exact h2 q
          have hie := h.inv_e_mem
          have hbm := h.b_mem
          rw [decide_eq_decide]
          by_cases q1 : x = inv b
          · rw [if_pos q1]
            by_cases q2 : z = inv b
            · rw [if_pos q2, norm_inv]
              rw [q1, q2, Curver.inv_inv] at hm
              simp [nn.1, hie, ce, hm, hbm]
            · rw [if_neg q2, norm_inv]
              rw [q1] at hm
              have := nb h3.2.1 q2
              simp [nn.1, this, ce, hm]
          · rw [if_neg q1]
            have := nb h1.2.1 q1
            by_cases q2 : z = inv b
            · rw [if_pos q2, norm_inv]
              rw [q2, Curver.inv_inv] at hm
              simp [nn.1, hie, this, hm, hbm]
            · rw [if_neg q2, norm_inv]
              have := nb h3.2.1 q2
              simp [*]) le ((hv.mem_iff hb).1 hx')
      rw [decide_eq_decide] at this
      exact this.1 ⟨h.inv_e_mem, by rw [norm_inv]; exact nn.1⟩
    · rintro ⟨h1, h2⟩
      have := hc.sv_right h h1
      rw [if_neg (by rintro rfl; exact h2 (norm_inv b)), if_neg (by rintro rfl; exact h2 rfl)] at this
      exact (hv.sv hx this).2 hb
  refine ⟨v, hv, fun x hx => ?_⟩
  have k := key x hx
  by_cases q : norm x = norm b
  · rw [if_pos q, List.count_eq_zero]
    exact fun q' => (k.1 q').2 q
  · rw [if_neg q]
    by_cases q' : x ∈ X
    · rw [List.count_eq_one_of_mem h.nodup q', List.count_eq_one_of_mem hv.basic.1 (k.2 ⟨q', q⟩)]
    · rw [List.count_eq_zero.2 q', List.count_eq_zero]
      exact fun w => q' (k.1 w).1

end Triangulation

namespace Lam
variable {L M N K c s : Lam Int} {T T' : Triangulation} {a b e k t : Int} {X v : List Int} {P : Lam Int → Py LamClass}

/-- the new vertices lift to the curve -/
theorem LiftW.new_left (hl : LiftW (T'.curveFromCutSequence v) M T b e X) (h : Loop T a b e X) (hc : Crushed T T' b e) (hv : ∀ x, T'.IsLabel x → v.count x = if x = inv b then 1 else 0) {x : Int} (hx : T.IsLabel x) :
    M.w x = cn X x := by
  have B := h.fan.base
  have nn := norm_ne B
  have w0 : ∀ {x}, T.IsLabel x → (T'.curveFromCutSequence v : Lam Int).w x = if norm x = norm b then 1 else 0 := by
    intro x hx
    rw [link_w (T := T') v (hc.label.2 hx), hv x (hc.label.2 hx), hv _ (isLabel_inv.2 (hc.label.2 hx))]
    by_cases q : norm x = norm b
    · rw [if_pos q]
      rcases norm_eq_iff.1 q with q | q
      · subst q; rw [if_neg (Curver.inv_ne x).symm, if_pos rfl]; rfl
      · subst q; rw [if_pos rfl, Curver.inv_inv, if_neg (Curver.inv_ne b).symm]; rfl
    · rw [if_neg q, if_neg (fun q' => q (by rw [q', norm_inv])), if_neg (fun q' => q (by rw [inv_inj.1 q']))]; rfl
  rw [hl.w x hx, w0 B.labels.2.1, w0 B.labels.2.2, w0 hx, if_pos rfl, if_neg nn.1]
  split_ifs <;> simp

theorem LiftW.new_right (hl : LiftW (T'.curveFromCutSequence v) M T b e X) (h : Loop T a b e X) (hc : Crushed T T' b e) (hv : ∀ x, T'.IsLabel x → v.count x = if norm x = norm b then 0 else X.count x) {x : Int} (hx : T.IsLabel x) :
    M.w x = cn X x := by
  have B := h.fan.base
  have nn := norm_ne B
  have w0 : ∀ {x}, T.IsLabel x → (T'.curveFromCutSequence v : Lam Int).w x = if norm x = norm b then 0 else cn X x := by
    intro x hx
    rw [link_w (T := T') v (hc.label.2 hx), hv x (hc.label.2 hx), hv _ (isLabel_inv.2 (hc.label.2 hx)), norm_inv]
    unfold cn
    split_ifs <;> simp
  rw [hl.w x hx, w0 B.labels.2.1, w0 B.labels.2.2, w0 hx, if_pos rfl, if_neg nn.1]
  split_ifs with q
  · have : cn X x = cn X e := by
      rw [show cn X x = cn X b from ?_, h.cn_b, h.cn_e]
      rcases norm_eq_iff.1 q with q | q
      · rw [q]
      · rw [q, cn_inv]
    rw [this]; simp
  · simp

/-- the other vertices lift to vertices -/
theorem LiftW.old (hl : LiftW (T'.curveFromCutSequence v) M T b e X) (h : Loop T a b e X) (hc : Crushed T T' b e) (hv : T'.Star v) (h1 : inv b ∉ v) (h2 : inv e ∉ v) (hM : M.NoArcs) : M.Peripheral := by
  have B := h.fan.base
  have n := B.nes
  have nn := norm_ne B
  have hcb : v.count (inv b) = 0 := List.count_eq_zero.2 h1
  have hce : v.count (inv e) = 0 := List.count_eq_zero.2 h2
  have cst : ∀ {x y}, T.IsLabel x → T'.SV x y → v.count x = v.count y := by
    intro x y hx hs
    have := hv.sv (hc.label.2 hx) hs
    rw [hv.basic.1.count, hv.basic.1.count]
    by_cases q : x ∈ v <;> by_cases q' : y ∈ v <;> simp [q, q'] at this ⊢
  have sab := hc.sv_ab h
  have ca := cst B.labels.1 sab.1
  have cb := cst B.labels.2.1 sab.2
  rw [peripheral_iff hM]
  let m : Int → Int := fun x => X.count x * v.count b + v.count (if x = inv b then e else if x = b then inv e else x)
  refine ⟨m, ?_, ?_⟩
  · rw [hl.tri]
    intro x y hx hs
    refine B.comp.sv_const (f := m) ?_ hx hs
    intro x y z hg
    show (_ : Int) * _ + _ = _ * _ + _
    have cs := h.count_spin hg
    by_cases qa : x = a
    · subst qa
      obtain ⟨rfl, rfl⟩ := B.comp.glues_unique hg h.glues
      rw [h.count_a, h.count_ie, if_neg (fun q => B.bn (inv_eq_iff.1 q.symm)), if_neg n.1, if_neg (fun q => n.2.1 (inv_inj.1 q).symm), if_neg (fun q => B.bi q.symm), ca, hce]
      simp
    by_cases qb : x = b
    · subst qb
      obtain ⟨rfl, rfl⟩ := B.comp.glues_unique hg h.glues.rot
      rw [h.count_b, h.count_ia, if_neg (Curver.inv_ne x).symm, if_pos rfl, if_neg (fun q => n.1 (inv_inj.1 q)), if_neg (fun q => B.bn q.symm), hce, cb]
      simp
    by_cases qe : x = e
    · subst qe
      obtain ⟨rfl, rfl⟩ := B.comp.glues_unique hg h.glues.rot.rot
      rw [if_neg (fun q => B.bi (inv_eq_iff.1 q.symm)), if_neg n.2.1.symm, if_pos rfl, ← h.count_e]
    have o := B.other hg ⟨qa, qb, qe⟩
    rw [if_neg qb, if_neg qa] at cs
    have g' := hc.other B hg ⟨qa, qb, qe⟩
    have s := hc.comp.sv_glues (y := inv (if z = inv b then e else z)) (by rw [Curver.inv_inv]; exact g')
    have lx : T.IsLabel (if x = inv b then e else x) := hc.label.1 (hc.comp.label_of_glues g').1
    have c1 := cst lx s
    have r : (if inv z = inv b then e else if inv z = b then inv e else inv z) = inv (if z = inv b then e else z) := by
      rw [if_neg (fun q => o.2.2.1 (inv_inj.1 q))]
      by_cases q : z = inv b
      · rw [if_pos q, if_pos (by rw [q, Curver.inv_inv])]
      · rw [if_neg q, if_neg (fun q' => q (inv_eq_iff.1 q'))]
    rw [r, ← c1, cs, if_neg qb]
    simp
  · rw [hl.tri]
    intro x hx
    show _ = ((_ : Int) * _ + _) + (_ * _ + _)
    rw [hl.w x hx, link_w (T := T') v (hc.label.2 B.labels.2.1), link_w (T := T') v (hc.label.2 B.labels.2.2), link_w (T := T') v (hc.label.2 hx), hcb, hce]
    unfold cn
    by_cases q : x = b
    · subst q
      rw [if_neg (Curver.inv_ne x).symm, if_pos rfl, if_pos rfl, if_pos rfl, hce]
      push_cast; ring
    by_cases q' : x = inv b
    · subst q'
      rw [if_pos rfl, Curver.inv_inv, if_neg (Curver.inv_ne b).symm, if_pos rfl, norm_inv, if_pos rfl, hce]
      push_cast; ring
    rw [if_neg q', if_neg q, if_neg (fun k => q (inv_inj.1 k)), if_neg (fun k => q' (inv_eq_iff.1 k)), if_neg]
    · push_cast; ring
    · intro k
      rcases norm_eq_iff.1 k with k | k
      · exact q k
      · exact q' k

end Lam
end Curver
