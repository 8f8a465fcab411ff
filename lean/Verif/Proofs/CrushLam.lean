import Verif.Proofs.CrushTop
import Verif.Proofs.Crossing
import Verif.Proofs.LamArith

/-!
# Crushing a lamination that misses the curve
-/

namespace Curver
open Triangulation

theorem foldlM_set {u : Int → Int} {F : List Int → Int → Py (List Int)} : ∀ {l : List Int} {g : List Int}, (∀ x ∈ l, ∀ g, F g x = .ok (g.set (norm x).toNat (u (norm x)))) →
    ∃ g', l.foldlM F g = .ok g' ∧ g'.length = g.length ∧
      ∀ y, 0 ≤ y → y.toNat < g.length → g'[y.toNat]? = if ∃ x ∈ l, norm x = y then some (u y) else g[y.toNat]?
  | [], g, _ => ⟨g, rfl, rfl, fun y _ _ => by simp⟩
  | x :: l, g, h1 => by
    obtain ⟨g', e1, e2, e3⟩ := foldlM_set (l := l) (g := g.set (norm x).toNat (u (norm x))) (fun x hx => h1 x (by simp [hx]))
    refine ⟨g', ?_, by rw [e2, List.length_set], ?_⟩
    · rw [List.foldlM_cons, h1 x (by simp), py_bind_ok, e1]
    · intro y hy hlt
      rw [e3 y hy (by rw [List.length_set]; exact hlt)]
      by_cases q : norm x = y
      · rw [if_pos (c := ∃ z ∈ x :: l, norm z = y) ⟨x, by simp, q⟩]
        split
        · rfl
        · rw [← q, List.getElem?_set_self (by rw [q]; exact hlt)]
      · have h0 := norm_nonneg x
        have q3 : (norm x).toNat ≠ y.toNat := by
          clear e3
          omega
        have : (∃ z ∈ x :: l, norm z = y) ↔ ∃ z ∈ l, norm z = y := by simp [q]
        simp only [this]
        rw [List.getElem?_set_ne q3]

namespace Lam
variable {L M K c : Lam Int} {T T' : Triangulation} {a b e k t : Int} {X v : List Int} {P : Lam Int → Py LamClass}

/-- how the side weights are changed -/
structure Sides (L : Lam Int) (a b e : Int) (X : List Int) (k t : Int) (S : Int → Int) : Prop where
  sa : S a = 0
  sb : S b = 0
  se : 0 ≤ S e
  other : ∀ x, L.tri.IsLabel x → x ≠ a → x ≠ b → x ≠ e → S x = L.lf x - X.count x * (k + t)

/-- `t` strands more -/
structure Thick (L : Lam Int) (a b e : Int) (X : List Int) (k t : Int) : Prop where
  flat : L.Flat a b e X k
  nonneg : 0 ≤ t
  room : ∀ x ∈ X, x ≠ b → k + t ≤ L.lf x

namespace Thick

theorem belt (h : L.Thick a b e X k t) : L.Belt a b e X k t :=
  ⟨h.flat.belt.con, h.flat.belt.loop, h.flat.belt.first, h.flat.belt.last, h.flat.belt.nonneg, h.room⟩

/-- the triangle `(a, b, e)` -/
theorem tri (h : L.Thick a b e X k t) : max (L.w a) 0 = 2 * k ∧ L.w b = k + L.lf e ∧ L.w e = k + L.lf e ∧ 0 ≤ k ∧ 0 ≤ L.lf e := by
  have f := h.flat
  have B := f.belt
  have t := B.con.lf_tri B.loop.glues
  have p1 := f.pos b B.loop.b_mem
  have p2 := f.pos (inv e) B.loop.inv_e_mem
  rw [w_inv] at p2
  have := f.top
  have := B.nonneg
  rw [B.first, B.last, max_eq_left p1, max_eq_left p2] at t
  refine ⟨?_, ?_, ?_, B.nonneg, f.top⟩ <;> (unfold TriDual at t; rcases t with t | t | t | t <;> omega)

theorem count (h : L.Thick a b e X k t) : k + t ≥ 0 := by have := h.tri; have := h.nonneg; omega

/-- a corner away from the triangle `(a, b, e)` -/
theorem corner (h : L.Thick a b e X k t) {x : Int} (h2 : x ≠ b) : X.count x * (k + t) ≤ max (L.lf x) 0 ∧ 0 ≤ X.count x * (k + t) := by
  have := h.count
  by_cases q : x ∈ X
  · rw [List.count_eq_one_of_mem h.flat.belt.loop.nodup q]
    have := h.room x q h2
    push_cast
    omega
  · rw [List.count_eq_zero.2 q]
    push_cast
    omega

/-- the triangles away from `(a, b, e)` -/
theorem dual (h : L.Thick a b e X k t) {x y z : Int} (hg : L.tri.Glues x y z) (hx : x ≠ a ∧ x ≠ b ∧ x ≠ e) :
    TriDual (max (L.w x) 0 - (k + t) * cn X x) (max (L.w y) 0 - (k + t) * cn X y) (max (L.w z) 0 - (k + t) * cn X z)
      (L.lf z - X.count z * (k + t)) (L.lf x - X.count x * (k + t)) (L.lf y - X.count y * (k + t)) ∧
    cn X x = X.count x + X.count y := by
  have hl := h.flat.belt.loop
  have o := hl.fan.base.other hg hx
  have tr := h.flat.belt.con.lf_tri hg
  have c1 := hl.count_spin hg
  have c2 := hl.count_spin hg.rot
  have c3 := hl.count_spin hg.rot.rot
  rw [if_neg hx.2.1, if_neg hx.1] at c1
  rw [if_neg o.1.2.1, if_neg o.1.1] at c2
  rw [if_neg o.2.2.1, if_neg o.2.1] at c3
  have k1 := h.corner hx.2.1
  have k2 := h.corner o.1.2.1
  have k3 := h.corner o.2.2.1
  have := tr.sub (p := X.count x * (k + t)) (q := X.count y * (k + t)) (r := X.count z * (k + t)) k1.2 k2.2 k3.2 k1.1 k2.1 k3.1
  have e1 : cn X x = X.count x + X.count y := by unfold cn; omega
  have e2 : cn X y = X.count y + X.count z := by unfold cn; omega
  have e3 : cn X z = X.count z + X.count x := by unfold cn; omega
  refine ⟨?_, e1⟩
  rw [e1, e2, e3]
  have r : ∀ A B C : Int, A - (k + t) * (B + C) = A - B * (k + t) - C * (k + t) := by intros; ring
  rw [r, r, r]
  exact this

/-- the sides as they are computed -/
theorem sides (h : L.Thick a b e X k t) (hc : (L.tri.curveFromCutSequence X : Lam Int).Consistent) :
    L.Sides a b e X k t (fun x => if x ∈ a :: X ∧ 0 ≤ L.lf x then L.lf x - ((L.tri.curveFromCutSequence X : Lam Int).lf x * t + k) else L.lf x) := by
  have f := h.flat
  have B := f.belt
  have hl := B.loop
  have tr := h.tri
  have n := hl.fan.base.nes
  have h0 := h.nonneg
  refine ⟨?_, ?_, ?_, ?_⟩
  · show (if _ then _ else _) = _
    rw [if_pos ⟨by simp, by rw [B.first]; omega⟩, hl.lf_f hc, B.first]; ring
  · show (if _ then _ else _) = _
    rw [if_pos ⟨by simp [hl.b_mem], by rw [B.last]; omega⟩, hl.lf_b hc, B.last]; ring
  · split
    · next q =>
      have qe : e ∈ X := by
        rcases List.mem_cons.1 q.1 with q | q
        · exact absurd q n.2.2
        · exact q
      rw [hl.lf_e hc, hl.cn_e, List.count_eq_one_of_mem hl.nodup qe]
      push_cast
      rcases eq_or_lt_of_le h0 with q0 | q0
      · subst q0
        have := B.room e qe n.2.1.symm
        omega
      · have := h.belt.le_w2 q0 qe hl.inv_e_mem
        omega
    · exact f.top
  · intro x hx h1 h2 h3
    show (if _ then _ else _) = _
    rw [hl.lf_other hc hx h1 h2 h3]
    by_cases q : x ∈ X
    · have := h.room x q h2
      rw [if_pos ⟨by simp [q], by omega⟩, List.count_eq_one_of_mem hl.nodup q]; ring
    · rw [if_neg (by simp [h1, q]), List.count_eq_zero.2 q]; simp

theorem crossed (h : L.Thick a b e X k t) {S : Int → Int} (hS : L.Sides a b e X k t S) {sides : PyDict Int Int} (hd : ∀ x, L.tri.IsLabel x → sides.get x = .ok (S x))
    {x y z : Int} (hg : L.tri.Glues x y z) (hx : x ≠ a ∧ x ≠ b ∧ x ≠ e) : CrushMove.crossed sides ⟨x, y, z⟩ = .ok (max (L.w x) 0 - (k + t) * cn X x) := by
  have hl := h.flat.belt.loop
  have o := hl.fan.base.other hg hx
  have l := hl.valid.comp.label_of_glues hg
  have d := (h.dual hg hx).1
  unfold CrushMove.crossed
  dsimp only
  rw [hd x l.1, py_bind_ok, hd y l.2.1, py_bind_ok, hd z l.2.2, py_bind_ok, py_pure]
  rw [hS.other x l.1 hx.1 hx.2.1 hx.2.2, hS.other y l.2.1 o.1.1 o.1.2.1 o.1.2.2, hS.other z l.2.2 o.2.1 o.2.2.1 o.2.2.2]
  congr 1
  generalize L.lf x - X.count x * (k + t) = A at *
  generalize L.lf y - X.count y * (k + t) = B at *
  generalize L.lf z - X.count z * (k + t) = C at *
  generalize max (L.w x) 0 - (k + t) * cn X x = D at *
  generalize max (L.w y) 0 - (k + t) * cn X y = E at *
  generalize max (L.w z) 0 - (k + t) * cn X z = F at *
  unfold TriDual at d
  rcases d with d | d | d | d <;> omega

end Thick

/-- the loops that tighten do nothing -/
theorem tighten_left {T : Triangulation} {l : List Int} {sides par : PyDict Int Int} {S : Int → Int} (hT : T.Complete) (hl : ∀ x ∈ l, T.IsLabel x ∧ 0 ≤ S x) (hd : ∀ x, T.IsLabel x → sides.get x = .ok (S x)) :
    ∃ sides', CrushMove.tighten (CrushMove.leftStep T) l ⟨sides, par, 0⟩ = .ok ⟨sides', par, 0⟩ ∧ ∀ x, T.IsLabel x → sides'.get x = .ok (S x) := by
  cases l with
  | nil => exact ⟨sides, rfl, hd⟩
  | cons x l =>
    obtain ⟨lx, sx⟩ := hl x (by simp)
    obtain ⟨y, z, hg⟩ := hT.exists_glues lx
    have l' := hT.label_of_glues hg
    refine ⟨sides.set x (S x - 0), ?_, ?_⟩
    · have : CrushMove.leftStep T ⟨sides, par, 0⟩ x = .ok ⟨sides.set x (S x - 0), par, 0⟩ := by
        unfold CrushMove.leftStep
        rw [hT.corner_eq hg, py_bind_ok]
        dsimp only
        rw [hd x lx, py_bind_ok, hd y l'.2.1, py_bind_ok, hd z l'.2.2, py_bind_ok]
        split_ifs <;> first | rfl | (exfalso; omega)
      rw [CrushMove.tighten, this, py_bind_ok]
      rfl
    · intro u hu
      rw [PyDict.get_eq_ok_iff, PyDict.get?_set]
      split
      · next q => rw [← q]; simp
      · exact PyDict.get_eq_ok_iff.1 (hd u hu)

theorem tighten_right {T : Triangulation} {l : List Int} {sides par : PyDict Int Int} {S : Int → Int} (hT : T.Complete) (hl : ∀ x ∈ l, T.IsLabel x ∧ 0 ≤ S x) (hd : ∀ x, T.IsLabel x → sides.get x = .ok (S x)) :
    ∃ sides', CrushMove.tighten (CrushMove.rightStep T) l ⟨sides, par, 0⟩ = .ok ⟨sides', par, 0⟩ ∧ ∀ x, T.IsLabel x → sides'.get x = .ok (S x) := by
  cases l with
  | nil => exact ⟨sides, rfl, hd⟩
  | cons x l =>
    obtain ⟨lx, sx⟩ := hl x (by simp)
    obtain ⟨y, z, hg⟩ := hT.exists_glues lx
    have l' := hT.label_of_glues hg
    refine ⟨sides.set x (S x - 0), ?_, ?_⟩
    · have : CrushMove.rightStep T ⟨sides, par, 0⟩ x = .ok ⟨sides.set x (S x - 0), par, 0⟩ := by
        unfold CrushMove.rightStep
        rw [hT.corner_eq hg, py_bind_ok]
        dsimp only
        rw [hd x lx, py_bind_ok, hd y l'.2.1, py_bind_ok, hd z l'.2.2, py_bind_ok]
        split_ifs <;> first | rfl | (exfalso; omega)
      rw [CrushMove.tighten, this, py_bind_ok]
      rfl
    · intro u hu
      rw [PyDict.get_eq_ok_iff, PyDict.get?_set]
      split
      · next q => rw [← q]; simp
      · exact PyDict.get_eq_ok_iff.1 (hd u hu)

/-- the weights around the edge -/
theorem Flat.thick (h : L.Flat a b e X k) : ∃ t, L.aroundWeight (a :: X) = .ok k ∧ L.twistingWeight (a :: X) k = .ok t ∧ L.outWeight (a :: X) = .ok 0 ∧ L.Thick a b e X k t ∧ ∃ x ∈ X, x ≠ b ∧ L.lf x = k + t := by
  have hb := h.belt
  have hl := hb.loop
  have h0 := hb.nonneg
  have room : ∀ x ∈ a :: X, k ≤ L.lf x := by
    intro x hx
    rcases List.mem_cons.1 hx with rfl | hx
    · rw [hb.first]
    · by_cases q : x = b
      · rw [q, hb.last]
      · have := hb.room x hx q; omega
  obtain ⟨m, p1, p2, p3, x, p4, p5⟩ := aroundWeight_ok hb.con hl
  have hm : m = k := by
    have h1 := p3 a (by simp)
    have h2 := room x p4
    rw [hb.first] at h1
    omega
  subst hm
  obtain ⟨t, q1, q2, q3, y, q4, q5, q6⟩ := twistingWeight_ok hb.con hl m
  have r : ∀ x ∈ X, x ≠ b → m + t ≤ L.lf x := by
    intro x hx hxb
    have := q3 x hx hxb
    have := room x (by simp [hx])
    omega
  refine ⟨t, p1, q1, ?_, ⟨h, q2, r⟩, y, q4, q5, ?_⟩
  · unfold outWeight
    rw [lefts_ok hb.con (fun x hx => hl.label_mem hx), py_bind_ok, List.drop_one, List.tail_cons, mapM_ok (g := L.w) (fun x hx => wt_eq hb.con.1.2 (hl.label_mem (by simp [hx]))), py_bind_ok]
    have e1 : ((a :: X).map L.lf).map (fun x => max (-x) 0) = (a :: X).map (fun _ => 0) := by
      rw [List.map_map]
      refine List.map_congr_left (fun x hx => ?_)
      have := room x hx
      simp only [Function.comp]
      omega
    have e2 : (X.map L.w).map (fun x => max (-x) 0) = X.map (fun _ => 0) := by
      rw [List.map_map]
      refine List.map_congr_left (fun x hx => ?_)
      have := h.pos x hx
      simp only [Function.comp]
      omega
    rw [e1, e2]
    simp
  · have := room y (by simp [q4])
    omega

end Lam
end Curver
