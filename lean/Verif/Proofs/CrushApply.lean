import Verif.Proofs.CrushLam
import Verif.Proofs.TwistPower

/-!
# The value of a crush
-/

namespace Curver
open Triangulation

theorem get_ofList_of {κ α : Type} [DecidableEq κ] {l : List (κ × α)} {k : κ} {v : α} (h : ∀ p ∈ l, p.1 = k → p.2 = v) (hk : ∃ p ∈ l, p.1 = k) : (PyDict.ofList l).get k = .ok v := by
  rw [PyDict.get_eq_ok_iff, PyDict.get?_ofList]
  cases hf : l.reverse.find? (fun p => decide (p.1 = k)) with
  | none =>
    obtain ⟨p, p1, p2⟩ := hk
    exact absurd p2 (by simpa using List.find?_eq_none.1 hf p (by simpa using p1))
  | some p =>
    have h1 := List.find?_some hf
    have h2 := List.mem_of_find?_eq_some hf
    simp only [decide_eq_true_eq] at h1
    simp only [Option.map_some]
    rw [h p (by simpa using h2) h1]

namespace Lam
variable {L M K c : Lam Int} {T T' : Triangulation} {a b e k t : Int} {X v : List Int} {P : Lam Int → Py LamClass}

theorem sidesOf_ok (hL : L.Consistent) (hc : c.Consistent) (ht : c.tri = L.tri) (l : List Int) (m t : Int) : ∃ d, CrushMove.sidesOf c L l m t = .ok d ∧
    ∀ x, L.tri.IsLabel x → d.get x = .ok (if x ∈ l ∧ 0 ≤ L.lf x then L.lf x - (c.lf x * t + m) else L.lf x) := by
  unfold CrushMove.sidesOf
  rw [mapM_ok (g := fun x => (x, if x ∈ l ∧ 0 ≤ L.lf x then L.lf x - (c.lf x * t + m) else L.lf x))]
  · refine ⟨_, rfl, fun x hx => ?_⟩
    refine get_ofList_of ?_ ⟨_, List.mem_map_of_mem (mem_labels.2 hx), rfl⟩
    intro p hp hq
    obtain ⟨y, hy, rfl⟩ := List.mem_map.1 hp
    dsimp only at hq ⊢
    rw [hq]
  · intro x hx
    have lx := mem_labels.1 hx
    rw [hL.left lx, py_bind_ok]
    split
    · rw [hc.left (by rw [ht]; exact lx), py_bind_ok]; rfl
    · rfl

/-- what a crush does to a lamination that misses the curve -/
theorem crush_apply {m : CrushMove} (hs : ShortAt c a b e X v K) (hp : c.parallelEdge P = .ok a) (h1 : m.curve = c) (h2 : m.source = c.tri)
    (h : L.Thick a b e X k t) (ht : L.tri = c.tri) (ha : L.aroundWeight (a :: X) = .ok k) (htw : L.twistingWeight (a :: X) k = .ok t) (ho : L.outWeight (a :: X) = .ok 0) :
    ∃ g, m.applyLam P L = m.target.lamination P g ∧ g.length = L.tri.zeta ∧
      ∀ x, L.tri.IsLabel x → g[(norm x).toNat]? = some (if norm x = norm b then k else L.w x - (k + t) * cn X x) := by
  have hl := h.flat.belt.loop
  have hcon := h.flat.belt.con
  have B := hl.fan.base
  have hT := hl.valid.comp
  have n := B.nes
  have tr := h.tri
  have hcc := (noArcs_iff.1 hs.noArcs).1
  have same : Same c (L.tri.curveFromCutSequence X) := by
    refine ⟨ht.symm, ?_⟩
    rw [ht]; exact hs.cut
  have hck : (L.tri.curveFromCutSequence X : Lam Int).Consistent := (noArcs_iff.1 (same.noArcs hs.noArcs)).1
  obtain ⟨d, d1, d2⟩ := sidesOf_ok hcon hcc ht.symm (a :: X) k t
  have hS := h.sides hck
  have hlf : ∀ x, L.tri.IsLabel x → c.lf x = (L.tri.curveFromCutSequence X : Lam Int).lf x := fun x _ => lf_same same.1 same.2 x
  generalize hSd : (fun x => if x ∈ a :: X ∧ 0 ≤ L.lf x then L.lf x - ((L.tri.curveFromCutSequence X : Lam Int).lf x * t + k) else L.lf x) = S at hS
  have d3 : ∀ x, L.tri.IsLabel x → d.get x = .ok (S x) := by
    intro x hx
    rw [d2 x hx, hlf x hx, ← hSd]
  -- the parallels
  have hw := hcon.1.2
  have wc : ∀ {x y : Int}, norm x = norm y → L.w x = L.w y := by
    intro x y q
    unfold w; rw [q]
  have lab : ∀ x ∈ a :: X, L.tri.IsLabel x := fun x hx => hl.label_mem hx
  have e1 : (a :: X).mapM (fun edge => do
      let w ← L.wt edge
      return (norm edge, max (-w) 0)) = .ok ((a :: X).map (fun x => (norm x, max (-(L.w x)) 0))) := by
    refine mapM_ok (fun x hx => ?_)
    rw [wt_eq hw (lab x hx), py_bind_ok]; rfl
  have par : ∀ x, x ∈ X ∨ inv x ∈ X → (PyDict.ofList ((a :: X).map (fun x => (norm x, max (-(L.w x)) 0)))).get (norm x) = .ok 0 := by
    intro x hx
    have hn : ∃ y ∈ X, norm y = norm x := by
      rcases hx with hx | hx
      · exact ⟨x, hx, rfl⟩
      · exact ⟨_, hx, norm_inv x⟩
    obtain ⟨y, y1, y2⟩ := hn
    refine get_ofList_of ?_ ⟨(norm y, max (-(L.w y)) 0), List.mem_map.2 ⟨y, by simp [y1], rfl⟩, y2⟩
    intro p hp hq
    obtain ⟨z, z1, rfl⟩ := List.mem_map.1 hp
    dsimp only at hq ⊢
    have := h.flat.pos y y1
    rw [wc (hq.trans y2.symm)]
    omega
  have hmid : middle (a :: X) = X.dropLast := by unfold middle; rw [List.drop_one, List.tail_cons]
  have hnon : ∀ x ∈ X.dropLast, L.tri.IsLabel x ∧ 0 ≤ S x := by
    intro x hx
    obtain ⟨x1, x2⟩ := hl.mem_dropLast.1 hx
    refine ⟨lab x (by simp [x1]), ?_⟩
    by_cases q : x = e
    · rw [q]; exact hS.se
    · rw [hS.other x (lab x (by simp [x1])) (by rintro rfl; exact hl.a_notin x1) x2 q, List.count_eq_one_of_mem hl.nodup x1]
      have := h.room x x1 x2
      push_cast
      omega
  obtain ⟨d', l1, l2⟩ := tighten_left (par := PyDict.ofList ((a :: X).map (fun x => (norm x, max (-(L.w x)) 0)))) hT hnon d3
  obtain ⟨d'', r1, r2⟩ := tighten_right (par := PyDict.ofList ((a :: X).map (fun x => (norm x, max (-(L.w x)) 0)))) hT (l := X.dropLast.reverse) (fun x hx => hnon x (List.mem_reverse.1 hx)) l2
  have la := hl.sweep.label
  have lb := B.labels.2.1
  have le := B.labels.2.2
  have cr : ∀ x, L.tri.IsLabel x → x ≠ a ∧ x ≠ b ∧ x ≠ e → ∃ t', L.tri.corner x = .ok t' ∧ t'.x = x ∧ CrushMove.crossed d'' t' = .ok (max (L.w x) 0 - (k + t) * cn X x) := by
    intro x hx hne
    obtain ⟨y, z, hg⟩ := hT.exists_glues hx
    exact ⟨_, hT.corner_eq hg, rfl, h.crossed hS r2 hg hne⟩
  have wn : ∀ x, L.w (norm x) = L.w x := fun x => wc (by unfold norm inv; omega)
  have cnn : ∀ x, cn X (norm x) = cn X x := by
    intro x
    rcases norm_eq_iff.1 (show norm (norm x) = norm x by unfold norm inv; omega) with q | q <;> rw [q]
    exact cn_inv X x
  obtain ⟨g', g1, g2, g3⟩ := foldlM_set (u := fun n => max (L.w n) 0 - (k + t) * cn X n) (F := CrushMove.rebuildStep L.tri d'' (PyDict.ofList ((a :: X).map (fun x => (norm x, max (-(L.w x)) 0)))))
    (l := (a :: X).filter (fun edge => edge ∉ [a, b, e, inv b, inv e])) (g := L.geometric) (by
      intro x hx g
      obtain ⟨x1, x2⟩ := List.mem_filter.1 hx
      simp only [List.mem_cons, List.not_mem_nil, or_false, not_or, decide_eq_true_eq] at x2
      obtain ⟨n1, n2, n3, n4, n5⟩ := x2
      have xX : x ∈ X := by
        rcases List.mem_cons.1 x1 with q | q
        · exact absurd q n1
        · exact q
      obtain ⟨t1, c1, c2, c3⟩ := cr x (lab x x1) ⟨n1, n2, n3⟩
      obtain ⟨t2, c4, c5, c6⟩ := cr (inv x) (isLabel_inv.2 (lab x x1)) ⟨fun q => hl.sweep.notin (by rw [← q, Curver.inv_inv]; exact xX), fun q => n4 (inv_eq_iff.1 q), fun q => n5 (inv_eq_iff.1 q)⟩
      unfold CrushMove.rebuildStep
      rw [c1, py_bind_ok, par x (.inl xX), py_bind_ok, if_neg (lt_irrefl 0), c3, py_bind_ok, c4, py_bind_ok, c6, py_bind_ok, w_inv, cn_inv, decide_eq_true rfl]
      simp only [pyAssert, if_true, py_bind_ok, wn, cnn]
      rfl)
  obtain ⟨t1, c1, c2, c3⟩ := cr (inv e) (isLabel_inv.2 le) ⟨fun q => B.en (inv_eq_iff.1 q), B.bi.symm, Curver.inv_ne e⟩
  obtain ⟨t2, c4, c5, c6⟩ := cr (inv b) (isLabel_inv.2 lb) ⟨fun q => B.bn (inv_eq_iff.1 q), Curver.inv_ne b, fun q => B.bi (inv_eq_iff.1 q)⟩
  have e2 : CrushMove.rebuildLast L.tri d'' (PyDict.ofList ((a :: X).map (fun x => (norm x, max (-(L.w x)) 0)))) b e = .ok (max (L.w e) 0 - (k + t) * cn X e) := by
    unfold CrushMove.rebuildLast
    have := hS.se
    rw [c1, py_bind_ok, par e (.inr hl.inv_e_mem), py_bind_ok, par b (.inl hl.b_mem), py_bind_ok, r2 e le, py_bind_ok, if_neg (by omega), c3, py_bind_ok, c4, py_bind_ok, c6, py_bind_ok, w_inv, cn_inv, w_inv, cn_inv]
    rw [show L.w b = L.w e by omega, show cn X b = cn X e by rw [hl.cn_b, hl.cn_e], decide_eq_true rfl]
    rfl
  refine ⟨(g'.set (norm e).toNat (max (L.w e) 0 - (k + t) * cn X e)).set (norm b).toNat (k - 0), ?_, ?_, ?_⟩
  · unfold CrushMove.applyLam
    rw [h1, h2, hp, py_bind_ok, ← ht, hT.corner_eq hl.glues, py_bind_ok, hs.around.around rfl, py_bind_ok, ha, py_bind_ok, ho, py_bind_ok, htw, py_bind_ok, d1, py_bind_ok, e1, py_bind_ok]
    dsimp only
    rw [d3 a la, py_bind_ok, d3 b lb, py_bind_ok, hS.sa, hS.sb, hmid]
    rw [show max (0 : Int) 0 + max (-0) 0 = 0 by decide, l1, py_bind_ok]
    dsimp only
    rw [l2 a la, py_bind_ok, l2 b lb, py_bind_ok, hS.sa, hS.sb, show max (-0 : Int) 0 + max 0 0 = 0 by decide, r1, py_bind_ok]
    dsimp only
    rw [g1, py_bind_ok, e2, py_bind_ok]
  · rw [List.length_set, List.length_set, g2, hw]
  · intro x hx
    have ix := idx_lt hx
    have h0 := norm_nonneg x
    have h0b := norm_nonneg b
    have h0e := norm_nonneg e
    by_cases q : norm x = norm b
    · rw [if_pos q, q, List.getElem?_set_self (by rw [List.length_set, g2, hw]; exact idx_lt lb)]
      simp
    · rw [if_neg q, List.getElem?_set_ne (by omega)]
      by_cases q2 : norm x = norm e
      · rw [q2, List.getElem?_set_self (by rw [g2, hw]; exact idx_lt le)]
        rw [wc q2, show cn X x = cn X e by rw [← cnn x, q2, cnn], max_eq_left (by omega)]
      · rw [List.getElem?_set_ne (by omega), g3 _ h0 (by rw [hw]; exact ix)]
        split
        · next q3 =>
          obtain ⟨y, y1, y2⟩ := q3
          obtain ⟨y3, y4⟩ := List.mem_filter.1 y1
          have yX : y ∈ X := by
            rcases List.mem_cons.1 y3 with q | q
            · subst q; simp at y4
            · exact q
          have := h.flat.pos y yX
          rw [wn, cnn, max_eq_left (by rw [← wc y2]; exact this)]
        · next q3 =>
          have key : ∀ y, norm y = norm x → y ∉ X := by
            intro y hy hX
            refine q3 ⟨y, List.mem_filter.2 ⟨by simp [hX], ?_⟩, hy⟩
            simp only [List.mem_cons, List.not_mem_nil, or_false, not_or, decide_eq_true_eq]
            refine ⟨fun q' => hl.a_notin (q' ▸ hX), fun q' => q (by rw [← hy, q']), fun q' => q2 (by rw [← hy, q']), fun q' => q (by rw [← hy, q', norm_inv]), fun q' => q2 (by rw [← hy, q', norm_inv])⟩
          have c0 : cn X x = 0 := by
            unfold cn
            rw [List.count_eq_zero.2 (key x rfl), List.count_eq_zero.2 (key (inv x) (norm_inv x))]; rfl
          rw [c0, mul_zero, sub_zero, List.getElem?_eq_getElem (by rw [hw]; exact ix)]
          unfold w
          rw [List.getElem?_eq_getElem (by rw [hw]; exact ix)]
          rfl

end Lam
end Curver
