import Verif.Proofs.CrushVert
import Verif.Proofs.UnionAssoc
import Verif.Proofs.MultiArc

/-!
# Crushing and lifting
-/

namespace Curver
open Triangulation

namespace Lam
variable {L M N K c s : Lam Int} {T T' : Triangulation} {a b e k t : Int} {X v : List Int} {P : Lam Int → Py LamClass}

theorem noArcs_of_lf (hL : L.Consistent) (h1 : ∀ x, L.tri.IsLabel x → 0 ≤ L.w x) (h2 : ∀ x, L.tri.IsLabel x → 0 ≤ L.lf x) : L.NoArcs := by
  rw [noArcs_iff]
  refine ⟨hL, fun x y z hg => ?_⟩
  have l := hL.1.1.comp.label_of_glues hg
  have tr := hL.lf_tri hg
  have := h1 x l.1
  have := h1 y l.2.1
  have := h1 z l.2.2
  have := h2 x l.1
  have := h2 y l.2.1
  have := h2 z l.2.2
  unfold TriDual at tr
  rcases tr with tr | tr | tr | tr <;> omega

theorem NoArcs.lf_nonneg (hL : L.NoArcs) {x : Int} (hx : L.tri.IsLabel x) : 0 ≤ L.lf x := by
  obtain ⟨y, z, hg⟩ := hL.1.1.comp.exists_glues hx
  exact (hL.lf_spec hg).2.2

theorem unions_self (hL : L.WellFormed) : L.Unions [L] := by
  obtain ⟨Z, h1, h2⟩ := union_blank hL
  exact .cons h2.symm (.nil h1)

theorem LiftW.noArcs (h : LiftW N M T b e X) (hN : N.NoArcs) (hl : Loop T a b e X) (hc : Crushed T T' b e) (ht : N.tri = T') : M.NoArcs := by
  have cl := hN.clear hl hc ht
  obtain ⟨f1, f2, f3⟩ := h.flat cl hl hc ht
  have B := hl.fan.base
  have fo := cl.fold hc B ht
  have lab : ∀ {x}, T.IsLabel x → N.tri.IsLabel x := fun hx => by rw [ht]; exact hc.label.2 hx
  apply noArcs_of_lf f1.belt.con
  · intro x hx
    rw [h.tri] at hx
    rw [h.w x hx]
    have := mul_nonneg (cn_nonneg X x) (hN.nonneg (lab B.labels.2.1))
    have := hN.nonneg (lab hx)
    have := hN.nonneg (lab B.labels.2.2)
    split_ifs <;> omega
  · intro x hx
    rw [h.tri] at hx
    by_cases qa : x = a
    · rw [qa, f1.belt.first]; exact fo.2.2.2
    by_cases qb : x = b
    · rw [qb, f1.belt.last]; exact fo.2.2.2
    by_cases qe : x = e
    · rw [qe]; exact f1.top
    rw [f2 x hx ⟨qa, qb, qe⟩]
    have := hN.lf_nonneg (lab (B.mu_label hx))
    have := mul_nonneg (Int.natCast_nonneg (X.count x)) (hN.nonneg (lab B.labels.2.1))
    omega

namespace Crushing
variable {m : CrushMove}

/-- crushing what is disjoint from the curve -/
theorem apply (h : Crushing P s m a b e X) (hP : ∀ L, ∃ c, P L = .ok c) (hf : L.Flat a b e X k) (ht : L.tri = s.tri) :
    ∃ K t, m.applyLam P L = .ok K ∧ L.Thick a b e X k t ∧ CrushW L K m.target b X k t ∧ ∃ x ∈ X, x ≠ b ∧ L.lf x = k + t := by
  obtain ⟨v, C, sh⟩ := h.short
  obtain ⟨t, t1, t2, t3, t4, t5⟩ := hf.thick
  obtain ⟨g, g1, g2, g3⟩ := crush_apply sh h.edge h.curve h.source t4 ht t1 t2 t3
  have mk : ∀ cl, CrushW L ⟨m.target, g, cl⟩ m.target b X k t := by
    intro cl
    refine ⟨rfl, ⟨h.target.valid, by rw [g2, ht, h.target.zeta]⟩, fun x hx => ?_⟩
    conv_lhs => unfold w
    show g[(norm x).toNat]?.getD 0 = _
    rw [g3 x (by rw [ht]; exact h.target.label.1 hx)]; rfl
  have hc : Crushed L.tri m.target b e := by rw [ht]; exact h.target
  obtain ⟨K, k1, k2, k3⟩ := lamination_total hP (T := m.target) (ws := g) ((mk _).corners t4 hc).1
  refine ⟨K, t, by rw [g1, k1], t4, ?_, t5⟩
  obtain ⟨K1, K2, K3⟩ := K
  cases k2
  cases k3
  exact mk _

end Crushing

/-- what is left after crushing does not end at the new vertices -/
theorem CrushW.clear (h : CrushW L K T' b X k t) (hth : L.Thick a b e X k t) (hc : Crushed L.tri T' b e) : K.Clear b e X := by
  obtain ⟨c1, c2, c3, c4, c5⟩ := h.corners hth hc
  have hl := hth.flat.belt.loop
  have B := hl.fan.base
  have nn := norm_ne B
  have lab : ∀ {x}, L.tri.IsLabel x → T'.IsLabel x := fun hx => hc.label.2 hx
  refine ⟨c1, ?_, by rw [c4], ?_, ?_⟩
  · rw [h.w b (lab B.labels.2.1), if_pos rfl]; exact hth.flat.belt.nonneg
  · intro x hx hn
    have lx := hl.label_mem (x := x) (by simp [hx])
    rw [h.w x (lab lx), if_neg hn]
    have hp := hth.flat.pos x hx
    have xa : x ≠ a := by rintro rfl; exact hl.a_notin hx
    have xb : x ≠ b := by rintro rfl; exact hn rfl
    have dual0 : ∀ {x}, L.tri.IsLabel x → x ≠ a ∧ x ≠ b ∧ x ≠ e → (k + t) * cn X x ≤ max (L.w x) 0 := by
      intro x lx hne
      obtain ⟨y, z, hg⟩ := hl.valid.comp.exists_glues lx
      have := (hth.dual hg hne).1
      unfold TriDual at this
      rcases this with q | q | q | q <;> omega
    by_cases q : x = e
    · have := dual0 (isLabel_inv.2 lx) ⟨fun w => B.en (by rw [← w, Curver.inv_inv, q]), fun w => B.bi (by rw [← w, q]), fun w => Curver.inv_ne x (by rw [w, q])⟩
      rw [w_inv, cn_inv] at this
      omega
    · have := dual0 lx ⟨xa, xb, q⟩
      omega
  · intro x hx h1 h2
    have lx := hl.label_mem (x := x) (by simp [hx])
    have xa : x ≠ a := by rintro rfl; exact hl.a_notin hx
    rw [c5 x lx ⟨xa, h1, h2⟩, List.count_eq_one_of_mem hl.nodup hx]
    have := hth.room x hx h1
    push_cast; omega

theorem CrushW.noArcs (h : CrushW L K T' b X k t) (hth : L.Thick a b e X k t) (hc : Crushed L.tri T' b e) (hL : L.NoArcs) : K.NoArcs := by
  obtain ⟨c1, c2, c3, c4, c5⟩ := h.corners hth hc
  have cl := h.clear hth hc
  have hl := hth.flat.belt.loop
  have B := hl.fan.base
  have nn := norm_ne B
  have k0 := hth.flat.belt.nonneg
  have lf0 : ∀ x, K.tri.IsLabel x → 0 ≤ K.lf x := by
    intro x hx
    rw [h.tri] at hx
    have lx := hc.label.1 hx
    by_cases qa : x = a
    · rw [qa, c2]; exact k0
    by_cases qb : x = b
    · rw [qb, c3]; exact k0
    by_cases qi : x = inv b
    · rw [qi, c4]
    have lm := B.mu_label lx
    by_cases q : crushLabel b e x ∈ X
    · by_cases q' : crushLabel b e x = e
      · exfalso
        have := congrArg (crushLabel b e) q'
        rw [B.mu_mu, Base.mu_e] at this
        exact qi this
      · have := cl.left _ q (fun q => by
          have := congrArg (crushLabel b e) q
          rw [B.mu_mu, Base.mu_other B.nes.2.1 (Curver.inv_ne b).symm] at this
          exact qb this) q'
        rwa [B.mu_mu] at this
    · have := c5 (crushLabel b e x) lm ⟨?_, ?_, ?_⟩
      · rw [B.mu_mu, List.count_eq_zero.2 q] at this
        have := hL.lf_nonneg lm
        omega
      · intro q
        have := congrArg (crushLabel b e) q
        rw [B.mu_mu, Base.mu_other B.nes.2.2.symm (fun q => B.bn (inv_eq_iff.1 q.symm))] at this
        exact qa this
      · intro q
        have := congrArg (crushLabel b e) q
        rw [B.mu_mu, Base.mu_other B.nes.2.1 (Curver.inv_ne b).symm] at this
        exact qb this
      · intro q
        have := congrArg (crushLabel b e) q
        rw [B.mu_mu, Base.mu_e] at this
        exact qi this
  apply noArcs_of_lf c1 _ lf0
  intro x hx
  rw [h.tri] at hx
  have lx := hc.label.1 hx
  by_cases q : x ∈ X ∧ norm x ≠ norm b
  · exact cl.pos x q.1 q.2
  by_cases q' : inv x ∈ X ∧ norm x ≠ norm b
  · have := cl.pos _ q'.1 (by rw [norm_inv]; exact q'.2)
    rwa [w_inv] at this
  rw [h.w x hx]
  split_ifs with w
  · exact k0
  · have : cn X x = 0 := by
      unfold cn
      rw [List.count_eq_zero.2 (fun r => q ⟨r, w⟩), List.count_eq_zero.2 (fun r => q' ⟨r, w⟩)]; rfl
    rw [this]
    have := hL.nonneg lx
    omega

namespace Crushing
variable {m : CrushMove}

/-- lifting what has no arcs -/
theorem lift (h : Crushing P s m a b e X) (hP : ∀ L, ∃ c, P L = .ok c) (hN : N.NoArcs) (ht : N.tri = m.target) :
    ∃ M, m.liftLam P N = .ok M ∧ LiftW N M s.tri b e X := by
  have cl := hN.clear h.loop h.target ht
  obtain ⟨M, m1, m2⟩ := h.lift_linear hP cl ht
  refine ⟨M, ?_, m2⟩
  obtain ⟨vs, v1, v2⟩ := h.verts
  unfold CrushMove.liftLam
  have : pyAllM (fun edge => do
      let w ← N.wt edge
      if 0 ≤ w then do
        let l ← N.leftWeight edge
        return decide (0 ≤ l)
      else return false) m.vertices.flatten = .ok true := by
    rw [pyAllM_ok_iff]
    intro x hx
    obtain ⟨v, hv, hx⟩ := List.mem_flatten.1 hx
    have lx : N.tri.IsLabel x := by
      rw [ht]
      exact (star_of_mem h.target.valid v1 ((v2 v).1 hv).1).basic.2.1 x hx
    obtain ⟨y, z, hg⟩ := hN.1.1.comp.exists_glues lx
    rw [wt_eq hN.1.2 lx, py_bind_ok, if_pos (hN.nonneg lx), (hN.lf_spec hg).1, py_bind_ok, decide_eq_true (hN.lf_spec hg).2.2]
    rfl
  rw [this, py_bind_ok]
  simp only [pyAssert, if_true, py_bind_ok]
  rw [h.source, m1]

/-- lifting after crushing: weights -/
theorem lift_w (hth : L.Thick a b e X k t) (hK : CrushW L K T' b X k t) (hc : Crushed L.tri T' b e) (hM : LiftW K M L.tri b e X) {x : Int} (hx : L.tri.IsLabel x) : M.w x = L.w x - t * cn X x := by
  have hl := hth.flat.belt.loop
  have B := hl.fan.base
  have nn := norm_ne B
  have tr := hth.tri
  rw [hM.w x hx, hK.w b (hc.label.2 B.labels.2.1), if_pos rfl]
  split_ifs with q
  · have e1 : cn X x = cn X e := by
      rw [show cn X x = cn X b from ?_, hl.cn_b, hl.cn_e]
      rcases norm_eq_iff.1 q with q | q
      · rw [q]
      · rw [q, cn_inv]
    have e2 : L.w x = L.w e := by rw [wnorm q, tr.2.1, tr.2.2.1]
    rw [hK.w e (hc.label.2 B.labels.2.2), if_neg nn.1, e1, e2]; ring
  · rw [hK.w x (hc.label.2 hx), if_neg q]; ring

/-- lifting after crushing -/
theorem lift_crush (hth : L.Thick a b e X k t) (hK : CrushW L K T' b X k t) (hc : Crushed L.tri T' b e) (hM : LiftW K M L.tri b e X) (hx : ∃ x ∈ X, x ≠ b ∧ L.lf x = k + t) :
    L.Unions (List.replicate t.toNat (L.tri.curveFromCutSequence X) ++ [M]) ∧ ¬ ∃ Y, M.IsUnion (L.tri.curveFromCutSequence X) Y := by
  have hl := hth.flat.belt.loop
  have B := hl.fan.base
  have tr := hth.tri
  have nn := norm_ne B
  have t0 := hth.nonneg
  have cl := hK.clear hth hc
  obtain ⟨f1, f2, f3⟩ := hM.flat cl hl hc hK.tri
  obtain ⟨c1, c2, c3, c4, c5⟩ := hK.corners hth hc
  constructor
  · obtain ⟨M2, p1, p2, p3, p4⟩ := Belt.peels t.toNat hth.belt (by omega)
    have sm : Same M2 M := by
      refine same_of_w p2.con.1 hM.wf (by rw [p3, hM.tri]) ?_
      intro x hx
      rw [p3] at hx
      rw [(p4 x hx).2, lift_w hth hK hc hM hx, Int.toNat_of_nonneg t0]
    refine p1.unions ?_
    have u := unions_self p2.con.1
    exact u.congr p2.con (.cons sm .nil)
  · rintro ⟨Y, hY⟩
    rw [← hM.tri] at hY
    obtain ⟨a', ha'⟩ := belt_of_part f1.belt.con f1.belt.loop hY
    have e1 : a' = k := by rw [← ha'.first, f1.belt.first, c2]
    subst e1
    obtain ⟨x, x1, x2, x3⟩ := hx
    have r := ha'.room x x1 x2
    have lx := hl.label_mem (x := x) (by simp [x1])
    have xa : x ≠ a := by rintro rfl; exact hl.a_notin x1
    have wb : K.w b = a' := by rw [hK.w b (hc.label.2 B.labels.2.1), if_pos rfl]
    by_cases q : x = e
    · subst q
      rw [f3, hK.w x (hc.label.2 B.labels.2.2), if_neg nn.1, tr.2.2.1, x3, c2, wb, hl.cn_e, List.count_eq_one_of_mem hl.nodup x1] at r
      push_cast at r
      nlinarith
    · rw [f2 x lx ⟨xa, x2, q⟩, c5 x lx ⟨xa, x2, q⟩, List.count_eq_one_of_mem hl.nodup x1, wb, x3] at r
      push_cast at r
      omega

/-- crushing after lifting -/
theorem crush_lift (hN : N.NoArcs) (hl : Loop T a b e X) (hc : Crushed T T' b e) (htN : N.tri = T') (hM : LiftW N M T b e X) (hth : M.Thick a b e X k t) (hk : k = N.lf a) (hK : CrushW M K T' b X k t)
    (hx : ∃ x ∈ X, x ≠ b ∧ M.lf x = k + t) {v1 v2 : List Int} (s1 : T'.Star v1) (h1 : ∀ x, T'.IsLabel x → v1.count x = if x = inv b then 1 else 0)
    (s2 : T'.Star v2) (h2 : ∀ x, T'.IsLabel x → v2.count x = if norm x = norm b then 0 else X.count x) :
    ∃ p q : Nat, N.Unions (List.replicate p (T'.curveFromCutSequence v1) ++ List.replicate q (T'.curveFromCutSequence v2) ++ [K]) ∧
      ¬ (∃ Y, K.IsUnion (T'.curveFromCutSequence v1) Y) ∧ ¬ ∃ Y, K.IsUnion (T'.curveFromCutSequence v2) Y := by
  have B := hl.fan.base
  have nn := norm_ne B
  have cl := hN.clear hl hc htN
  have fo := cl.fold hc B htN
  obtain ⟨f1, f2, f3⟩ := hM.flat cl hl hc htN
  have lab : ∀ {x}, T.IsLabel x → N.tri.IsLabel x := fun hx => by rw [htN]; exact hc.label.2 hx
  have mem1 : ∀ x, x ∈ v1 ↔ x = inv b := by
    intro x
    constructor
    · intro hx
      by_contra q
      have := h1 x (s1.basic.2.1 x hx)
      rw [if_neg q, List.count_eq_zero] at this
      exact this hx
    · intro hx
      rw [← List.count_pos_iff, h1 x (by rw [hx]; exact hc.label.2 (isLabel_inv.2 B.labels.2.1)), if_pos hx]; omega
  have mem2 : ∀ x, x ∈ v2 ↔ x ∈ X ∧ norm x ≠ norm b := by
    intro x
    constructor
    · intro hx
      have := h2 x (s2.basic.2.1 x hx)
      rw [List.count_eq_one_of_mem s2.basic.1 hx] at this
      split_ifs at this with q
      exact ⟨List.count_pos_iff.1 (by omega), q⟩
    · rintro ⟨hx, hn⟩
      rw [← List.count_pos_iff, h2 x (hc.label.2 (hl.label_mem (by simp [hx]))), if_neg hn]
      exact List.count_pos_iff.2 hx
  -- the left weights on the right
  have q0 : ∀ x ∈ v2, k + t - N.w b ≤ N.lf x := by
    intro x hx
    obtain ⟨x1, x2⟩ := (mem2 x).1 hx
    have lx := hl.label_mem (x := x) (by simp [x1])
    have xa : x ≠ a := by rintro rfl; exact hl.a_notin x1
    have xb : x ≠ b := by rintro rfl; exact x2 rfl
    have xi : x ≠ inv b := by rintro rfl; exact x2 (norm_inv b)
    by_cases q : x = e
    · subst q
      have ib : inv b ∈ X := by
        rw [← List.count_pos_iff, ← hl.count_e]; exact List.count_pos_iff.2 x1
      have := hth.room _ ib (Curver.inv_ne b)
      rw [f2 _ (isLabel_inv.2 B.labels.2.1) ⟨fun w => B.bn (inv_eq_iff.1 w), Curver.inv_ne b, fun w => B.bi (inv_eq_iff.1 w)⟩, B.mu_ib, List.count_eq_one_of_mem hl.nodup ib] at this
      push_cast at this
      omega
    · have := hth.room x x1 xb
      rw [f2 x lx ⟨xa, xb, q⟩, Base.mu_other q xi, List.count_eq_one_of_mem hl.nodup x1] at this
      push_cast at this
      omega
  -- the least one
  have q1 : ∃ x ∈ v2, N.lf x ≤ k + t - N.w b := by
    obtain ⟨x, x1, x2, x3⟩ := hx
    have lx := hl.label_mem (x := x) (by simp [x1])
    have xa : x ≠ a := by rintro rfl; exact hl.a_notin x1
    by_cases q : x = e
    · subst q
      refine ⟨x, (mem2 x).2 ⟨x1, nn.1⟩, ?_⟩
      rw [f3, hl.cn_e, List.count_eq_one_of_mem hl.nodup x1] at x3
      push_cast at x3
      have : N.lf x ≤ N.w x := by
        obtain ⟨y, z, hg⟩ := hN.1.1.comp.exists_glues (lab lx)
        exact (hN.le_w hg).1
      have := cl.lb
      have := fo.2.2.1
      omega
    · by_cases q' : x = inv b
      · subst q'
        rw [f2 _ lx ⟨xa, x2, q⟩, B.mu_ib, List.count_eq_one_of_mem hl.nodup x1] at x3
        push_cast at x3
        refine ⟨e, (mem2 e).2 ⟨?_, nn.1⟩, by omega⟩
        rw [← List.count_pos_iff, hl.count_e]; exact List.count_pos_iff.2 x1
      · rw [f2 _ lx ⟨xa, x2, q⟩, Base.mu_other q q', List.count_eq_one_of_mem hl.nodup x1] at x3
        push_cast at x3
        refine ⟨x, (mem2 x).2 ⟨x1, ?_⟩, by omega⟩
        intro w
        rcases norm_eq_iff.1 w with w | w
        · exact x2 w
        · exact q' w
  have q2 : 0 ≤ k + t - N.w b := by
    obtain ⟨x, x1, x2⟩ := q1
    have := hN.lf_nonneg (x := x) (by rw [htN]; exact s2.basic.2.1 x x1)
    omega
  have kl : k + N.lf (inv b) = N.w b := by rw [hk]; omega
  obtain ⟨c1, c2, c3, c4, c5⟩ := hK.corners hth (by rw [hM.tri]; exact hc)
  -- peel
  have e1 := Hub.peels (N.lf (inv b)).toNat (v := v1) (k := N.lf (inv b)) (L := N) ⟨cl.con, by rw [htN]; exact s1, fun x hx => by rw [(mem1 x).1 hx]⟩ (by have := cl.lb; omega)
  rw [htN] at e1
  obtain ⟨N1, n1, n2, n3, n4⟩ := e1
  have lf1 : ∀ x ∈ v2, N1.lf x = N.lf x := by
    intro x hx
    have lx := s2.basic.2.1 x hx
    rw [(n4 x lx).1, h1 x lx, if_neg]
    · simp
    · rintro rfl; exact ((mem2 _).1 hx).2 (norm_inv b)
  have e2 := Hub.peels (k + t - N.w b).toNat (v := v2) (k := k + t - N.w b) (L := N1) ⟨n3, by rw [n2]; exact s2, fun x hx => by rw [lf1 x hx]; exact q0 x hx⟩ (by omega)
  rw [n2] at e2
  obtain ⟨N2, o1, o2, o3, o4⟩ := e2
  have sm : Same N2 K := by
    refine same_of_w o3.1 hK.wf (by rw [o2, hK.tri]) ?_
    intro x hx
    rw [o2] at hx
    have lx := hc.label.1 hx
    have hlb := cl.lb
    rw [(o4 x hx).2, (n4 x hx).2, h1 x hx, h1 _ (isLabel_inv.2 hx), h2 x hx, h2 _ (isLabel_inv.2 hx), norm_inv, hK.w x hx, Int.toNat_of_nonneg q2, Int.toNat_of_nonneg hlb, hM.w x lx]
    by_cases q : norm x = norm b
    · simp only [if_pos q]
      rw [wnorm q]
      rcases norm_eq_iff.1 q with q' | q'
      · subst q'; rw [if_neg (Curver.inv_ne x).symm, if_pos rfl]; push_cast; omega
      · subst q'; rw [if_pos rfl, Curver.inv_inv, if_neg (Curver.inv_ne b).symm]; push_cast; omega
    · simp only [if_neg q]
      rw [if_neg (fun q' => q (by rw [q', norm_inv])), if_neg (fun q' => q (by rw [inv_inj.1 q']))]
      unfold cn
      push_cast; ring
  refine ⟨(N.lf (inv b)).toNat, (k + t - N.w b).toNat, ?_, ?_, ?_⟩
  · rw [List.append_assoc]
    exact n1.unions (o1.unions ((unions_self o3.1).congr o3 (.cons sm .nil)))
  · rintro ⟨Y, hY⟩
    have := hub_of_part c1 (v := v1) (N := Y) (by rw [hK.tri]; exact s1) (by rw [hK.tri]; exact hY) ((mem1 _).2 rfl)
    rw [c4] at this
    omega
  · rintro ⟨Y, hY⟩
    obtain ⟨x, x1, x2⟩ := q1
    have := hub_of_part c1 (v := v2) (N := Y) (by rw [hK.tri]; exact s2) (by rw [hK.tri]; exact hY) x1
    have lx := s2.basic.2.1 x x1
    rw [← lf_same (sm.1) (sm.2), (o4 x lx).1, lf1 x x1, List.count_eq_one_of_mem s2.basic.1 x1, Int.toNat_of_nonneg q2] at this
    push_cast at this
    omega

end Crushing

end Lam
end Curver
