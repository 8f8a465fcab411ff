import Verif.Proofs.Filling
import Verif.Proofs.Topology2
import Verif.Props.Termination

/-!
# Filling multiarcs
-/

namespace Curver
open Triangulation

namespace Triangulation
variable {T : Triangulation}

theorem ConnectedSurface.component (hT : T.Valid) (h : T.ConnectedSurface) : ∃ comp, T.components = .ok [comp] ∧ (∀ e, e ∈ comp ↔ T.IsLabel e) ∧ comp.length = 2 * T.zeta := by
  obtain ⟨b, b1, b2⟩ := C35_connected T hT h.1
  have := b2.2 h.2
  subst this
  obtain ⟨cs, h1, h2, h3, h4, h5⟩ := C35_components T hT
  unfold isConnected at b1
  rw [h1, py_bind_ok] at b1
  injection b1 with b1
  obtain ⟨comp, rfl⟩ := List.length_eq_one_iff.1 (beq_iff_eq.1 b1)
  refine ⟨comp, h1, fun e => by rw [h2]; simp, ?_⟩
  obtain ⟨cs', c1, c2, _⟩ := hT.comp.components_ok
  rw [h1] at c1; cases c1
  have := c2.length_eq
  rw [length_labels] at this
  simpa using this

theorem ConnectedSurface.three_iff (hT : T.Valid) (h : T.ConnectedSurface) {vs : List (List Int)} (hvs : T.vertices = .ok vs) : vs.length = T.zeta ↔ vs.length = 3 ∧ T.zeta = 3 := by
  refine ⟨fun e => ?_, fun e => by rw [e.1, e.2]⟩
  obtain ⟨comp, c1, c2, c3⟩ := h.component hT
  obtain ⟨vs', cs, a1, a2, a3, -⟩ := hT.surface_spec
  rw [hvs] at a1; cases a1
  rw [c1] at a2; cases a2
  simp only [List.map_cons, List.map_nil] at a3
  obtain ⟨E, F, b1, b2, b3, b4, b5, b6, b7, b8, b9⟩ := hT.surface_exact hvs a3 comp _ _ _ (List.mem_singleton.2 rfl)
  obtain ⟨k1, k2, k3, k4⟩ := hT.comp.vertices_mem hvs
  have hp : (vs.filter (fun v => v.all (· ∈ comp))).length = vs.length := by
    congr 1
    rw [List.filter_eq_self]
    intro v hv
    rw [List.all_eq_true]
    intro x hx
    simpa using (c2 x).2 ((k2 v hv).2.2 x hx)
  rw [hp] at b5
  rw [b5] at b6
  omega

end Triangulation

namespace Lam
variable {L K s X Y S B M A C : Lam Int}

theorem EndsAt.iff {x : Int} : s.EndsAt x ↔ ∃ y, s.tri.SV x y ∧ s.w y < 0 := by
  unfold EndsAt SV
  constructor
  · rintro ⟨v, h1, y, h2, h3⟩
    exact ⟨y, ⟨v, h1, h2⟩, h3⟩
  · rintro ⟨y, ⟨v, h1, h2⟩, h3⟩
    exact ⟨v, h1, y, h2, h3⟩

theorem EndsAt.sv (hs : s.Consistent) {x y : Int} (hx : s.tri.IsLabel x) (h : s.tri.SV x y) : s.EndsAt x ↔ s.EndsAt y := by
  have hc := hs.1.1.comp
  rw [EndsAt.iff, EndsAt.iff]
  constructor
  · rintro ⟨z, h1, h2⟩
    exact ⟨z, hc.sv_trans (hc.sv_label hx h) (hc.sv_symm hx h) h1, h2⟩
  · rintro ⟨z, h1, h2⟩
    exact ⟨z, hc.sv_trans hx h h1, h2⟩

theorem EndsAt.glues (hs : s.Consistent) {a b c : Int} (hg : s.tri.Glues a b c) : s.EndsAt a ↔ s.EndsAt (Curver.inv c) :=
  EndsAt.sv hs (hs.1.1.comp.label_of_glues hg).1 (hs.1.1.comp.sv_glues (by rw [Curver.inv_inv]; exact hg))

/-- a multiarc along edges of a connected surface fills it if its boundary is peripheral -/
theorem fills_of_outline (hs : s.Consistent) (hle : ∀ x, s.tri.IsLabel x → s.w x ≤ 0) (hcs : s.tri.ConnectedSurface) (hnb : ¬ s.Blank) (hB : B.NoArcs) (ho : B.IsOutline s)
    (hp : B.Peripheral) : s.Fills := by
  classical
  have hT := hs.1.1
  have hc := hT.comp
  intro M hM hd
  obtain ⟨m, hm⟩ := (peripheral_iff hB).1 hp
  have hBt := ho.tri
  have m0 : ∀ x, s.tri.IsLabel x → 0 ≤ m x := fun x hx => hm.nonneg hB (by rw [hBt]; exact hx)
  have mw : ∀ x, s.tri.IsLabel x → B.w x = m x + m (Curver.inv x) := fun x hx => hm.w x (by rw [hBt]; exact hx)
  have msv : ∀ x y, s.tri.IsLabel x → s.tri.SV x y → m x = m y := fun x y hx h => hm.const x y (by rw [hBt]; exact hx) (by rw [hBt]; exact h)
  have inv_tail : ∀ {a b c}, s.tri.Glues a b c → s.tri.SV b (Curver.inv a) := fun {a b c} hg => hc.sv_glues (b := c) (by rw [Curver.inv_inv]; exact hg.rot)
  -- (1)
  have h1 : ∀ x, s.tri.IsLabel x → s.EndsAt x → m x = 0 := by
    intro x hx he
    obtain ⟨y, y1, y2⟩ := (EndsAt.iff).1 he
    have ly := hc.sv_label hx y1
    have := ho.sheltered y ly (fun M hM hd => hd.zero hM ly y2)
    rw [mw y ly] at this
    have a := m0 y ly
    have b := m0 _ (isLabel_inv.2 ly)
    rw [msv x y hx y1]; omega
  -- (2)
  have h2 : ∀ x, s.tri.IsLabel x → ¬ s.EndsAt x → ¬ s.Sheltered x := by
    intro x hx he hsh
    obtain ⟨v, _, k1, _, _, k4, _⟩ := hc.vertexOf_ok hx
    have hK := link_noArcs hT ⟨x, hx, k1⟩
    have := hsh _ hK (disjoint_of_support hK hs rfl hle (fun y hy py => by
      rw [link_w v hy] at py
      have : ∀ z, z ∈ v → 0 ≤ s.w z := by
        intro z hz
        by_contra q
        exact he ⟨v, k1, z, hz, by omega⟩
      have hy' := hle y hy
      by_cases q : y ∈ v
      · have := this y q
        omega
      · by_cases q' : Curver.inv y ∈ v
        · have := this _ q'
          rw [w_inv] at this
          omega
        · rw [List.count_eq_zero.2 q, List.count_eq_zero.2 q'] at py
          simp at py))
    rw [link_w v hx] at this
    have := List.count_pos_iff.2 k4
    omega
  have h3 : ∀ x, s.tri.IsLabel x → ¬ s.EndsAt x → m x + m (Curver.inv x) = if s.EndsAt (Curver.inv x) then 1 else 0 := by
    intro x hx he
    rw [← mw x hx, ho.outside x hx (h2 x hx he), if_neg he, zero_add]
  have h4 : ∀ x, s.tri.IsLabel x → ¬ s.EndsAt x → m x ≠ 0 := by
    intro x hx he h0
    apply hnb
    have all : ∀ y, s.tri.Joined x y → s.tri.IsLabel y ∧ ¬ s.EndsAt y ∧ m y = 0 := by
      intro y hj
      have sym : ∀ x, s.tri.IsLabel x → ¬ s.EndsAt x → m x = 0 → ¬ s.EndsAt (Curver.inv x) ∧ m (Curver.inv x) = 0 := by
        intro x hx he h0
        have k := h3 x hx he
        by_cases q : s.EndsAt (Curver.inv x)
        · have := h1 _ (isLabel_inv.2 hx) q
          rw [if_pos q] at k
          omega
        · rw [if_neg q] at k
          exact ⟨q, by omega⟩
      induction hj with
      | refl => exact ⟨hx, he, h0⟩
      | tail _ ha ih =>
        rename_i y z _
        obtain ⟨i1, i2, i3⟩ := ih
        obtain ⟨j1, j2⟩ := sym _ i1 i2 i3
        rcases ha with rfl | ⟨c, hg⟩
        · exact ⟨isLabel_inv.2 i1, j1, j2⟩
        · have l := hc.label_of_glues hg
          have sv := inv_tail hg
          exact ⟨l.2.1, fun q => j1 ((EndsAt.sv hs l.2.1 sv).1 q), by rw [msv _ _ l.2.1 sv]; exact j2⟩
    intro y hy
    have := (all y (hcs.2 x y hx hy)).2.1
    have h' := hle y hy
    by_contra q
    exact this ((EndsAt.iff).2 ⟨y, hc.sv_refl hy, by omega⟩)
  have h5 : ∀ x, s.tri.IsLabel x → ¬ s.EndsAt x → s.EndsAt (Curver.inv x) := by
    intro x hx he
    by_contra q
    have k := h3 x hx he
    rw [if_neg q] at k
    have a := m0 x hx
    have b := m0 _ (isLabel_inv.2 hx)
    exact h4 x hx he (by omega)
  have h6 : ∀ x, s.tri.IsLabel x → s.EndsAt x → s.EndsAt (Curver.inv x) → M.w x = 0 := by
    intro x hx e1 e2
    have : s.Sheltered x := by
      by_contra q
      have := ho.outside x hx q
      rw [if_pos e1, if_pos e2, mw x hx, h1 x hx e1, h1 _ (isLabel_inv.2 hx) e2] at this
      omega
    exact this M hM hd
  have ht := hd.tri
  refine (peripheral_iff hM).2 ⟨fun x => if s.EndsAt x then 0 else M.w x, ?_, ?_⟩
  · intro x y hx hxy
    rw [ht] at hx hxy
    have := hc.sv_induct hx hxy (fun z => s.tri.IsLabel z ∧ s.tri.SV x z ∧ (¬ s.EndsAt x → M.w z = M.w x)) ⟨hx, hc.sv_refl hx, fun _ => rfl⟩ (by
      rintro z hz ⟨-, z1, z2⟩
      obtain ⟨b, c, hg⟩ := hc.exists_glues hz
      have e := Sweep.spin_eq hc hg
      have l := hc.label_of_glues hg
      refine ⟨hc.isLabel_spin hz, hc.sv_trans hx z1 (hc.sv_spin hz), fun he => ?_⟩
      rw [← z2 he, e, w_inv]
      have hez : ¬ s.EndsAt z := fun q => he ((EndsAt.sv hs hx z1).2 q)
      have eb : s.EndsAt b := (EndsAt.sv hs l.2.1 (inv_tail hg)).2 (h5 z hz hez)
      have ec : ¬ s.EndsAt (Curver.inv c) := fun q => hez ((EndsAt.glues hs hg).2 q)
      have ec' := h5 _ (isLabel_inv.2 l.2.2) ec
      rw [Curver.inv_inv] at ec'
      have eb' : s.EndsAt (Curver.inv b) := (EndsAt.sv hs l.2.2 (inv_tail hg.rot)).1 ec'
      have wb := h6 b l.2.1 eb eb'
      have t := (noArcs_iff.1 hM).2
      have t1 := t z b c (by rw [ht]; exact hg)
      have t3 := t c z b (by rw [ht]; exact hg.rot.rot)
      omega)
    have e := EndsAt.sv hs hx hxy
    by_cases q : s.EndsAt x
    · simp only [if_pos q, if_pos (e.1 q)]
    · simp only [if_neg q, if_neg (fun r => q (e.2 r))]
      exact (this.2.2 q).symm
  · intro x hx
    rw [ht] at hx
    by_cases q : s.EndsAt x
    · by_cases q' : s.EndsAt (Curver.inv x)
      · simp only [if_pos q, if_pos q']
        rw [h6 x hx q q']; rfl
      · simp only [if_pos q, if_neg q']
        rw [w_inv]; omega
    · simp only [if_neg q, if_pos (h5 x hx q)]
      omega

theorem disjoint_noArcs (hS : S.Consistent) (hu : S.IsUnion X Y) (hX : X.NoArcs) (hY : Y.NoArcs) : S.NoArcs := by
  rw [noArcs_iff]
  refine ⟨hS, fun a b c hg => ?_⟩
  have w := hu.wf
  have l := hS.1.1.comp.label_of_glues hg
  rw [hu.sum hS.1 l.1, hu.sum hS.1 l.2.1, hu.sum hS.1 l.2.2]
  have t1 := (noArcs_iff.1 hX).2 a b c (by rw [w.2.2.1]; exact hg)
  have t2 := (noArcs_iff.1 hY).2 a b c (by rw [w.2.2.2]; exact hg)
  omega

/-- laminations that do not cross each other in pairs can be drawn together -/
theorem flag (hL : L.Consistent) (hu : L.IsUnion A C) (hA : A.OnlyHasArcs) (hC : C.NoArcs) (hM : M.NoArcs) (h1 : M.DisjointFrom A) (h2 : M.DisjointFrom C) : M.DisjointFrom L := by
  have cA := (hu.consistent hL).1
  have wu := hu.wf
  obtain ⟨⟨s, g⟩, N, hN⟩ := Lam.shorten_returns (P := fun _ => .ok .curve) (dflt := fun _ _ => false) cA (fun _ _ => rfl)
  have hsh := hN N le_rfl
  obtain ⟨l, ls, lt, hs, K, k1, hK, k2, k3⟩ := Lam.shorten_same cA hsh
  have hle := hA.short cA hsh
  obtain ⟨M', m1, m2⟩ := h1.enc l ls.symm k1
  have hM' := l.noArcs hM m1
  obtain ⟨⟨L', l1⟩, l2⟩ := l.applyLam_total ⟨L, hL, wu.2.2.1.symm.trans ls.symm⟩
  dsimp only at l2
  obtain ⟨X, C', x1, x2, x3⟩ := hu.enc hL l l2
  rw [k1] at x1
  injection x1 with x1
  subst x1
  have hC' := l.noArcs hC x2
  have hL' := hL.enc l l2
  obtain ⟨M'', n1, n2⟩ := h2.enc l (wu.2.2.2.trans (wu.2.2.1.symm.trans ls.symm)) x2
  rw [m1] at n1
  injection n1 with n1
  subst n1
  obtain ⟨S, s1, s2⟩ := n2
  have hS := disjoint_noArcs s1 s2 hM' hC'
  have ws := s2.wf
  have ts : S.tri = s.tri := ws.2.2.2.symm.trans ((l.undo hC.1 x2).2.1.trans ((l.undo cA.1 k1).2.1.symm.trans k2.1))
  have dC : C'.DisjointFrom s := by
    have : C'.DisjointFrom K := ⟨L', hL', x3.symm⟩
    exact this.same .refl k2
  have dM : M'.DisjointFrom s := m2.same .refl k2
  obtain ⟨U, u1, u2⟩ := disjoint_of_support hS hs ts hle (fun x hx px => by
    by_contra q
    have hlt : s.w x < 0 := lt_of_le_of_ne (hle x hx) q
    rw [s2.sum s1.1 (by rw [ts]; exact hx), dC.zero hC' hx hlt, dM.zero hM' hx hlt] at px
    simp at px)
  obtain ⟨V, v1, v2⟩ := u2.assoc' u1 s2
  have cV := (v1.consistent u1).2
  have e : Same V L' := by
    have wv := v2.wf
    have w3 := x3.wf
    have et : V.tri = L'.tri := wv.2.2.1.symm.trans w3.2.2.2
    refine same_of_w cV.1 hL'.1 et (fun x hx => ?_)
    rw [v2.sum cV.1 hx, x3.sum hL'.1 (by rw [← et]; exact hx), k2.w]
    ring
  have d : M'.DisjointFrom L' := DisjointFrom.same ⟨U, u1, v1⟩ .refl e
  obtain ⟨M3, q1, q2⟩ := d.enc l.inv' (l.undo hL.1 l2).2.1 (l.undo hL.1 l2).2.2.2
  rw [(l.undo hM.1 m1).2.2.2] at q1
  injection q1 with q1
  subst q1
  exact q2

/-- curves around vertices can be moved away from all others -/
theorem Peripheral.disjoint (hM : M.NoArcs) (hC : C.NoArcs) (hp : C.Peripheral) (ht : M.tri = C.tri) : M.DisjointFrom C := by
  obtain ⟨m, hm⟩ := (peripheral_iff hC).1 hp
  have hT := hC.1.1
  have hc := hT.comp
  have hM' := noArcs_iff.1 hM
  have hC' := noArcs_iff.1 hC
  let S : Lam Int := make C.tri (fun x => M.w x + C.w x) .integral
  have wS : ∀ x, C.tri.IsLabel x → S.w x = M.w x + C.w x := fun x hx => make_w _ (fun y => by rw [w_inv, w_inv]) hx
  have hS : S.NoArcs := by
    rw [noArcs_iff, consistent_iff]
    refine ⟨⟨make_wellFormed hT _ _, fun a b c hg => ?_⟩, fun a b c hg => ?_⟩
    · have hg : C.tri.Glues a b c := hg
      have l := hc.label_of_glues hg
      rw [wS a l.1, wS b l.2.1, wS c l.2.2]
      have hgM : M.tri.Glues a b c := by rw [ht]; exact hg
      have t1 := hM'.2 a b c hgM
      have t2 := hM'.2 b c a hgM.rot
      have t3 := hM'.2 c a b hgM.rot.rot
      have u1 := hC'.2 a b c hg
      have u2 := hC'.2 b c a hg.rot
      have u3 := hC'.2 c a b hg.rot.rot
      have e1 := (consistent_iff.1 hM'.1).2 a b c hgM (by omega) (by omega) (by omega)
      have e2 := (consistent_iff.1 hC'.1).2 a b c hg (by omega) (by omega) (by omega)
      rw [max_eq_left t1.1, max_eq_left t2.1, max_eq_left t3.1] at e1
      rw [max_eq_left u1.1, max_eq_left u2.1, max_eq_left u3.1] at e2
      intro _ _ _
      rw [max_eq_left (by omega), max_eq_left (by omega), max_eq_left (by omega)]
      obtain ⟨i, hi⟩ := e1
      obtain ⟨j, hj⟩ := e2
      exact ⟨i + j, by omega⟩
    · have hg : C.tri.Glues a b c := hg
      have l := hc.label_of_glues hg
      rw [wS a l.1, wS b l.2.1, wS c l.2.2]
      have t1 := hM'.2 a b c (by rw [ht]; exact hg)
      have u1 := hC'.2 a b c hg
      omega
  have cS := (noArcs_iff.1 hS).1
  obtain ⟨vs, hvs, _⟩ := hc.vertices_ok
  obtain ⟨k1, k2, k3, k4⟩ := hc.vertices_mem hvs
  obtain ⟨Xs, N, p1, p2, p3, -, p5⟩ := links_peel m vs (L := S) cS (fun v hv => by
      obtain ⟨e, he⟩ := List.exists_mem_of_ne_nil _ (k2 v hv).1.ne
      exact ⟨hT, e, (k2 v hv).2.2 e he, hc.vertexOf_of_mem hvs hv he⟩) (List.nodup_flatten.1 k4).2 (fun v hv => by
    obtain ⟨e, he⟩ := List.exists_mem_of_ne_nil _ (k2 v hv).1.ne
    have le := (k2 v hv).2.2 e he
    have ve := hc.vertexOf_of_mem hvs hv he
    have m0 := hm.nonneg hC le
    refine ⟨(m e).toNat, fun x hx => ?_⟩
    have lx := (k2 v hv).2.2 x hx
    have ex : m e = m x := hm.const e x le ⟨v, ve, hx⟩
    refine ⟨by omega, fun _ => ?_⟩
    obtain ⟨b, c, hg⟩ := hc.exists_glues lx
    have l := hc.label_of_glues hg
    have := (hS.lf_spec (x := x) (y := b) (z := c) hg).2.1
    rw [wS _ l.1, wS _ l.2.1, wS _ l.2.2] at this
    obtain ⟨q1, q2, q3⟩ := hm.corner hc hg
    have t := (hM'.2 b c x (by rw [ht]; exact hg.rot)).2
    omega)
  obtain ⟨Y, y1, -⟩ := p1.join cS
  have wy := y1.wf
  have hall : ∀ x, C.tri.IsLabel x → x ∈ vs.flatten := fun x hx => by
    obtain ⟨v, hv, h⟩ := k1 x hx
    exact List.mem_flatten.2 ⟨v, hv, h⟩
  have wN : ∀ x, C.tri.IsLabel x → N.w x = M.w x := by
    intro x hx
    rw [p5 x hx, wS x hx, if_pos (hall x hx), if_pos (hall _ (isLabel_inv.2 hx)), hm.w x hx]
    ring
  have tN : N.tri = C.tri := p2
  refine DisjointFrom.same ⟨S, cS, y1.symm⟩ (same_of_w p3.1 hM.1 (tN.trans ht.symm) (fun x hx => wN x (by rw [← tN]; exact hx)))
    (same_of_w wy.1 hC.1 wy.2.2.1 (fun x hx => ?_))
  have hx' : C.tri.IsLabel x := by rw [wy.2.2.1] at hx; exact hx
  have := y1.sum cS.1 hx'
  rw [wS x hx', wN x hx'] at this
  omega

end Lam
end Curver
