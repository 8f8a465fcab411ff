import Verif.Proofs.ShortArc

/-!
# What a half twist does to laminations
-/

namespace Curver
open Triangulation

theorem flipWeight_zero : flipWeight (0 : Int) 0 0 0 0 = .ok 0 := rfl

namespace Lam
variable {c L : Lam Int} {T S S' : Triangulation} {a x : Int}

/-- flipping another edge -/
theorem IsEdgeArc.flip (h : c.IsEdgeArc S a) (hS : S.Valid) (hf : S.Flippable x) (hm : S.IsMultiflip [x] S') (h1 : x ≠ a) (h2 : x ≠ inv a) :
    ∃ c', (flipMove S S' x).move.applyLam c = .ok c' ∧ c'.IsEdgeArc S' a := by
  have hw := h.wellFormed hS
  have hcomp := hS.comp
  have ha := h.label
  have hc' : (S'.edgeArcOf a : Lam Int).IsEdgeArc S' a := of_edge (by unfold IsLabel at ha ⊢; rw [hm.zeta]; exact ha)
  refine ⟨S'.edgeArcOf a, ?_, hc'⟩
  have ht := h.tri
  subst ht
  change EdgeFlip.applyLam ⟨c.tri, S', x, c.tri.sq x⟩ c = _
  rw [ef_applyLam_iff hw hf]
  have lab : ∀ {y}, S'.IsLabel y ↔ c.tri.IsLabel y := by intro y; unfold IsLabel; rw [hm.zeta]
  refine ⟨rfl, hc'.cls.trans h.cls.symm, by rw [hc'.length, h.length, hm.zeta], ?_, ?_⟩
  · intro u hu _
    by_cases k1 : u = a
    · rw [k1, hc'.at_edge, h.at_edge]
    by_cases k2 : u = inv a
    · rw [k2, w_inv, w_inv, hc'.at_edge, h.at_edge]
    rw [hc'.other u (lab.2 hu) k1 k2, h.other u hu k1 k2]
  · intro f hf' p q r s g1 g2
    rw [List.mem_singleton] at hf'
    subst hf'
    have l1 := hcomp.label_of_glues g1
    have l2 := hcomp.label_of_glues g2
    rw [max_eq_right (h.nonpos l1.2.1), max_eq_right (h.nonpos l1.2.2), max_eq_right (h.nonpos l2.2.1), max_eq_right (h.nonpos l2.2.2),
      h.other _ l1.1 h1 h2, hc'.other _ (lab.2 l1.1) h1 h2]
    exact flipWeight_zero

theorem IsEdgeArc.off {ms : List LMove} (hp : Path S ms S') (ho : Off a ms) : ∀ {c : Lam Int}, c.IsEdgeArc S a → ∃ c', performLam ms c = .ok c' ∧ c'.IsEdgeArc S' a := by
  induction hp with
  | nil T hT => intro c hc; exact ⟨c, rfl, hc⟩
  | cons m ms T hm hs ih =>
    intro c hc
    obtain ⟨U, U', x, rfl, hU, hf, hmf, h1, h2⟩ := ho m (by simp)
    replace hc : c.IsEdgeArc U a := hc
    obtain ⟨c1, k1, k2⟩ := hc.flip hU hf hmf h1 h2
    obtain ⟨c2, j1, j2⟩ := ih (fun m hm => ho m (by simp [hm])) k2
    refine ⟨c2, ?_, j2⟩
    rw [performLam, k1, py_bind_ok, j1]

end Lam

namespace Triangulation
variable {T T1 : Triangulation} {a e1 : Int} {ns : List LMove} {c h k : Enc}

/-- the half twist reverses its arc -/
theorem Built.arc (B : Built T a ns T1 e1 c h k) {A : Lam Int} (hA : A.IsEdgeArc T a) : k.applyLam A = .ok A := by
  have hT : T.Valid := by have := B.clegal.path.valid_source; rwa [B.csource] at this
  have hw := hA.wellFormed hT
  obtain ⟨A1, k1, k2⟩ := hA.off B.cpath B.coff
  have hc1 : c.applyLam A = .ok A1 := by rw [B.clam Int A hw hA.tri, k1]
  have u := B.clegal.undo hw hc1
  obtain ⟨P, Q, S1, ε, D, ms, S, F, S', ε2, r, Ψ, G, m, H⟩ := B.half
  obtain ⟨A2, j1, j2⟩ := k2.off H.path H.off
  have hT1 := u.1.1
  rw [k2.tri] at hT1
  have hS' : S'.Valid := H.half.swept.flipped.valid
  have hw2 := j2.wellFormed hS'
  obtain ⟨i, i1, i2⟩ := H.legal.isometry_acts H.back
  have hiso : S'.IsIsometry T1 G := H.back.choose_spec.2.2.2.2
  obtain ⟨A3, l1, l2, l3⟩ := i2.applyLam hiso hw2 j2.tri
  have l3' : A3 = A1 := by
    refine Lam.IsEdgeArc.ext (T := T1) (a := a) ⟨l2, l3.1.trans j2.cls, ?_, ?_, ?_⟩ k2
    · rw [l3.2.1, j2.length, hiso.zeta]
    · have la : S'.IsLabel (inv a) := isLabel_inv.2 j2.label
      have := l3.2.2 (inv a) (by rw [j2.tri]; exact la)
      have ga : G (inv a) = a := by
        have := H.gf a k2.label
        rwa [H.half.at_a] at this
      rw [ga] at this
      rw [this, Lam.w_inv, j2.at_edge]
    · intro x hx n1 n2
      have lx := H.half.iso.maps x hx
      have := l3.2.2 (Ψ x) (by rw [j2.tri]; exact lx)
      rw [H.gf x hx] at this
      rw [this]
      have inj := H.half.iso.inj
      refine j2.other _ lx (fun q => n2 ?_) (fun q => n1 ?_)
      · exact inj _ _ hx (isLabel_inv.2 k2.label) (by rw [q, H.half.at_c])
      · exact inj _ _ hx k2.label (by rw [q, H.half.at_a])
  rw [l3'] at l1
  rw [B.conj.lam Int A hw, hc1, py_bind_ok, H.lam Int A1 u.1 k2.tri, j1, py_bind_ok]
  have : m.move.applyLam A2 = .ok A1 := by rw [i1]; exact l1
  rw [this, py_bind_ok, u.2.2.2]

section
variable {R : Type} [CommRing R] [LinearOrder R] [IsStrictOrderedRing R]
variable {T : Triangulation} {a b e d : Int} {rest : List Int} {U U'' : Int → R}

/-- pushing an edge that nothing crosses changes no weights -/
theorem WRun.still (B : Base T a b e) (h : WRun T a b e d rest U U'') : (∀ x ∈ d :: rest, T.Left a e x ∧ T.Left a e (inv x)) → U a = 0 → U b = U e →
    (∀ x y z, T.Glues x y z → x ≠ a ∧ x ≠ b ∧ x ≠ e → U x ≤ U y + U z) → U'' b = U'' e ∧ ∀ x, x ≠ b → x ≠ e → U'' x = U x := by
  induction h with
  | nil d U => intro _ _ h2 _; exact ⟨h2, fun _ _ _ => rfl⟩
  | cons d d' p rest U U' U'' h hr ih =>
    intro hl h1 h2 h3
    have nd := B.hat_ne (hl d (by simp)).1
    have nq := B.hat_ne (hl d' (by simp)).2
    have no := B.other h.gl nd
    have nn := B.comp.glues_ne h.gl
    have ne := B.nes
    have hb : U' b = U (hat b e (inv d')) := by
      have e1 := h3 _ _ _ h.gl.rot no.1
      rw [h.at_b, h1, h2, zero_add, max_eq_right]
      · ring
      · rw [h.ue]; linarith
    have key : ∀ x, x ≠ b → x ≠ e → U' x = U x := by
      intro x k1 k2
      by_cases k3 : x = hat b e d
      · rw [k3, h.at_d, h2, h.ue]
      by_cases k4 : x = hat b e (inv d')
      · rw [k4, h.at_q, hb]
      exact h.other x k1 k2 k3 k4
    have hs := ih (fun x hx => hl x (by simp [List.mem_cons.1 hx])) (by rw [key a ne.1 ne.2.2.symm, h1]) (by rw [hb, h.at_e]) (by
      intro x y z hg hx
      have := B.other hg hx
      rw [key x hx.2.1 hx.2.2, key y this.1.2.1 this.1.2.2, key z this.2.2.1 this.2.2.2]
      exact h3 x y z hg hx)
    exact ⟨hs.1, fun x k1 k2 => by rw [hs.2 x k1 k2, key x k1 k2]⟩

end

section
variable {R : Type} [CommRing R] [LinearOrder R] [IsStrictOrderedRing R] [Halvable R]
variable {T S S' : Triangulation} {a e P Q ε ε2 r x : Int} {D : List Int} {ms : List LMove} {S1 : Triangulation} {F Ψ : Int → Int}

theorem NoArcs.flip {L : Lam R} (hL : L.NoArcs) (hS : S.Valid) (hf : S.Flippable x) (hm : S.IsMultiflip [x] S') (ht : L.tri = S) : ∃ L' : Lam R, (flipMove S S' x).move.applyLam L = .ok L' ∧
    L'.NoArcs ∧ L'.tri = S' ∧ L'.cls = L.cls ∧ (∀ y, S.IsLabel y → y ≠ x → y ≠ inv x → L'.w y = L.w y) ∧
    ∀ a b c d, S.Glues x a b → S.Glues (inv x) c d → L'.w x = max (L.w a + L.w c) (L.w b + L.w d) - L.w x := by
  obtain ⟨hc, hT⟩ := Lam.noArcs_iff.1 hL
  have l2 := (Turns.legal hS hf hm).2
  obtain ⟨K, k1, k2, k3, k4⟩ := l2.applyLam_total hc ht
  have hT' := l2.taut hc.1 hT ht k1
  refine ⟨K, k1, Lam.noArcs_iff.2 ⟨k3, hT'⟩, k2, k4, ?_⟩
  subst ht
  obtain ⟨_, hF⟩ := (ef_applyLam_iff hc.1 hf).1 k1
  refine ⟨fun y hy h1 h2 => hF.kept y hy (by simp [h1, h2]), ?_⟩
  intro a b c d g1 g2
  exact hT.flipWeight g1 g2 (hF.new x (by simp) _ _ _ _ g1 g2)

theorem Path.noArcs {L L' : Lam R} (h : Path S ms S') (hL : L.NoArcs) (ht : L.tri = S) (ha : performLam ms L = .ok L') : L'.NoArcs ∧ L'.tri = S' ∧ L'.cls = L.cls := by
  induction h generalizing L with
  | nil T hT => cases ha; exact ⟨hL, ht, rfl⟩
  | cons m ms T hm hs ih =>
    rw [performLam, py_bind_eq_ok] at ha
    obtain ⟨K, a1, a2⟩ := ha
    obtain ⟨hc, hT⟩ := Lam.noArcs_iff.1 hL
    obtain ⟨K', k1, k2, k3, k4⟩ := hm.applyLam_total hc ht
    cases a1.symm.trans k1
    obtain ⟨j1, j2, j3⟩ := ih (Lam.noArcs_iff.2 ⟨k3, hm.taut hc.1 hT ht k1⟩) k2 a2
    exact ⟨j1, j2, j3.trans k4⟩

theorem Off.keeps {L L' : Lam R} (h : Path S ms S') (ho : Off a ms) (ha : S.IsLabel a) (hL : L.WellFormed) (ht : L.tri = S) (hp : performLam ms L = .ok L') : L'.w a = L.w a := by
  induction h generalizing L with
  | nil T hT => cases hp; rfl
  | cons m ms T hm hs ih =>
    rw [performLam, py_bind_eq_ok] at hp
    obtain ⟨K, a1, a2⟩ := hp
    have hs' := (Path.single hm).performLam hL ht (by rw [performLam, a1]; rfl)
    obtain ⟨U, U', x, rfl, hU, hf, hmf, h1, h2⟩ := ho m (by simp)
    have ht' : L.tri = U := ht
    subst ht'
    have hF := ((ef_applyLam_iff hL hf).1 a1).2
    have ha' : L.tri.IsLabel a := ha
    rw [ih (fun m hm => ho m (by simp [hm])) (by change U'.IsLabel a; unfold IsLabel at ha' ⊢; rw [hmf.zeta]; exact ha') hs'.2.1 hs'.1 a2]
    refine hF.kept a ha' (fun f hf' => ?_)
    rw [List.mem_singleton] at hf'
    subst hf'
    exact ⟨h1.symm, fun k => h2 (by rw [k, inv_inv])⟩

/-- the half twist fixes the weights of a lamination that does not meet the arc -/
theorem Half.still (hT : T.Valid) (H : Half T a e P Q S1 ε D ms S F S' ε2 r Ψ) {L : Lam R} (hL : L.NoArcs) (ht : L.tri = T) (h0 : L.w a = 0) :
    ∃ M, performLam (flipMove T S1 e :: (ms ++ [flipMove S S' (F Q)])) L = .ok M ∧ M.NoArcs ∧ M.tri = S' ∧ M.cls = L.cls ∧ ∀ x, T.IsLabel x → M.w (Ψ x) = L.w x := by
  have hc := hT.comp
  have K := H.data
  have B := H.swing.base
  have W := H.swept
  have sl := W.slid
  obtain ⟨d1, d2, d3, d4, d5, d6, d7, d8, d9, d10, d11, d12, d13, d14, d15⟩ := K.distinct
  have hε : (ε = e ∧ inv ε = inv e) ∨ (ε = inv e ∧ inv ε = e) := by
    rcases K.eps with h | h
    · exact .inl ⟨h, by rw [h]⟩
    · exact .inr ⟨h, by rw [h, inv_inv]⟩
  have εn : ∀ x, x ≠ e → x ≠ inv e → x ≠ ε ∧ x ≠ inv ε := by
    intro x h1 h2
    rcases hε with ⟨h, h'⟩ | ⟨h, h'⟩ <;> rw [h', h] <;> tauto
  have εP := εn P d11.symm d13.symm
  have εQ := εn Q d12.symm d14.symm
  have lT := hc.label_of_glues K.s1
  have lT2 := hc.label_of_glues K.s2
  have lab1 : ∀ {x}, S1.IsLabel x ↔ T.IsLabel x := K.isLabel_iff
  have taut := (Lam.noArcs_iff.1 hL).2
  have hia : L.w (inv a) = 0 := by rw [Lam.w_inv, h0]
  -- before the first flip
  have we : L.w e = 0 := by
    have := taut _ _ _ (ht ▸ K.s1)
    rw [hia, h0] at this
    linarith [this.1, this.2]
  have wPQ : L.w P = L.w Q := by
    have k1 := taut _ _ _ (ht ▸ K.s2.rot)
    have k2 := taut _ _ _ (ht ▸ K.s2.rot.rot)
    rw [Lam.w_inv, we] at k1 k2
    linarith [k1.2, k2.2]
  obtain ⟨L1, f1, f2, f3, f4, f5, f6⟩ := NoArcs.flip hL hT H.flippable H.flipped ht
  have wε : L1.w ε = L.w P := by
    have h1 := f6 _ _ _ _ K.s1 K.s2
    rw [hia, h0, we, wPQ, max_self] at h1
    have : L1.w ε = L1.w e := by
      rcases hε with ⟨h, _⟩ | ⟨h, _⟩ <;> rw [h]
      exact L1.w_inv e
    rw [this, h1, wPQ]; ring
  have wk : ∀ x, T.IsLabel x → x ≠ e → x ≠ inv e → L1.w x = L.w x := f5
  -- the turns
  obtain ⟨hc1, hT1⟩ := Lam.noArcs_iff.1 f2
  have hp := W.turns.path
  obtain ⟨L2, g1, g2, g3, g4⟩ := hp.performLam_total hc1 f3
  have g5 := (Path.noArcs hp f2 f3 g1).1
  have hrun := W.turns.run B hc1 hT1 f3 g1
  have lS := B.labels
  have lQ : S1.IsLabel Q := lS.2.2
  have lε : S1.IsLabel ε := lS.2.1
  have lP : S1.IsLabel P := lab1.2 lT2.2.1
  have hst := hrun.still B H.swing.left (by
      rw [pull_eq lS.1, wk _ lT.2.1 d2 d3, hia]) (by
      rw [pull_eq lε, pull_eq lQ, wε, wk Q lT2.2.2 d12.symm d14.symm, wPQ]) (by
      intro x y z hg _
      have ll := B.comp.label_of_glues hg
      rw [pull_eq ll.1, pull_eq ll.2.1, pull_eq ll.2.2]
      exact (hT1 _ _ _ (f3 ▸ hg)).2)
  have hst2 : ∀ x, S1.IsLabel x → x ≠ ε → x ≠ Q → L2.w (F x) = L1.w x := by
    intro x hx h1 h2
    have := hst.2 x h1 h2
    rwa [pull_eq hx, pull_eq hx] at this
  have hst1 : L2.w (F ε) = L2.w (F Q) := by
    have := hst.1
    rwa [pull_eq lε, pull_eq lQ] at this
  have hFP : inv (F Q) = F P := by rw [sl.fe, inv_inv, H.hatr]
  have wFP : L2.w (F Q) = L.w P := by
    rw [← Lam.w_inv, hFP, hst2 P lP εP.1 d15, wk P lT2.2.1 d11.symm d13.symm]
  have wFa : L2.w (inv a) = 0 := by
    have := hst2 (inv a) lS.1 (εn _ d2 d3).1 d5
    rw [sl.fa] at this
    rw [this, wk _ lT.2.1 d2 d3, hia]
  have wFi : L2.w (F (inv ε)) = L.w P := by
    have hT2 := (Lam.noArcs_iff.1 g5).2
    have k1 := hT2 _ _ _ (g2 ▸ W.data.s2)
    have k2 := hT2 _ _ _ (g2 ▸ W.data.s2.rot)
    rw [Lam.w_inv, wFP, inv_inv] at k1
    rw [Lam.w_inv, Lam.w_inv, Lam.w_inv, wFP] at k2
    have : L2.w a = 0 := by rw [← Lam.w_inv, wFa]
    rw [this] at k1 k2
    linarith [k1.2, k2.2]
  -- the last flip
  obtain ⟨L3, j1, j2, j3, j4, j5, j6⟩ := NoArcs.flip g5 sl.valid W.flippable W.flipped g2
  refine ⟨L3, ?_, j2, j3, j4.trans (g4.trans f4), ?_⟩
  · rw [performLam, f1, py_bind_ok, performLam_append', g1, py_bind_ok, performLam, j1]; rfl
  have wε2 : L3.w ε2 = 0 := by
    have h1 := j6 _ _ _ _ W.data.s1 W.data.s2
    have ha : L2.w (inv (inv a)) = 0 := by rw [Lam.w_inv, wFa]
    rw [wFa, wFi, hst1, wFP, ha, add_zero, zero_add, max_self, sub_self] at h1
    rcases W.data.eps with h | h <;> rw [h]
    · exact h1
    · rw [Lam.w_inv]; exact h1
  have keep : ∀ x, S1.IsLabel x → x ≠ Q → x ≠ P → L3.w (F x) = L2.w (F x) := by
    intro x hx h1 h2
    refine j5 _ (sl.maps x hx) (fun k => h1 (sl.inj _ _ hx lQ k)) (fun k => h2 (sl.inj _ _ hx lP (k.trans hFP)))
  intro x hx
  by_cases h1 : x = inv a
  · have := keep (inv a) lS.1 d5 d4
    rw [sl.fa, wFa] at this
    rw [h1, H.at_c, hia, ← Lam.w_inv, this]
  by_cases h2 : x = a
  · have := keep (inv a) lS.1 d5 d4
    rw [sl.fa, wFa] at this
    rw [h2, H.at_a, h0, this]
  by_cases h3 : x = e
  · rw [h3, H.at_e, we, wε2]
  by_cases h4 : x = inv e
  · rw [h4, H.iso.inverts _ lT.1, H.at_e, Lam.w_inv, Lam.w_inv, we, wε2]
  by_cases h5 : x = P
  · rw [h5, H.at_P, keep ε lε (Ne.symm εQ.1) (Ne.symm εP.1), hst1, wFP]
  by_cases h6 : x = Q
  · rw [h6, H.at_Q, keep (inv ε) (isLabel_inv.2 lε) (Ne.symm εQ.2) (Ne.symm εP.2), wFi, wPQ]
  rw [H.other x h1 h2 h3 h4 h5 h6, keep x (lab1.2 hx) h6 h5, hst2 x (lab1.2 hx) (εn x h3 h4).1 h6, wk x hx h3 h4]

/-- the half twist fixes the laminations without arcs that do not meet the arc -/
theorem Built.still {T T1 : Triangulation} {a e1 : Int} {ns : List LMove} {c h k : Enc} (B : Built T a ns T1 e1 c h k) {L : Lam R} (hL : L.NoArcs) (ht : L.tri = T) (h0 : L.w a = 0) :
    k.applyLam L = .ok L := by
  have hT : T.Valid := by have := B.clegal.path.valid_source; rwa [B.csource] at this
  obtain ⟨hc, _⟩ := Lam.noArcs_iff.1 hL
  have hw := hc.1
  have lz : T1.zeta = T.zeta := by
    have := B.clegal.path.zeta
    rwa [B.csource, B.ctarget] at this
  have hT1 : T1.Valid := by have := B.clegal.path.valid_target; rwa [B.ctarget] at this
  have la1 : T1.IsLabel a := (hT1.comp.label_of_glues B.glues).1
  have la : T.IsLabel a := by unfold IsLabel at la1 ⊢; rw [← lz]; exact la1
  obtain ⟨L1, k1, k2, k3, k4⟩ := B.cpath.performLam_total hc ht
  have hc1 : c.applyLam L = .ok L1 := by rw [B.clam R L hw ht, k1]
  have u := B.clegal.undo hw hc1
  have n1 := Path.noArcs B.cpath hL ht k1
  have z1 : L1.w a = 0 := by rw [Off.keeps B.cpath B.coff la hw ht k1, h0]
  obtain ⟨P, Q, S1, ε, D, ms, S, F, S', ε2, r, Ψ, G, m, H⟩ := B.half
  obtain ⟨M, j1, j2, j3, j4, j5⟩ := H.half.still hT1 n1.1 k2 z1
  obtain ⟨i, i1, i2⟩ := H.legal.isometry_acts H.back
  have hiso : S'.IsIsometry T1 G := H.back.choose_spec.2.2.2.2
  have hMw := (Lam.noArcs_iff.1 j2).1.1
  have hmap : M.MapsTo G L1 := by
    refine ⟨j4.symm, by rw [hMw.2, k3.1.2, j3, k2, hiso.zeta], ?_⟩
    intro x hx
    rw [j3] at hx
    rw [← j5 (G x) (hiso.maps x hx), H.fg x hx]
  have hmv : m.move.applyLam M = .ok L1 := by
    rw [i1]
    exact (i2.applyLam_iff hiso hMw j3).2 ⟨k2, hmap⟩
  rw [B.conj.lam R L hw, hc1, py_bind_ok, H.lam R L1 u.1 k2, j1, py_bind_ok, hmv, py_bind_ok, u.2.2.2]

end
end Triangulation
end Curver
