import Verif.Proofs.Crusher

/-!
# One crush after another
-/

namespace Curver
open Triangulation

theorem CrushEnc.mul_ok {f f' h : CrushEnc} (hm : f'.mul f = .ok h) : f'.source = f.target ∧ h = ⟨f.parts ++ f'.parts, f.source, f'.target⟩ := by
  unfold mul at hm
  split_ifs at hm with q
  rw [Triangulation.eq_decide] at q
  injection hm with hm
  exact ⟨by simpa using q, hm.symm⟩

theorem CrushEnc.applyLam_mul {P : Lam Int → Py LamClass} {f f' h : CrushEnc} {L K : Lam Int} (hm : f'.mul f = .ok h) (h1 : f.applyLam P L = .ok K) (ht : K.tri = f.target) : h.applyLam P L = f'.applyLam P K := by
  obtain ⟨m1, rfl⟩ := mul_ok hm
  unfold applyLam at *
  dsimp only
  rw [Triangulation.eq_decide] at h1 ⊢
  split_ifs at h1 with q
  rw [if_neg q, Triangulation.eq_decide, m1, ht]
  simp only [decide_true, Bool.not_true, Bool.false_eq_true, if_false]
  rw [List.foldlM_append, h1, py_bind_ok]

theorem CrushEnc.inverse_eq {f g : CrushEnc} (h : f.inverse = .ok g) : g.source = f.target ∧ g.target = f.source ∧ f.parts.reverse.mapM CrushPart.inverse = .ok g.parts := by
  unfold inverse at h
  simp only [py_bind_eq_ok] at h
  obtain ⟨ps, h1, h2⟩ := h
  injection h2 with h2
  subst h2
  exact ⟨rfl, rfl, h1⟩

theorem CrushEnc.inverse_mul {f g f' g' h : CrushEnc} (hm : f'.mul f = .ok h) (h1 : f.inverse = .ok g) (h2 : f'.inverse = .ok g') : ∃ k, g.mul g' = .ok k ∧ h.inverse = .ok k := by
  obtain ⟨m1, rfl⟩ := mul_ok hm
  obtain ⟨a1, a2, a3⟩ := inverse_eq h1
  obtain ⟨b1, b2, b3⟩ := inverse_eq h2
  refine ⟨⟨g'.parts ++ g.parts, f'.target, f.source⟩, ?_, ?_⟩
  · unfold mul
    rw [Triangulation.eq_decide, a1, b2, m1]
    simp only [decide_true, if_true, a2, b1]
  · unfold inverse
    dsimp only
    rw [List.reverse_append, List.mapM_append, b3, py_bind_ok, a3, py_bind_ok]
    rfl

namespace Lam
variable {S L L1 L2 M N N1 N2 K K1 K2 A B : Lam Int} {D D' E Xs Ys : List (Lam Int)} {P : Lam Int → Py LamClass} {f g f' g' h k : CrushEnc}

theorem forall₂_mem_right {α β : Type _} {R : α → β → Prop} {l : List α} {l' : List β} (h : List.Forall₂ R l l') : ∀ y ∈ l', ∃ x ∈ l, R x y := by
  induction h with
  | nil => intro y hy; simp at hy
  | cons h1 _ ih =>
    intro y hy
    rcases List.mem_cons.1 hy with rfl | hy
    · exact ⟨_, by simp, h1⟩
    · obtain ⟨x, x1, x2⟩ := ih y hy
      exact ⟨x, by simp [x1], x2⟩

theorem forall₂_mem_left {α β : Type _} {R : α → β → Prop} {l : List α} {l' : List β} (h : List.Forall₂ R l l') : ∀ x ∈ l, ∃ y ∈ l', R x y := by
  induction h with
  | nil => intro y hy; simp at hy
  | cons h1 _ ih =>
    intro y hy
    rcases List.mem_cons.1 hy with rfl | hy
    · exact ⟨_, by simp, h1⟩
    · obtain ⟨x, x1, x2⟩ := ih y hy
      exact ⟨x, by simp [x1], x2⟩

/-- choose for every entry -/
theorem forall₂_choose {α β : Type _} {R : α → β → Prop} {Q : β → Prop} : ∀ {l : List α}, (∀ x ∈ l, ∃ y, Q y ∧ R x y) → ∃ l', List.Forall₂ R l l' ∧ ∀ y ∈ l', Q y
  | [], _ => ⟨[], .nil, by simp⟩
  | x :: l, h => by
    obtain ⟨y, y1, y2⟩ := h x (by simp)
    obtain ⟨l', l1, l2⟩ := forall₂_choose (l := l) (fun z hz => h z (by simp [hz]))
    exact ⟨y :: l', .cons y2 l1, by simp [y1]; exact l2⟩

theorem forall₂_append_single {α β : Type _} {R : α → β → Prop} {l : List α} {x : α} {l' : List β} (h : List.Forall₂ R (l ++ [x]) l') : ∃ m y, l' = m ++ [y] ∧ List.Forall₂ R l m ∧ R x y := by
  induction l generalizing l' with
  | nil =>
    cases h with
    | cons h1 h2 =>
      cases h2
      exact ⟨[], _, rfl, .nil, h1⟩
  | cons z l ih =>
    cases h with
    | cons h1 h2 =>
      obtain ⟨m, y, m1, m2, m3⟩ := ih h2
      exact ⟨_ :: m, y, by rw [m1]; rfl, .cons h1 m2, m3⟩

theorem Same.unique {M M' : Lam Int} {x : Py (Lam Int)} (h1 : x = .ok M) (h2 : x = .ok M') : M = M' := by
  rw [h1] at h2; injection h2

theorem Crusher.comp (h1 : Crusher P D f g) (h2 : Crusher P D' f' g') (hm : f'.mul f = .ok h) (hE : List.Forall₂ (fun d d' => f.applyLam P d = .ok d') E D')
    (hc : ∀ d ∈ E, d.NoArcs ∧ d.Connected ∧ ¬ d.Peripheral ∧ d.tri = f.source) (ha : (D ++ E).Pairwise (fun d e => d.DisjointFrom e ∧ ¬ Same d e)) : ∃ k, g.mul g' = .ok k ∧ Crusher P (D ++ E) h k := by
  obtain ⟨k, k1, k2⟩ := CrushEnc.inverse_mul hm h1.inverse h2.inverse
  refine ⟨k, k1, ?_⟩
  obtain ⟨st, hh⟩ := CrushEnc.mul_ok hm
  obtain ⟨st', kk⟩ := CrushEnc.mul_ok k1
  have hs : h.source = f.source := by rw [hh]
  have htt : h.target = f'.target := by rw [hh]
  obtain ⟨pD, pE, pDE⟩ := List.pairwise_append.1 ha
  -- the curves of the second crush
  have eD : ∀ d ∈ E, ∀ d0 ∈ D, d.DisjointFrom d0 := fun d hd d0 hd0 => (pDE d0 hd0 d hd).1.symm
  have nD : ∀ d ∈ E, ∀ d0 ∈ D, ¬ Same d0 d := fun d hd d0 hd0 => (pDE d0 hd0 d hd).2
  have img : ∀ d ∈ E, ∀ d', f.applyLam P d = .ok d' → d'.Connected ∧ ∃ M, g.applyLam P d' = .ok M ∧ Same M d := fun d hd d' e => h1.image (hc d hd).1 (hc d hd).2.1 (hc d hd).2.2.2 (eD d hd) (nD d hd) e
  have splitD : ∀ {L : Lam Int}, (∀ d ∈ D ++ E, L.DisjointFrom d) ↔ (∀ d ∈ D, L.DisjointFrom d) ∧ ∀ d ∈ E, L.DisjointFrom d := by
    intro L
    simp only [List.mem_append]
    exact ⟨fun q => ⟨fun d hd => q d (.inl hd), fun d hd => q d (.inr hd)⟩, fun q d hd => hd.elim (q.1 d) (q.2 d)⟩
  have app : ∀ {L : Lam Int}, L.Consistent → L.tri = f.source → (∀ d ∈ D ++ E, L.DisjointFrom d) → ∃ K, f.applyLam P L = .ok K ∧ K.Consistent ∧ K.tri = f'.source ∧ (L.NoArcs → K.NoArcs) ∧ (∀ d ∈ D', K.DisjointFrom d) ∧ h.applyLam P L = f'.applyLam P K := by
    intro L hL ht hd
    obtain ⟨d1, d2⟩ := splitD.1 hd
    obtain ⟨K, e1, e2, e3, e4⟩ := h1.apply L hL ht d1
    refine ⟨K, e1, e3, e2.trans st.symm, e4, ?_, CrushEnc.applyLam_mul hm e1 e2⟩
    intro d' hd'
    obtain ⟨d, x1, x2⟩ := forall₂_mem_right hE d' hd'
    exact h1.disjoint d1 (eD d x1) ht (d2 d x1) e1 x2
  have lft : ∀ {N : Lam Int}, N.NoArcs → N.tri = f'.target → ∃ M, g'.applyLam P N = .ok M ∧ M.NoArcs ∧ M.tri = f.target ∧ (∀ d ∈ D', M.DisjointFrom d) ∧ k.applyLam P N = g.applyLam P M := by
    intro N hN ht
    obtain ⟨M, e1, e2, e3, e4⟩ := h2.lift N hN ht
    exact ⟨M, e1, e3, e2.trans st, e4, CrushEnc.applyLam_mul k1 e1 (e2.trans h2.back.2.symm)⟩
  -- parts that are not there
  have noPart : ∀ {A C X Y : Lam Int}, C.Consistent → C.IsUnion X Y → (∃ Z, X.IsUnion A Z) → ∃ Z, C.IsUnion A Z := by
    rintro A C X Y hC hu ⟨Z, hz⟩
    obtain ⟨Q, q1, q2⟩ := hu.assoc' hC hz
    exact ⟨Q, q1⟩
  refine ⟨?_, ha, ⟨by rw [hs]; exact h1.valid.1, by rw [htt]; exact h2.valid.2⟩, by rw [hs, htt, h2.zeta, st, h1.zeta], ?_, k2, ?_, ?_, ?_, ?_, ?_, ?_, ?_, ?_⟩
  · intro d hd
    rw [hs]
    rcases List.mem_append.1 hd with q | q
    · exact h1.curves d q
    · exact hc d q
  · obtain ⟨n, n1, n2⟩ := h1.verts
    obtain ⟨m, m1, m2⟩ := h2.verts
    rw [st, n2] at m1
    injection m1 with m1
    refine ⟨n, by rw [hs]; exact n1, ?_⟩
    rw [htt, m2, ← m1, List.length_append, hE.length_eq]
    congr 1
    omega
  · rw [kk, hh]
    exact ⟨h2.back.1, h1.back.2⟩
  · intro L hL ht hd
    rw [hs] at ht
    obtain ⟨K, e1, e2, e3, e4, e5, e6⟩ := app hL ht hd
    obtain ⟨K', f1, f2, f3, f4⟩ := h2.apply K e2 e3 e5
    exact ⟨K', by rw [e6]; exact f1, by rw [htt]; exact f2, f3, fun q => f4 (e4 q)⟩
  · intro S L1 L2 K K1 K2 hS ht hd hu a0 a1 a2
    rw [hs] at ht
    have C := hu.consistent hS
    have d1 : ∀ d ∈ D ++ E, L1.DisjointFrom d := fun d hd' => ((hd d hd').part hu).1
    have d2 : ∀ d ∈ D ++ E, L2.DisjointFrom d := fun d hd' => ((hd d hd').part hu).2
    obtain ⟨Q, e1, e2, e3, e4, e5, e6⟩ := app hS ht hd
    obtain ⟨Q1, e1', e2', e3', e4', e5', e6'⟩ := app C.1 (hu.wf.2.2.1.trans ht) d1
    obtain ⟨Q2, e1'', e2'', e3'', e4'', e5'', e6''⟩ := app C.2 (hu.wf.2.2.2.trans ht) d2
    rw [e6] at a0; rw [e6'] at a1; rw [e6''] at a2
    exact h2.union Q Q1 Q2 K K1 K2 e2 e3 e5 (h1.union S L1 L2 Q Q1 Q2 hS ht (splitD.1 hd).1 hu e1 e1' e1'') a0 a1 a2
  · intro N hN ht
    rw [htt] at ht
    obtain ⟨M1, e1, e2, e3, e4, e5⟩ := lft hN ht
    obtain ⟨M, f1, f2, f3, f4⟩ := h1.lift M1 e2 e3
    refine ⟨M, by rw [e5]; exact f1, by rw [hs]; exact f2, f3, splitD.2 ⟨f4, fun d hd => ?_⟩⟩
    obtain ⟨d', x1, x2⟩ := forall₂_mem_left hE d hd
    obtain ⟨-, M', y1, y2⟩ := img d hd d' x2
    exact (h1.lift_disjoint e2 (h2.curves d' x1).1 e3 (e4 d' x1) f1 y1).same .refl y2
  · intro N N1 N2 M M1 M2 hN ht hu a0 a1 a2
    rw [htt] at ht
    have C := hu.noArcs2 hN
    obtain ⟨Q, e1, e2, e3, e4, e5⟩ := lft hN ht
    obtain ⟨Q1, e1', e2', e3', e4', e5'⟩ := lft C.1 (hu.wf.2.2.1.trans ht)
    obtain ⟨Q2, e1'', e2'', e3'', e4'', e5''⟩ := lft C.2 (hu.wf.2.2.2.trans ht)
    rw [e5] at a0; rw [e5'] at a1; rw [e5''] at a2
    exact h1.lift_union Q Q1 Q2 M M1 M2 e2 e3 (h2.lift_union N N1 N2 Q Q1 Q2 hN ht hu e1 e1' e1'') a0 a1 a2
  · intro L K2 M2 hL ht hd a0 a1
    rw [hs] at ht
    have hLc := (noArcs_iff.1 hL).1
    obtain ⟨K, e1, e2, e3, e4, e5, e6⟩ := app hLc ht hd
    rw [e6] at a0
    obtain ⟨x1, x2, x3⟩ := h2.apply_wf e2 e3 e5 a0
    have nK := e4 hL
    obtain ⟨M1, b1, b2, b3, b4, b5⟩ := lft (x3 nK) x2
    rw [b5] at a1
    obtain ⟨Ds', c1, c2, c3⟩ := h2.lift_apply K K2 M1 nK e3 e5 a0 b1
    obtain ⟨G, g1, g2, g3, -⟩ := h1.lift K nK (e3.trans st)
    obtain ⟨Ds, d1, d2, d3⟩ := h1.lift_apply L K G hL ht (splitD.1 hd).1 e1 g1
    obtain ⟨Ys, y1, y2⟩ := h1.lift_unions nK (e3.trans st) c2 g1
    obtain ⟨Es, M2', z0, z1, z2⟩ := forall₂_append_single y1
    have := Same.unique a1 z2
    subst this
    rw [z0] at y2
    obtain ⟨Fs, w1, w2⟩ : ∃ Fs, List.Forall₂ Same Es Fs ∧ ∀ y ∈ Fs, y ∈ E := by
      refine forall₂_choose (fun x hx => ?_)
      obtain ⟨d', r1, r2⟩ := forall₂_mem_right z1 x hx
      obtain ⟨d, s1, s2⟩ := forall₂_mem_right hE d' (c1 d' r1)
      obtain ⟨-, M', t1, t2⟩ := img d s1 d' s2
      have := Same.unique t1 r2
      subst this
      exact ⟨d, s1, t2⟩
    have gc := (noArcs_iff.1 g3).1
    refine ⟨Ds ++ Fs, ?_, ?_, ?_⟩
    · intro d hd
      rcases List.mem_append.1 hd with q | q
      · exact List.mem_append.2 (.inl (d1 d q))
      · exact List.mem_append.2 (.inr (w2 d q))
    · rw [List.append_assoc]
      exact d2.join hLc (y2.congr gc (forall₂_append w1 (.cons .refl .nil)))
    · intro d hd
      obtain ⟨m1, m2, m3⟩ := h1.lift_wf b2 b3 a1
      rcases List.mem_append.1 hd with q | q
      · intro hy
        obtain ⟨Q, hQ⟩ := y2.pull gc (X := M2) (by simp)
        exact d3 d q (noPart gc hQ hy)
      · rintro ⟨Y, hY⟩
        have mc := (noArcs_iff.1 m1).1
        obtain ⟨F, f1, -, f2, -⟩ := h1.apply M2 mc m2 m3
        obtain ⟨F1, F2, u1, u2, u3⟩ := h1.union_ok mc m2 m3 hY f1
        obtain ⟨Ps, p1, p2⟩ := h1.apply_lift M1 M2 F b2 b3 a1 f1
        have bc := (noArcs_iff.1 b2).1
        obtain ⟨Q, hQ⟩ := p1.pull bc (X := F) (by simp)
        obtain ⟨d', s1, s2⟩ := forall₂_mem_left hE d q
        have := Same.unique u1 s2
        subst this
        exact c3 F1 s1 (noPart bc hQ ⟨F2, u3⟩)
  · intro N M K' hN ht a0 a1
    rw [htt] at ht
    obtain ⟨M1, b1, b2, b3, b4, b5⟩ := lft hN ht
    rw [b5] at a0
    obtain ⟨m1, m2, m3⟩ := h1.lift_wf b2 b3 a0
    have mc := (noArcs_iff.1 m1).1
    have b1c := (noArcs_iff.1 b2).1
    have hMd : ∀ d ∈ D ++ E, M.DisjointFrom d := by
      refine splitD.2 ⟨m3, fun d hd => ?_⟩
      obtain ⟨d', x1, x2⟩ := forall₂_mem_left hE d hd
      obtain ⟨-, M', y1, y2⟩ := img d hd d' x2
      exact (h1.lift_disjoint b2 (h2.curves d' x1).1 b3 (b4 d' x1) a0 y1).same .refl y2
    obtain ⟨K, e1, e2, e3, e4, e5, e6⟩ := app mc m2 hMd
    rw [e6] at a1
    obtain ⟨Ps, p1, p2⟩ := h1.apply_lift M1 M K b2 b3 a0 e1
    obtain ⟨F, f1, f2, f3, f4⟩ := h2.apply M1 b1c (b3.trans st.symm) b4
    obtain ⟨Ps', p1', p2'⟩ := h2.apply_lift N M1 F hN ht b1 f1
    obtain ⟨Ys, y1, y2⟩ := h2.apply_unions b1c (b3.trans st.symm) b4 p1 f1
    obtain ⟨Es, K2, z0, z1, z2⟩ := forall₂_append_single y1
    have := Same.unique a1 z2
    subst this
    rw [z0] at y2
    refine ⟨Ps' ++ Es, ?_, ?_⟩
    · rw [List.append_assoc]
      exact p1'.join (noArcs_iff.1 hN).1 y2
    · intro p hp
      rcases List.mem_append.1 hp with q | q
      · obtain ⟨s1, G, s2, d', s3, s4⟩ := p2' p q
        have hpN : p.NoArcs ∧ p.tri = f'.target := by
          obtain ⟨Q, hQ⟩ := p1'.pull (noArcs_iff.1 hN).1 (X := p) (by simp [q])
          exact ⟨hQ.noArcs hN, hQ.wf.2.2.1.trans ht⟩
        obtain ⟨G', t1, t2, t3, t4, t5⟩ := lft hpN.1 hpN.2
        have := Same.unique s2 t1
        subst this
        obtain ⟨d, v1, v2⟩ := forall₂_mem_right hE d' s3
        obtain ⟨-, H, w1, w2⟩ := img d v1 d' v2
        obtain ⟨H', x1, x2⟩ := h1.lift_same (N := d') (by exact (h2.curves d' s3).1) ((h2.curves d' s3).2.2.2.trans st) s4.symm w1
        exact ⟨s1, H', by rw [t5]; exact x1, d, List.mem_append.2 (.inr v1), x2.symm.trans w2⟩
      · obtain ⟨p0, s1, s2⟩ := forall₂_mem_right z1 p q
        obtain ⟨s3, G, s4, d0, s5, s6⟩ := p2 p0 s1
        obtain ⟨Q, hQ⟩ := p1.pull b1c (X := p0) (by simp [s1])
        have np0 := hQ.noArcs b2
        have tp0 : p0.tri = f'.source := hQ.wf.2.2.1.trans (b3.trans st.symm)
        have dp0 : ∀ d ∈ D', p0.DisjointFrom d := fun d hd => ((b4 d hd).part hQ).1
        have ns : ∀ d' ∈ D', ¬ Same d' p0 := by
          intro d' hd' sm
          obtain ⟨d, v1, v2⟩ := forall₂_mem_right hE d' hd'
          obtain ⟨-, H, w1, w2⟩ := img d v1 d' v2
          obtain ⟨H', x1, x2⟩ := h1.lift_same (h2.curves d' hd').1 ((h2.curves d' hd').2.2.2.trans st) sm w1
          have := Same.unique s4 x1
          subst this
          exact nD d v1 d0 s5 (s6.symm.trans (x2.symm.trans w2))
        obtain ⟨i1, J, i2, i3⟩ := h2.image np0 s3 tp0 dp0 ns s2
        obtain ⟨q1, q2, q3⟩ := h2.apply_wf (noArcs_iff.1 np0).1 tp0 dp0 s2
        obtain ⟨J', t1, t2, t3, t4, t5⟩ := lft (q3 np0) q2
        have := Same.unique i2 t1
        subst this
        obtain ⟨H', x1, x2⟩ := h1.lift_same np0 (tp0.trans st) i3.symm s4
        exact ⟨i1, H', by rw [t5]; exact x1, d0, List.mem_append.2 (.inl s5), x2.symm.trans s6⟩
  · intro p M hp hper hcon ht a0
    rw [htt] at ht
    obtain ⟨M1, b1, b2, b3, b4, b5⟩ := lft hp ht
    rw [b5] at a0
    rcases h2.links p M1 hp hper hcon ht b1 with q | ⟨d', q1, q2⟩
    · rcases h1.links M1 M b2 q (h2.lift_connected hp hcon ht b1) b3 a0 with r | ⟨d, r1, r2⟩
      · exact .inl r
      · exact .inr ⟨d, List.mem_append.2 (.inl r1), r2⟩
    · right
      obtain ⟨d, v1, v2⟩ := forall₂_mem_right hE d' q1
      obtain ⟨-, H, w1, w2⟩ := img d v1 d' v2
      obtain ⟨H', x1, x2⟩ := h1.lift_same b2 b3 q2 a0
      have := Same.unique w1 x1
      subst this
      exact ⟨d, List.mem_append.2 (.inr v1), x2.trans w2⟩

end Lam
end Curver
