import Verif.Proofs.CrusherComp
import Verif.Props.Crush

/-!
# Mappings and crushes along single curves
-/

namespace Curver
open Triangulation

namespace Lam
variable {S L M N K p c s A B : Lam Int} {a b e : Int} {X v : List Int} {P : Lam Int → Py LamClass} {f g : CrushEnc} {g1 g2 h : Enc} {m : CrushMove}

/-- a connected lamination of curves around vertices is one of these curves -/
theorem Peripheral.link (hp : p.Peripheral) (hN : p.NoArcs) (hc : p.Connected) : ∃ vs v, p.tri.vertices = .ok vs ∧ v ∈ vs ∧ Same p (p.tri.curveFromCutSequence v) := by
  obtain ⟨m, hm⟩ := (peripheral_iff hN).1 hp
  have h0 : ∀ x, p.tri.IsLabel x → 0 ≤ m x := fun x hx => hm.nonneg hN hx
  obtain ⟨x, x1, x2⟩ : ∃ x, p.tri.IsLabel x ∧ 0 < m x := by
    by_contra q
    push Not at q
    refine hc.1 (fun x hx => ?_)
    have := hm.w x hx
    have := h0 x hx
    have := h0 _ (isLabel_inv.2 hx)
    have := q x hx
    have := q _ (isLabel_inv.2 hx)
    omega
  obtain ⟨v, vs, k1, k2, k3, k4, -⟩ := hN.1.1.comp.vertexOf_ok x1
  have st : p.tri.Star v := ⟨hN.1.1, x, x1, k1⟩
  have ml := isMult_links hN.1 h0 hm.const hm.w
  have hub : p.Hub v (m x) := by
    refine ⟨(noArcs_iff.1 hN).1, st, fun y hy => ?_⟩
    have ly := st.basic.2.1 y hy
    rw [lf_eq (ml.2.1 y ly)]
    exact (hm.const x y x1 ⟨v, k1, hy⟩).le
  obtain ⟨N, u, -⟩ := hub.union x2
  refine ⟨vs, v, k2, k3, ?_⟩
  rcases hc.of_union hN.1 u with q | q
  · exact absurd q.1 (link_connected st).1
  · exact q.2

theorem LiftW.same {M' : Lam Int} {T : Triangulation} (h1 : LiftW N M T b e X) (h2 : LiftW A M' T b e X) (hs : Same N A) : Same M M' := by
  refine same_of_w h1.wf h2.wf (h1.tri.trans h2.tri.symm) (fun x hx => ?_)
  rw [h1.tri] at hx
  rw [h1.w x hx, h2.w x hx, hs.w, hs.w, hs.w]

/-- lifts of curves around vertices, through a whole crush -/
theorem Crushes.links (H : Crushes P c f g1 g2 m s a b e X) (hP : ∀ L, ∃ k, P L = .ok k) (hN : p.NoArcs) (hp : p.Peripheral) (hc : p.Connected) (ht : p.tri = f.target) :
    ∃ M, CrushEnc.applyLam P ⟨[.enc g2.inv', .lift m, .enc g1.inv'], f.target, f.source⟩ p = .ok M ∧ (M.Peripheral ∨ Same M c) := by
  obtain ⟨N1, M1, M, m1, m2, m3, m4, m5, m6, m7, m8, m9, m10, m11, m12, m13⟩ := H.mul_lift hP hN ht
  have hp1 := hp.enc hN H.legal2.inv' m1
  have hc1 := hc.enc (noArcs_iff.1 hN).1 H.legal2.inv' m1
  obtain ⟨vs, v, v1, v2, v3⟩ := hp1.link m3 hc1
  rw [m4] at v1 v3
  have st := star_of_mem H.crush.target.valid v1 v2
  obtain ⟨M', q1, -, q3, q4, q5⟩ := H.crush.lift_vertex hP v1 v2
  obtain ⟨M'', r1, r2⟩ := H.crush.lift hP (link_noArcs st.valid st.ex) rfl
  have := Same.unique q1 r1
  subst this
  have sM : Same M1 M' := m6.same r2 v3
  refine ⟨M, m13, ?_⟩
  by_cases q : inv b ∈ v ∨ inv e ∈ v
  · right
    obtain ⟨K0, k1, k2⟩ := H.acts
    have back := (H.legal1.undo H.curve.1 k1).2.2.2
    have sm : Same K0 M1 := (k2.trans (q4 q)).trans sM.symm
    have := Enc.applyLam_cls back sm.1.symm sm.2.symm
    rw [m8] at this
    injection this with this
    exact ⟨m11, by rw [this]⟩
  · left
    push Not at q
    exact ((q5 q.1 q.2).same sM.symm).enc m7 H.legal1.inv' m8

theorem Same.connected_iff (h : Same L K) : L.Connected → K.Connected := fun q => q.same h

/-- a crush along an essential curve -/
theorem crush_crusher {dflt : Int → Int → Bool} {fuel : Nat} (hc : c.NoArcs) (hcc : c.Connected) (hp : ¬ c.Peripheral) (hP : ∀ L, ∃ k, P L = .ok k) (h : c.crush P dflt fuel = .ok f) : ∃ g, Crusher P [c] f g := by
  obtain ⟨g1, g2, m, s, a, b, e, X, H⟩ := crush_spec hc hp h
  obtain ⟨s1, s2, s3, s4⟩ := C88_surface P dflt fuel c hc hp f h
  obtain ⟨g, i1, i2⟩ := C89_lift P dflt fuel c hc hP hp f h
  have eg := i1
  rw [H.inverse] at eg
  injection eg with eg
  refine ⟨g, ⟨?_, by simp, ⟨by rw [s1]; exact hc.1.1, s2⟩, by rw [s3, s1], ?_, i1, ?_, ?_, ?_, ?_, ?_, ?_, ?_, ?_⟩⟩
  · intro d hd
    rw [List.mem_singleton.1 hd, s1]
    exact ⟨hc, hcc, hp, rfl⟩
  · obtain ⟨n, n1, n2⟩ := s4
    exact ⟨n, by rw [s1]; exact n1, n2⟩
  · rw [← eg]; exact ⟨rfl, rfl⟩
  · intro L hL ht hd
    exact C90_crush P dflt fuel c hc hP hp f h L (hd c (by simp))
  · intro S L1 L2 K K1 K2 hS ht hd hu h0 h1 h2
    obtain ⟨K', K1', K2', q0, q1, q2, q3⟩ := H.union hP (hd c (by simp)) hu
    rw [Same.unique h0 q0, Same.unique h1 q1, Same.unique h2 q2]
    exact q3
  · intro N hN ht
    obtain ⟨M, m1, m2, m3, m4⟩ := i2 N hN ht
    exact ⟨M, m1, m2.trans s1.symm, m3, fun d hd => by rw [List.mem_singleton.1 hd]; exact m4⟩
  · intro N N1 N2 M M1 M2 hN ht hu h0 h1 h2
    obtain ⟨K', K1', K2', q0, q1, q2, q3⟩ := H.lift_union hP hN ht hu
    rw [eg] at q0 q1 q2
    rw [Same.unique h0 q0, Same.unique h1 q1, Same.unique h2 q2]
    exact q3
  · intro L K M hL ht hd h1 h2
    obtain ⟨g', K', M', n, q1, q2, q3, q4, q5⟩ := C89_lift_crush P dflt fuel c hc hP hp f h L hL (hd c (by simp))
    rw [i1] at q1
    injection q1 with q1
    subst q1
    have e1 := Same.unique h1 q2
    subst e1
    have e2 := Same.unique h2 q3
    subst e2
    refine ⟨List.replicate n c, fun d hd => ?_, q4, fun d hd => ?_⟩
    · rw [List.eq_of_mem_replicate hd]; simp
    · rw [List.mem_singleton.1 hd]; exact q5
  · intro N M K hN ht h1 h2
    obtain ⟨g', q1, l, r, -, -, -, -, -, -, l1, r1, -, l2, r2, q2⟩ := C90_crush_lift P dflt fuel c hc hP hp f h
    rw [i1] at q1
    injection q1 with q1
    subst q1
    obtain ⟨M', K', n, k, k1, k2, k3, -⟩ := q2 N hN ht
    have e1 := Same.unique h1 k1
    subst e1
    have e2 := Same.unique h2 k2
    subst e2
    refine ⟨_, k3, fun p hp => ?_⟩
    rcases List.mem_append.1 hp with q | q
    · rw [List.eq_of_mem_replicate q]
      obtain ⟨M, a1, a2⟩ := l2
      exact ⟨l1, M, a1, c, by simp, a2⟩
    · rw [List.eq_of_mem_replicate q]
      obtain ⟨M, a1, a2⟩ := r2
      exact ⟨r1, M, a1, c, by simp, a2⟩
  · intro p M hN hp hc ht h1
    obtain ⟨M', q1, q2⟩ := H.links hP hN hp hc ht
    rw [eg] at q1
    have e1 := Same.unique h1 q1
    subst e1
    exact q2.imp id (fun q => ⟨c, by simp, q⟩)

theorem ofEnc_apply (hL : L.tri = h.source) : (CrushEnc.ofEnc h).applyLam P L = h.applyLam L := by
  unfold CrushEnc.applyLam CrushEnc.ofEnc
  dsimp only
  rw [Triangulation.eq_decide, hL]
  simp only [decide_true, Bool.not_true, Bool.false_eq_true, if_false, List.foldlM_cons, List.foldlM_nil, CrushPart.applyLam]
  cases h.applyLam L <;> rfl

/-- a mapping crushes nothing -/
theorem ofEnc_crusher (hh : h.Legal) : Crusher P [] (.ofEnc h) (.ofEnc h.inv') := by
  obtain ⟨a1, -, -, ⟨n1, _, n2, n3, -⟩, -⟩ := C36_invariant h hh
  have v1 := hh.path.valid_source
  have v2 := hh.path.valid_target
  have hi := hh.inv'
  have is : h.inv'.source = h.target := rfl
  have it : h.inv'.target = h.source := rfl
  refine ⟨by simp, .nil, ⟨v1, v2⟩, a1, ⟨n1, n2, n3⟩, ?_, ⟨rfl, rfl⟩, ?_, ?_, ?_, ?_, ?_, ?_, ?_⟩
  · have i1 : h.inverse = .ok h.inv' := Enc.inverse_eq hh
    unfold CrushEnc.inverse CrushEnc.ofEnc
    simp only [List.reverse_cons, List.reverse_nil, List.nil_append, List.mapM_cons, List.mapM_nil, CrushPart.inverse, i1, py_bind_ok]
    rfl
  · intro L hL ht _
    obtain ⟨⟨K, K'⟩, w⟩ := hh.applyLam_total ⟨L, hL, ht⟩
    dsimp only at w
    exact ⟨K, by rw [ofEnc_apply ht]; exact w, K'.2, K'.1, fun q => hh.noArcs q w⟩
  · intro S L1 L2 K K1 K2 hS ht _ hu h0 h1 h2
    have t1 := hu.wf.2.2.1.trans ht
    have t2 := hu.wf.2.2.2.trans ht
    rw [ofEnc_apply ht] at h0
    rw [ofEnc_apply t1] at h1
    rw [ofEnc_apply t2] at h2
    obtain ⟨X1, Y1, x1, x2, x3⟩ := hu.enc hS hh h0
    rw [Same.unique h1 x1, Same.unique h2 x2]
    exact x3
  · intro N hN ht
    obtain ⟨⟨K, K'⟩, w⟩ := hi.applyLam_total ⟨N, (noArcs_iff.1 hN).1, ht⟩
    dsimp only at w
    exact ⟨K, by rw [ofEnc_apply ht]; exact w, K'.2, hi.noArcs hN w, by simp⟩
  · intro N N1 N2 M M1 M2 hN ht hu h0 h1 h2
    have t1 := hu.wf.2.2.1.trans ht
    have t2 := hu.wf.2.2.2.trans ht
    rw [ofEnc_apply ht] at h0
    rw [ofEnc_apply t1] at h1
    rw [ofEnc_apply t2] at h2
    obtain ⟨X1, Y1, x1, x2, x3⟩ := hu.enc (noArcs_iff.1 hN).1 hi h0
    rw [Same.unique h1 x1, Same.unique h2 x2]
    exact x3
  · intro L K M hL ht _ h1 h2
    rw [ofEnc_apply ht] at h1
    obtain ⟨q1, q2, -, q3⟩ := hh.undo hL.1 h1
    rw [ofEnc_apply q2] at h2
    rw [Same.unique h2 q3]
    exact ⟨[], by simp, unions_self hL.1, by simp⟩
  · intro N M K hN ht h1 h2
    rw [ofEnc_apply ht] at h1
    obtain ⟨q1, q2, -, q3⟩ := hh.undo' hN.1 h1
    rw [ofEnc_apply q2] at h2
    rw [Same.unique h2 q3]
    exact ⟨[], unions_self hN.1, by simp⟩
  · intro p M hN hp hc ht h1
    rw [ofEnc_apply ht] at h1
    exact .inl (hp.enc hN hi h1)

end Lam
end Curver
