import Verif.Spec.Separating
import Verif.Proofs.PartMove
import Verif.Proofs.UnionMap

/-!
# Mappings preserve whether curves separate
-/

namespace Curver
open Triangulation
namespace Lam
variable {L L1 K : Lam Int} {S T : Triangulation}

theorem NoArcs.even (h : L.NoArcs) {x y z : Int} (hg : L.tri.Glues x y z) : (L.w x + L.w y + L.w z) % 2 = 0 := by
  obtain ⟨h1, h2⟩ := noArcs_iff.1 h
  have t := (consistent_iff.1 h1).2 _ _ _ hg
  have a1 := h2 _ _ _ hg
  have a2 := h2 _ _ _ hg.rot
  have a3 := h2 _ _ _ hg.rot.rot
  unfold TriEven at t
  rw [max_eq_left a1.1, max_eq_left a2.1, max_eq_left a3.1] at t
  exact Int.even_iff.1 (t (by linarith [a1.2]) (by linarith [a2.2]) (by linarith [a3.2]))

/-- after a flip -/
theorem VertexSides.flip {U U' : Int → Int} {σ : Int → Bool} {e ε a b c d : Int} (h : VertexSides S U σ) (D : FlipData S T e ε a b c d) (iU : ∀ x, U (inv x) = U x) (iU' : ∀ x, U' (inv x) = U' x)
    (kept : ∀ x, S.IsLabel x → x ≠ e → x ≠ inv e → U' x = U x) (even : (U' ε + U d + U a) % 2 = 0) : ∃ σ', VertexSides T U' σ' := by
  have la := D.hS.label_of_glues D.s1
  have lc := D.hS.label_of_glues D.s2
  have na := D.ne a (by simp)
  have nb := D.ne b (by simp)
  have nc := D.ne c (by simp)
  have nd := D.ne d (by simp)
  have ni : ∀ {x}, x ≠ e ∧ x ≠ inv e → inv x ≠ e ∧ inv x ≠ inv e := fun h => ⟨fun q => h.2 (inv_eq_iff.1 q), fun q => h.1 (inv_inj.1 q)⟩
  let σ' : Int → Bool := fun x => if x = ε then σ (inv a) else if x = inv ε then σ (inv c) else σ x
  have n1 : inv ε ≠ ε := Curver.inv_ne ε
  have v1 : σ' ε = σ (inv a) := if_pos rfl
  have v2 : σ' (inv ε) = σ (inv c) := by
    show (if _ then _ else _) = _
    rw [if_neg n1, if_pos rfl]
  have v3 : ∀ {x}, x ≠ e ∧ x ≠ inv e → σ' x = σ x := by
    intro x hx
    show (if _ then _ else _) = _
    rcases D.eps with q | q
    · rw [q, if_neg hx.1, if_neg hx.2]
    · rw [q, Curver.inv_inv, if_neg hx.2, if_neg hx.1]
  have s1 := h.1 _ _ _ D.s1
  have s2 := h.1 _ _ _ D.s1.rot
  have s3 := h.1 _ _ _ D.s1.rot.rot
  have s4 := h.1 _ _ _ D.s2
  have s5 := h.1 _ _ _ D.s2.rot
  have s6 := h.1 _ _ _ D.s2.rot.rot
  rw [Curver.inv_inv] at s5
  refine ⟨σ', ?_, ?_⟩
  · intro x y z hg
    have hx := D.isLabel_iff.1 (D.hT.label_of_glues hg).1
    by_cases q : x ∈ [ε, inv ε, d, a, b, c]
    · simp only [List.mem_cons, List.not_mem_nil, or_false] at q
      rcases q with rfl | rfl | rfl | rfl | rfl | rfl
      · rw [(D.hT.glues_unique hg D.t1).2, v1, v3 (ni na)]
      · rw [(D.hT.glues_unique hg D.t2).2, v2, v3 (ni nc)]
      · rw [(D.hT.glues_unique hg D.t1.rot).2, v2, v3 nd, s6]
      · rw [(D.hT.glues_unique hg D.t1.rot.rot).2, v3 na, v3 (ni nd), s2, s4]
      · rw [(D.hT.glues_unique hg D.t2.rot).2, Curver.inv_inv, v1, v3 nb, s3]
      · rw [(D.hT.glues_unique hg D.t2.rot.rot).2, v3 nc, v3 (ni nb), s5, s1]
    · have hg' := D.symm.far hg q
      have k := h.1 _ _ _ hg'
      have ne : ∀ {x y z}, S.Glues x y z → T.Glues x y z → x ∉ [ε, inv ε, d, a, b, c] → (x ≠ e ∧ x ≠ inv e) ∧ (z ≠ e ∧ z ≠ inv e) := by
        intro x y z g g' q
        simp only [List.mem_cons, List.not_mem_nil, or_false, not_or] at q
        have e1 : x ≠ e ∧ x ≠ inv e := by
          rcases D.eps with k | k
          · rw [k] at q; exact ⟨q.1, q.2.1⟩
          · rw [k, Curver.inv_inv] at q; exact ⟨q.2.1, q.1⟩
        refine ⟨e1, ?_, ?_⟩
        · rintro rfl
          exact q.2.2.2.1 (D.hS.glues_unique g.rot.rot D.s1).1
        · rintro rfl
          exact q.2.2.2.2.2 (D.hS.glues_unique g.rot.rot D.s2).1
      obtain ⟨m1, m2⟩ := ne hg' hg q
      rw [v3 m1, v3 (ni m2)]
      exact k
  · intro x hx
    rw [D.isLabel_iff] at hx
    have ia := h.2 a la.2.1
    have id := h.2 d lc.2.2
    have key : (σ' ε ≠ σ' (inv ε)) ↔ U' ε % 2 = 1 := by
      rw [v1, v2]
      rw [← s6]
      rw [s2] at ia
      rw [← s4] at id
      revert ia id
      cases σ (inv a) <;> cases σ d <;> cases σ (inv e) <;> simp <;> omega
    by_cases q1 : x = ε
    · rw [q1]; exact key
    by_cases q2 : x = inv ε
    · rw [q2, Curver.inv_inv, iU', ← key]; exact ⟨Ne.symm, Ne.symm⟩
    have hx' : x ≠ e ∧ x ≠ inv e := by
      rcases D.eps with k | k
      · rw [k] at q1 q2; exact ⟨q1, q2⟩
      · rw [k, Curver.inv_inv] at q2; rw [k] at q1; exact ⟨q2, q1⟩
    rw [v3 hx', v3 (ni hx'), kept x hx hx'.1 hx'.2]
    exact h.2 x hx

theorem Separates.flip (h : L.Separates) (hL : L.NoArcs) {T : Triangulation} {e : Int} (he : L.tri.Flippable e) (hm : L.tri.IsMultiflip [e] T)
    (ha : (flipMove L.tri T e).move.applyLam L = .ok L1) : L1.Separates ∧ L1.NoArcs ∧ L1.tri = T := by
  obtain ⟨σ, hs⟩ := h
  replace ha : EdgeFlip.applyLam ⟨L.tri, T, e, L.tri.sq e⟩ L = .ok L1 := ha
  rw [ef_applyLam_iff hL.1 he] at ha
  obtain ⟨rfl, hFl⟩ := ha
  have hN : L1.NoArcs := noArcs_iff.2 ⟨hFl.consistent (noArcs_iff.1 hL).1 (disjoint_singleton.2 he) hm, hFl.taut hL.1 (noArcs_iff.1 hL).2 (disjoint_singleton.2 he) hm⟩
  obtain ⟨ε, a, b, c, d, D, W⟩ := hFl.flipW hL.1 he hm
  refine ⟨?_, hN, rfl⟩
  have la := D.hS.label_of_glues D.s1
  have lc := D.hS.label_of_glues D.s2
  have nd := D.ne d (by simp)
  have na := D.ne a (by simp)
  have ev := hN.even D.t1
  rw [W.kept d lc.2.2 nd.1 nd.2, W.kept a la.2.1 na.1 na.2] at ev
  exact hs.flip D W.inv W.inv' W.kept ev

theorem Separates.flips : ∀ (es : List Int) {T : Triangulation} {ms : List LMove} {L L1 : Lam Int}, T.Valid → T.DisjointSupport es → flipOneByOne T es = .ok ms → L.Separates → L.NoArcs →
    L.tri = T → performLam ms L = .ok L1 → L1.Separates := by
  intro es
  induction es with
  | nil =>
    intro T ms L L1 hT hd hf h hL ht ha
    simp only [flipOneByOne, Except.ok.injEq] at hf
    subst hf
    cases ha
    exact h
  | cons e es ih =>
    intro T ms L L1 hT hd hf h hL ht ha
    subst ht
    have he := hd.flippable (e := e) (by simp)
    obtain ⟨T', h1, h2⟩ := hT.encodeFlip_eq he
    have hdt := (h1.disjoint_tail hT hd).1
    simp only [flipOneByOne, h2, py_bind_ok, Move.target, py_bind_eq_ok] at hf
    obtain ⟨ms', h3, hf⟩ := hf
    cases hf
    simp only [performLam, py_bind_eq_ok] at ha
    obtain ⟨K, g1, g2⟩ := ha
    obtain ⟨k1, k2, k3⟩ := h.flip hL he h1 g1
    exact ih h1.valid hdt h3 k1 k2 k3 g2

theorem Separates.move {m : LMove} (h : L.Separates) (hL : L.NoArcs) (hm : m.Legal) (ht : L.tri = m.move.source) (ha : m.move.applyLam L = .ok L1) : L1.Separates := by
  cases hm.shape with
  | flip S T e hS he hm' =>
    replace ht : L.tri = S := ht
    subst ht
    exact (h.flip hL he hm' ha).1
  | multiflip S T es hS he hm' =>
    replace ht : L.tri = S := ht
    subst ht
    obtain ⟨rfl, hF⟩ := (mf_applyLam_iff hL.1 he).1 ha
    obtain ⟨ms, f1, f2, f3, -⟩ := flipOneByOne_ok (R := Int) es L.tri hS he
    have hend : L1.tri = endOf L.tri ms := IsMultiflip.unique hS.comp he.1 hm' f2
    exact h.flips es hS he f1 hL rfl ((f3 L L1 hL.1 rfl).2 ⟨hend, hF⟩)
  | isometry S T f g i i' hS hT hf hg hi hi' hgf hfg =>
    replace ht : L.tri = S := ht.trans hi.source
    subst ht
    obtain ⟨rfl, hm'⟩ := (hi.applyLam_iff hf hL.1 rfl).1 ha
    obtain ⟨σ, s1, s2⟩ := h
    refine ⟨fun x => σ (g x), ?_, ?_⟩
    · intro x y z hgl
      have hl := hT.comp.label_of_glues hgl
      dsimp only
      rw [hg.inverts _ hl.2.2]
      exact s1 _ _ _ (hg.glues _ _ _ hgl)
    · intro x hx
      dsimp only
      have q := hm'.2.2 (g x) (hg.maps x hx)
      rw [hfg x hx] at q
      rw [hg.inverts _ hx, q]
      exact s2 _ (hg.maps x hx)

theorem Separates.path {S T : Triangulation} {ms : List LMove} (hp : Path S ms T) : ∀ {L L1 : Lam Int}, L.Separates → L.NoArcs → L.tri = S → performLam ms L = .ok L1 → L1.Separates := by
  induction hp with
  | nil T hT =>
    intro L L1 h _ _ ha
    cases ha
    exact h
  | cons m ms T h hs ih =>
    intro L L1 hsp hL ht ha
    simp only [performLam, py_bind_eq_ok] at ha
    obtain ⟨K, h1, h2⟩ := ha
    have k := hsp.move hL h ht h1
    obtain ⟨K', k1, k2, k3, k4⟩ := h.applyLam_total (noArcs_iff.1 hL).1 ht
    rw [h1] at k1
    cases k1
    exact ih k (noArcs_iff.2 ⟨k3, h.taut hL.1 (noArcs_iff.1 hL).2 ht h1⟩) k2 h2

/-- mappings take separating curves to separating curves -/
theorem Separates.enc {h : Enc} (hs : L.Separates) (hL : L.NoArcs) (hh : h.Legal) (ha : h.applyLam L = .ok L1) : L1.Separates := by
  rw [Enc.applyLam_eq] at ha
  split_ifs at ha with q
  exact Separates.path hh.path hs hL q.symm ha

theorem Separates.same (h : L.Separates) (hs : Same L K) : K.Separates := by
  obtain ⟨σ, h⟩ := h
  have : K.w = L.w := by
    funext x
    unfold Lam.w
    rw [hs.2]
  exact ⟨σ, by rw [this, ← hs.1]; exact h⟩

end Lam
end Curver
