import Verif.Proofs.ShortenTwist

/-!
# Following a lamination: `trace_curve`, and the sequence along which `shorten` cuts
-/

namespace Curver
open Triangulation

namespace Triangulation
variable {T : Triangulation}

/-- from the edge `u` across a triangle to the edge `v` -/
def Across (T : Triangulation) (u v : Int) : Prop := ∃ w, T.Glues (inv u) v w ∨ T.Glues v (inv u) w

theorem step_counts (hT : T.Valid) {x y z : Int} (hg : T.Glues x y z) : ∀ (l : List Int) (u : Int), List.IsChain T.Across (u :: l) →
    ∃ p q r : Nat, l.count x + (u :: l).dropLast.count (inv x) = p + r ∧ l.count y + (u :: l).dropLast.count (inv y) = p + q ∧ l.count z + (u :: l).dropLast.count (inv z) = q + r
  | [], u, _ => ⟨0, 0, 0, by simp, by simp, by simp⟩
  | v :: l, u, h => by
    obtain ⟨⟨w, h1⟩, h2⟩ := List.isChain_cons_cons.1 h
    obtain ⟨p, q, r, e1, e2, e3⟩ := step_counts hT hg l v h2
    have hc := hT.comp
    obtain ⟨n1, n2, n3⟩ := hc.glues_ne hg
    have hcnt : ∀ x : Int, (v :: l).count x + (u :: v :: l).dropLast.count (inv x) = l.count x + (v :: l).dropLast.count (inv x) + (if v = x then 1 else 0) + (if inv u = x then 1 else 0) := by
      intro x
      rw [List.dropLast_cons_cons, List.count_cons, List.count_cons]
      have : (u == inv x) = decide (inv u = x) := by
        rw [Bool.eq_iff_iff, beq_iff_eq, decide_eq_true_eq]
        constructor
        · rintro rfl; exact inv_inv x
        · rintro rfl; exact (inv_inv u).symm
      rw [this]
      simp only [beq_iff_eq, decide_eq_true_eq]
      omega
    rw [hcnt, hcnt, hcnt]
    generalize List.count x l + List.count (inv x) (v :: l).dropLast = cx at e1 ⊢
    generalize List.count y l + List.count (inv y) (v :: l).dropLast = cy at e2 ⊢
    generalize List.count z l + List.count (inv z) (v :: l).dropLast = cz at e3 ⊢
    -- the pair is one of the three corners, or elsewhere
    have cases : (inv u = x ∧ v = y ∨ v = x ∧ inv u = y) ∨ (inv u = y ∧ v = z ∨ v = y ∧ inv u = z) ∨ (inv u = z ∧ v = x ∨ v = z ∧ inv u = x) ∨
        ((inv u ≠ x ∧ inv u ≠ y ∧ inv u ≠ z) ∧ (v ≠ x ∧ v ≠ y ∧ v ≠ z)) := by
      have main : ∀ s t, T.Glues s t w → (s = x ∧ t = y) ∨ (s = y ∧ t = z) ∨ (s = z ∧ t = x) ∨ ((s ≠ x ∧ s ≠ y ∧ s ≠ z) ∧ (t ≠ x ∧ t ≠ y ∧ t ≠ z)) := by
        intro s t hst
        by_cases a1 : s = x
        · subst a1; exact .inl ⟨rfl, (hc.glues_unique hst hg).1⟩
        by_cases a2 : s = y
        · subst a2; exact .inr (.inl ⟨rfl, (hc.glues_unique hst hg.rot).1⟩)
        by_cases a3 : s = z
        · subst a3; exact .inr (.inr (.inl ⟨rfl, (hc.glues_unique hst hg.rot.rot).1⟩))
        refine .inr (.inr (.inr ⟨⟨a1, a2, a3⟩, ?_, ?_, ?_⟩))
        · rintro rfl; exact a3 (hc.glues_unique hst.rot hg).2
        · rintro rfl; exact a1 (hc.glues_unique hst.rot hg.rot).2
        · rintro rfl; exact a2 (hc.glues_unique hst.rot hg.rot.rot).2
      rcases h1 with h1 | h1
      · rcases main _ _ h1 with k | k | k | k
        · exact .inl (.inl k)
        · exact .inr (.inl (.inl k))
        · exact .inr (.inr (.inl (.inl k)))
        · exact .inr (.inr (.inr k))
      · rcases main _ _ h1 with k | k | k | k
        · exact .inl (.inr k)
        · exact .inr (.inl (.inr k))
        · exact .inr (.inr (.inl (.inr k)))
        · exact .inr (.inr (.inr ⟨k.2, k.1⟩))
    rcases cases with k | k | k | k
    · refine ⟨p + 1, q, r, ?_⟩
      rcases k with ⟨k1, k2⟩ | ⟨k1, k2⟩
      · simp only [k1, k2, n1, n1.symm, n2, n2.symm, n3, n3.symm, if_true, if_false]; omega
      · simp only [k1, k2, n1, n1.symm, n2, n2.symm, n3, n3.symm, if_true, if_false]; omega
    · refine ⟨p, q + 1, r, ?_⟩
      rcases k with ⟨k1, k2⟩ | ⟨k1, k2⟩
      · simp only [k1, k2, n1, n1.symm, n2, n2.symm, n3, n3.symm, if_true, if_false]; omega
      · simp only [k1, k2, n1, n1.symm, n2, n2.symm, n3, n3.symm, if_true, if_false]; omega
    · refine ⟨p, q, r + 1, ?_⟩
      rcases k with ⟨k1, k2⟩ | ⟨k1, k2⟩
      · simp only [k1, k2, n1, n1.symm, n2, n2.symm, n3, n3.symm, if_true, if_false]; omega
      · simp only [k1, k2, n1, n1.symm, n2, n2.symm, n3, n3.symm, if_true, if_false]; omega
    · refine ⟨p, q, r, ?_⟩
      obtain ⟨⟨a1, a2, a3⟩, a4, a5, a6⟩ := k
      simp only [a1, a2, a3, a4, a5, a6, if_false]; omega

/-- a closed path is a curve -/
theorem closed_noArcs (hT : T.Valid) {u : Int} {l : List Int} (h : List.IsChain T.Across ((u :: l) ++ [u])) : (T.curveFromCutSequence (u :: l) : Lam Int).NoArcs := by
  refine Lam.cut_noArcs hT ?_
  intro x y z hg
  obtain ⟨p, q, r, e1, e2, e3⟩ := step_counts hT hg (l ++ [u]) u h
  have hd : (u :: (l ++ [u])).dropLast = u :: l := by
    rw [← List.cons_append, List.dropLast_concat]
  have hcn : ∀ x, (l ++ [u]).count x + (u :: (l ++ [u])).dropLast.count (inv x) = (u :: l).count x + (u :: l).count (inv x) := by
    intro x
    rw [hd, List.count_append, List.count_singleton, List.count_cons (l := l) (a := x)]
  rw [hcn] at e1 e2 e3
  unfold cn
  refine ⟨by omega, r, by omega⟩

end Triangulation

namespace Lam
variable {L : Lam Int}

theorem traceFrom_spec (hL : L.WellFormed) {start tilde : Int} : ∀ (n : Nat) {edge i lo up : Int} {tail : List Int} {c : Lam Int}, List.IsChain L.tri.Across (start :: tail) →
    (start :: tail).getLast (by simp) = edge → L.tri.IsLabel edge → (∀ x ∈ start :: tail, 0 < L.w x) → L.traceFrom start tilde n edge i lo up (start :: tail) = .ok c →
    ∃ l, c = L.tri.curveFromCutSequence (start :: l) ∧ List.IsChain L.tri.Across ((start :: l) ++ [start]) ∧ ∀ x ∈ start :: l, 0 < L.w x
  | 0, edge, i, lo, up, tail, c, _, _, _, _, h => by cases h
  | n + 1, edge, i, lo, up, tail, c, h1, h2, h3, h4, h => by
    have hc := hL.1.comp
    rw [Lam.traceFrom] at h
    rw [py_bind_eq_ok] at h
    obtain ⟨t, t1, h⟩ := h
    obtain ⟨ht, hg⟩ := hc.corner_ok_iff.1 t1
    simp only [py_bind_eq_ok] at h
    obtain ⟨dx, h5, dz, h6, wx, h7, wz, h8, h⟩ := h
    split at h
    · cases h
    simp only [py_bind_eq_ok] at h
    obtain ⟨w, h9, h⟩ := h
    generalize hnext : (if i < dz then t.y else t.z) = next at h h9
    generalize (if i < dz then i else wz - wx + i) = i' at h
    have hstep : L.tri.Across edge next := by
      rw [← hnext]
      split
      · exact ⟨t.z, .inl (by rw [← ht]; exact hg)⟩
      · exact ⟨t.y, .inr (by rw [← ht]; exact hg.rot.rot)⟩
    have hchain : List.IsChain L.tri.Across ((start :: tail) ++ [next]) := by
      rw [List.isChain_append]
      refine ⟨h1, by simp, ?_⟩
      intro x hx y hy
      rw [List.getLast?_eq_getLast_of_ne_nil (by simp), h2] at hx
      simp only [Option.mem_def, Option.some.injEq, List.head?_cons] at hx hy
      subst hx hy
      exact hstep
    have hnl : L.tri.IsLabel next := by
      have := hc.label_of_glues hg
      rw [← hnext]; split
      · exact this.2.1
      · exact this.2.2
    split at h
    · next hs =>
      subst hs
      split at h
      · cases h
        exact ⟨tail, rfl, hchain, h4⟩
      · cases h
    · simp only [py_bind_eq_ok, pyAssert_ok_iff, decide_eq_true_eq] at h
      obtain ⟨_, h10, h⟩ := h
      rw [wt_eq hL.2 hnl] at h9
      cases h9
      refine traceFrom_spec hL n (tail := tail ++ [next]) hchain (by simp) hnl ?_ h
      intro x hx
      rw [← List.cons_append, List.mem_append, List.mem_singleton] at hx
      rcases hx with hx | rfl
      · exact h4 x hx
      · omega

theorem traceCurve_cls (hL : L.WellFormed) {edge i : Int} {n : Nat} {c : Lam Int} (hf : L.tri.IsLabel edge) (h : L.traceCurve edge i n = .ok c) : c.cls = .curve := by
  unfold Lam.traceCurve at h
  rw [wt_eq hL.2 hf, py_bind_ok] at h
  simp only [py_bind_eq_ok, pyAssert_ok_iff, decide_eq_true_eq] at h
  obtain ⟨_, h1, d, h2, h3⟩ := h
  obtain ⟨l, rfl, h4, h5⟩ := traceFrom_spec hL n (tail := []) (List.isChain_singleton edge) rfl hf (by simp; omega) h3
  rfl

theorem traceCurve_spec (hL : L.WellFormed) {edge i : Int} {n : Nat} {c : Lam Int} (hf : L.tri.IsLabel edge) (h : L.traceCurve edge i n = .ok c) :
    c.tri = L.tri ∧ c.NoArcs ∧ ∀ f, L.tri.IsLabel f → L.w f ≤ 0 → c.w f = 0 := by
  unfold Lam.traceCurve at h
  rw [wt_eq hL.2 hf, py_bind_ok] at h
  simp only [py_bind_eq_ok, pyAssert_ok_iff, decide_eq_true_eq] at h
  obtain ⟨_, h1, d, h2, h3⟩ := h
  obtain ⟨l, rfl, h4, h5⟩ := traceFrom_spec hL n (tail := []) (List.isChain_singleton edge) rfl hf (by simp; omega) h3
  refine ⟨rfl, closed_noArcs hL.1 h4, ?_⟩
  intro f hfl h0
  rw [cut_w _ hfl]
  unfold cn
  rw [List.count_eq_zero_of_not_mem, List.count_eq_zero_of_not_mem]
  · rfl
  · intro k
    have := h5 _ k
    rw [w_inv] at this
    omega
  · intro k
    have := h5 _ k
    omega

/-- all left weights are at least zero -/
def NoArcAcross (L : Lam Int) : Prop := ∀ e, L.tri.IsLabel e → ∃ n, L.leftWeight e = .ok n ∧ 0 ≤ n

theorem noBipods_spec (h : L.noBipods = .ok ()) : L.NoArcAcross := by
  unfold Lam.noBipods at h
  simp only [py_bind_eq_ok, pyAssert_ok_iff] at h
  obtain ⟨b, h1, _, h2, -⟩ := h
  subst h2
  rw [pyAllM_ok_iff] at h1
  intro e he
  have := h1 e (mem_labels.2 he)
  rw [py_bind_eq_ok] at this
  obtain ⟨n, h3, h4⟩ := this
  injection h4 with h4
  exact ⟨n, h3, by simpa using h4⟩

theorem dual2_tri {A B C a b c : Int} (hA : 0 ≤ A) (hB : 0 ≤ B) (hC : 0 ≤ C) (h1 : a + a = dual2 A B C) (h2 : b + b = dual2 B C A) (h3 : c + c = dual2 C A B)
    (ha : 0 ≤ a) (hb : 0 ≤ b) (hc : 0 ≤ c) : A = b + c ∧ B = a + c ∧ C = a + b := by
  have := (triDual_iff hA hB hC).2 ⟨h1, h2, h3⟩
  unfold TriDual at this
  omega

theorem NoArcAcross.tri (h : L.NoArcAcross) (hL : L.WellFormed) {a b c : Int} (hg : L.tri.Glues a b c) : ∃ na nb nc, L.leftWeight a = .ok na ∧ L.leftWeight b = .ok nb ∧
    L.leftWeight c = .ok nc ∧ 0 ≤ na ∧ 0 ≤ nb ∧ 0 ≤ nc ∧ max (L.w a) 0 = na + nb ∧ max (L.w b) 0 = nb + nc ∧ max (L.w c) 0 = nc + na := by
  have hl := hL.1.comp.label_of_glues hg
  obtain ⟨na, a1, a2⟩ := h a hl.1
  obtain ⟨nb, b1, b2⟩ := h b hl.2.1
  obtain ⟨nc, c1, c2⟩ := h c hl.2.2
  have d1 := leftWeight_dual hL hg a1
  have d2 := leftWeight_dual hL hg.rot b1
  have d3 := leftWeight_dual hL hg.rot.rot c1
  obtain ⟨e1, e2, e3⟩ := dual2_tri (le_max_right (L.w b) 0) (le_max_right (L.w c) 0) (le_max_right (L.w a) 0) d1 d2 d3 a2 b2 c2
  exact ⟨na, nb, nc, a1, b1, c1, a2, b2, c2, e3, by omega, by omega⟩

theorem follow_spec (hL : L.WellFormed) (hn : L.NoArcAcross) {start : Int} : ∀ (n : Nat) {edge : Int} {add : Bool} {st st' : List Int × List Int}, L.tri.IsLabel edge → 0 < L.w edge →
    (∀ x ∈ st.2, 0 < L.w x) → L.follow start n edge add st = .ok st' → ∀ x ∈ st'.2, 0 < L.w x
  | 0, edge, add, st, st', _, _, _, h => by cases h
  | n + 1, edge, add, (used, sequence), st', h1, h2, h3, h => by
    have hc := hL.1.comp
    simp only [Lam.follow, py_bind_eq_ok] at h
    obtain ⟨t, t1, x, x1, b, b1, h⟩ := h
    obtain ⟨ht, hg⟩ := hc.corner_ok_iff.1 t1
    obtain ⟨na, nb, nc, q1, q2, q3, q4, q5, q6, q7, q8, q9⟩ := hn.tri hL hg
    rw [ht, x1] at q1
    cases q1
    have hw : L.w t.x = L.w edge := by rw [ht, w_inv]
    rw [hw] at q7
    have hseq : ∀ y ∈ (if add = true then sequence ++ [edge] else sequence), 0 < L.w y := by
      intro y hy
      split at hy
      · rw [List.mem_append, List.mem_singleton] at hy
        rcases hy with hy | rfl
        · exact h3 y hy
        · exact h2
      · exact h3 y hy
    have hl := hc.label_of_glues hg
    generalize hnext : (if 0 < x then t.z else t.y) = next at h b1
    have k1 : L.tri.IsLabel next := by
      rw [← hnext]; split
      · exact hl.2.2
      · exact hl.2.1
    have k2 : 0 < L.w next := by
      rw [← hnext]; split <;> omega
    generalize (if add = true then sequence ++ [edge] else sequence) = seq at h hseq
    split at h
    · cases h; exact hseq
    · exact follow_spec hL hn n k1 k2 hseq h

theorem cutSequence_spec (hL : L.WellFormed) (hn : L.NoArcAcross) {n : Nat} {s : List Int} (h : L.cutSequence n = .ok s) : ∀ x ∈ s, 0 < L.w x := by
  unfold Lam.cutSequence at h
  rw [py_bind_eq_ok] at h
  obtain ⟨st, h1, h2⟩ := h
  cases h2
  refine foldlM_inv (fun (st : List Int × List Int) => ∀ x ∈ st.2, 0 < L.w x) (by simp) ?_ h1
  intro st e st' he hst hf
  rw [py_bind_eq_ok] at hf
  obtain ⟨b, b1, hf⟩ := hf
  have hel := mem_labels.1 he
  split at hf
  · cases hf; exact hst
  · next hb =>
    refine follow_spec hL hn n hel ?_ hst hf
    unfold Lam.skipStart at b1
    split at b1
    · injection b1 with b1; exact absurd b1.symm hb
    · rw [py_bind_eq_ok] at b1
      obtain ⟨x, x1, b1⟩ := b1
      split at b1
      · injection b1 with b1; exact absurd b1.symm hb
      · next hx =>
        obtain ⟨y, z, hg⟩ := hL.1.comp.exists_glues hel
        obtain ⟨na, nb, nc, q1, q2, q3, q4, q5, q6, q7, -⟩ := hn.tri hL hg
        rw [x1] at q1; cases q1
        omega

end Lam
end Curver
