import Verif.Proofs.TermUnion
import Verif.Proofs.UnionAssoc
import Verif.Proofs.UnionComp

/-!
# The components parallel to edges can always be taken away, and what is left is smaller
-/

namespace Curver
open Triangulation

theorem foldlM_total {α β : Type} {f : β → α → Py β} : ∀ {l : List α}, (∀ b, ∀ a ∈ l, ∃ b', f b a = .ok b') → ∀ b, ∃ b', l.foldlM f b = .ok b'
  | [], _, b => ⟨b, rfl⟩
  | a :: l, h, b => by
    obtain ⟨b', h1⟩ := h b a (by simp)
    obtain ⟨b'', h2⟩ := foldlM_total (f := f) (l := l) (fun b a ha => h b a (by simp [ha])) b'
    exact ⟨b'', by rw [List.foldlM_cons, h1, py_bind_ok, h2]⟩

namespace Lam
variable {L N N' M : Lam Int} {i : Item} {l : List Item} {f β η : Int} {X : List Int}

theorem Consistent.parallelCurve_total (hL : L.Consistent) {x : Int} (hx : L.tri.IsLabel x) : ∃ o, L.parallelCurve x = .ok o := by
  have hc := hL.1.1.comp
  obtain ⟨v, _, hv, _⟩ := hc.vertexOf_ok hx
  obtain ⟨u, _, hu, _, _, hi, _⟩ := hc.vertexOf_ok (isLabel_inv.2 hx)
  unfold Lam.parallelCurve
  rw [hv, py_bind_ok, hu, py_bind_ok]
  by_cases hvu : v = u
  swap
  · rw [if_neg hvu]; exact ⟨_, rfl⟩
  subst hvu
  rw [if_pos rfl]
  obtain ⟨X, hs, hX⟩ := hc.sweep hx hv hi
  have hA : Around L.tri x X v := ⟨hv, hu, hs⟩
  rw [hA.around rfl, py_bind_ok]
  by_cases hlen : (x :: X).length > 2
  swap
  · rw [if_neg hlen]; exact ⟨_, rfl⟩
  rw [if_pos hlen]
  obtain ⟨β, η, hl⟩ := hA.loop hL.1.1 hx (by simp only [List.length_cons] at hlen; omega)
  obtain ⟨m, p1, -⟩ := aroundWeight_ok hL hl
  obtain ⟨t, q1, -⟩ := twistingWeight_ok hL hl m
  obtain ⟨y, hy⟩ : ∃ y, (x :: X).getLast? = some y := ⟨_, List.getLast?_eq_getLast_of_ne_nil (by simp)⟩
  rw [p1, py_bind_ok, q1, py_bind_ok, hy]
  simp only [List.head?_cons]
  rw [hL.left hx, py_bind_ok, hL.left (hl.label_mem (List.mem_of_getLast? hy)), hA.edgeCurve]
  simp only [py_bind_ok]
  split_ifs <;> exact ⟨_, rfl⟩

theorem Consistent.parallelComponents_total (hL : L.Consistent) : ∃ comps, L.parallelComponents = .ok comps := by
  refine foldlM_total ?_ []
  intro d x hx
  have hx := mem_labels.1 hx
  obtain ⟨o, ho⟩ := hL.parallelCurve_total hx
  unfold parallelStep parallelArc
  rw [wt_eq hL.1.2 hx, ho]
  simp only [py_bind_ok]
  split_ifs <;> exact ⟨_, rfl⟩

theorem Consistent.subtractFrom_total (hL : L.Consistent) (arcs curves : PyDict Int Int) : ∃ r, L.subtractFrom arcs curves = .ok r := by
  obtain ⟨comps, hc⟩ := hL.parallelComponents_total
  unfold subtractFrom
  rw [hc, py_bind_ok]
  refine foldlM_total ?_ _
  intro st p hp
  rw [wt_eq hL.1.2 ((parallel_entries hL.1 hc).1 p hp).1, py_bind_ok]
  split_ifs <;> exact ⟨_, rfl⟩

/-! ## what one item does -/

theorem lf_max (hL : L.WellFormed) (hN : N.WellFormed) (ht : N.tri = L.tri) (h : ∀ x, L.tri.IsLabel x → max (N.w x) 0 = max (L.w x) 0) {x : Int} (hx : L.tri.IsLabel x) : N.lf x = L.lf x := by
  obtain ⟨y, z, hg⟩ := hL.1.comp.exists_glues hx
  have l := hL.1.comp.label_of_glues hg
  have e : N.leftWeight x = L.leftWeight x := by
    rw [leftWeight_eq hL hg, leftWeight_eq hN (by rw [ht]; exact hg), dualWeight_eq hL hg.rot, dualWeight_eq hN (by rw [ht]; exact hg.rot)]
    unfold dual2
    rw [h _ l.1, h _ l.2.1, h _ l.2.2]
  unfold lf
  rw [e]

theorem lf_same (ht : N.tri = L.tri) (hg : N.geometric = L.geometric) (x : Int) : N.lf x = L.lf x := by
  obtain ⟨T, g, c⟩ := L
  obtain ⟨T', g', c'⟩ := N
  subst ht hg
  rfl

theorem loop_lf_nonneg (h : Loop L.tri f β η X) {x : Int} (hx : L.tri.IsLabel x) : 0 ≤ (L.tri.curveFromCutSequence X : Lam Int).lf x := by
  have hC := loop_consistent h
  by_cases q1 : x = f
  · rw [q1, h.lf_f hC]
  by_cases q2 : x = β
  · rw [q2, h.lf_b hC]
  by_cases q3 : x = η
  · rw [q3, h.lf_e hC]; exact cn_nonneg _ _
  rw [h.lf_other hC hx q1 q2 q3]; omega

/-- what is left after some items -/
structure Less (N N' : Lam Int) : Prop where
  cons : N'.Consistent
  tri : N'.tri = N.tri
  lf : ∀ x, N.tri.IsLabel x → N'.lf x ≤ N.lf x
  w : ∀ x, N.tri.IsLabel x → max (N'.w x) 0 ≤ max (N.w x) 0
  neg : N.HasNeg → N'.HasNeg
  noArcs : N.NoArcs → N'.NoArcs
  size : N'.size ≤ N.size

theorem Less.trans {A B C : Lam Int} (h : Less A B) (k : Less B C) : Less A C := by
  refine ⟨k.cons, k.tri.trans h.tri, ?_, ?_, fun q => k.neg (h.neg q), fun q => k.noArcs (h.noArcs q), k.size.trans h.size⟩
  · intro x hx; exact (k.lf x (by rw [h.tri]; exact hx)).trans (h.lf x hx)
  · intro x hx; exact (k.w x (by rw [h.tri]; exact hx)).trans (h.w x hx)

theorem Less.crossed {A B : Lam Int} (h : Less A B) : B.crossed ≤ A.crossed := by
  refine crossed_le (by rw [h.tri]) ?_
  intro x hx h0
  have := h.w x hx
  omega

theorem size_le (hz : N'.tri.zeta = N.tri.zeta) (h : ∀ x, N.tri.IsLabel x → (N'.w x).natAbs ≤ (N.w x).natAbs) : N'.size ≤ N.size := by
  unfold Lam.size
  rw [hz]
  refine List.sum_le_sum ?_
  intro i hi
  rw [List.mem_range] at hi
  exact h i (by unfold Triangulation.IsLabel; omega)

theorem size_lt (hz : N'.tri.zeta = N.tri.zeta) (h : ∀ x, N.tri.IsLabel x → (N'.w x).natAbs ≤ (N.w x).natAbs) {x : Int} (hx : N.tri.IsLabel x) (h1 : (N'.w x).natAbs < (N.w x).natAbs) : N'.size < N.size := by
  unfold Lam.size
  rw [hz]
  have hi := idx_lt hx
  refine List.sum_lt_sum _ _ ?_ ⟨(norm x).toNat, List.mem_range.2 hi, ?_⟩
  · intro i hi
    rw [List.mem_range] at hi
    exact h i (by unfold Triangulation.IsLabel; omega)
  · rw [Int.toNat_of_nonneg (norm_nonneg x), w_norm, w_norm]; exact h1

theorem Consistent.same (h : N.Consistent) (ht : N'.tri = N.tri) (hg : N'.geometric = N.geometric) : N'.Consistent := by
  obtain ⟨T, g, c⟩ := N
  obtain ⟨T', g', c'⟩ := N'
  subst ht hg
  exact h

theorem Item.Takes.less (h : i.Takes N N') (hN : N.Consistent) : Less N N' ∧ N'.size < N.size := by
  have w1 := h.wf
  have hc := hN.1.1.comp
  cases i with
  | arc f μ =>
    have hmax := fun {x} (hx : N.tri.IsLabel x) => h.arc_max hx
    obtain ⟨a1, a2, a3, a4, a5, a6, a7⟩ := h
    have hsz : ∀ x, N.tri.IsLabel x → (N'.w x).natAbs ≤ (N.w x).natAbs := by
      intro x hx
      by_cases q1 : x = f
      · subst q1; omega
      by_cases q2 : x = Curver.inv f
      · subst q2; rw [w_inv, w_inv]; omega
      rw [a7 x hx q1 q2]
    have hC : N'.Consistent := by
      rw [consistent_iff] at hN ⊢
      refine ⟨a1, ?_⟩
      intro x y z hg
      rw [a2] at hg
      have l := hc.label_of_glues hg
      have := hN.2 x y z hg
      unfold TriEven at this ⊢
      rw [hmax l.1, hmax l.2.1, hmax l.2.2]
      exact this
    refine ⟨⟨hC, a2, ?_, ?_, ?_, ?_, size_le (by rw [a2]) hsz⟩, size_lt (by rw [a2]) hsz a3 (by omega)⟩
    · intro x hx
      exact (lf_max hN.1 a1 a2 (fun x hx => hmax hx) hx).le
    · intro x hx; exact (hmax hx).le
    · rintro ⟨e, he, hv⟩
      have hg := hc.glues_nxt he
      have l := hc.label_of_glues hg
      refine ⟨e, by rw [a2]; exact he, ?_⟩
      rw [val_two hN.1 hg] at hv
      rw [val_two a1 (by rw [a2]; exact hg), hmax l.1, hmax l.2.1, hmax l.2.2]
      exact hv
    · intro hn
      exfalso
      obtain ⟨y, z, hg⟩ := hc.exists_glues a3
      have := ((noArcs_iff.1 hn).2 f y z hg).1
      omega
  | curve f k =>
    obtain ⟨a1, a2, a3, a4, β, η, X, a5, a6⟩ := h
    have hl := a5.loop
    have hpos : ∀ x, 0 ≤ k * cn X x := fun x => mul_nonneg a3.le (cn_nonneg _ _)
    have hle := fun {x} (hx : N.tri.IsLabel x) => a5.le a3.le hx
    have hmax : ∀ {x}, N.tri.IsLabel x → max (N'.w x) 0 = max (N.w x) 0 - k * cn X x := by
      intro x hx
      rw [a6 x hx, a5.sub a3.le hx]
    have hsz : ∀ x, N.tri.IsLabel x → (N'.w x).natAbs ≤ (N.w x).natAbs := by
      intro x hx
      have h1 := hle hx
      have h2 := hpos x
      rw [a6 x hx]
      generalize k * cn X x = q at *
      omega
    have gap : ∀ {x y z}, N.tri.Glues x y z → k * cn X x + k * cn X z - k * cn X y = 2 * (k * Triangulation.mu f β η X x) := by
      intro x y z hg
      have := hl.gap hg
      linear_combination k * this
    have mun : ∀ x, 0 ≤ k * Triangulation.mu f β η X x := fun x => mul_nonneg a3.le (mu_nonneg _ _ _ _ _)
    obtain ⟨n, rfl⟩ := Int.eq_ofNat_of_zero_le a3.le
    obtain ⟨K, b1, b2, b3, b4⟩ := Belt.peels n (room_belt hN a5 a3) le_rfl
    have hs : Same N' K := same_of_w w1.1 b2.con.1 (w1.2.trans b3.symm) (fun x hx => by
      rw [w1.2] at hx
      rw [(b4 x hx).2, a6 x hx])
    refine ⟨⟨b2.con.same hs.1 hs.2, a2, ?_, ?_, ?_, ?_, size_le (by rw [a2]) hsz⟩, ?_⟩
    · intro x hx
      rw [lf_same hs.1 hs.2, (b4 x hx).1]
      have := mul_nonneg a3.le (loop_lf_nonneg hl hx)
      omega
    · intro x hx
      rw [hmax hx]
      have := hpos x
      omega
    · rintro ⟨e, he, hv⟩
      have hg := hc.glues_nxt he
      have l := hc.label_of_glues hg
      refine ⟨e, by rw [a2]; exact he, ?_⟩
      rw [val_two hN.1 hg] at hv
      rw [val_two a1 (by rw [a2]; exact hg), hmax l.1, hmax l.2.1, hmax l.2.2]
      have h1 := gap hg.rot.rot
      have h2 := mun (N.tri.nxt (N.tri.nxt e))
      omega
    · intro hn
      rw [noArcs_iff] at hn ⊢
      refine ⟨b2.con.same hs.1 hs.2, ?_⟩
      intro x y z hg
      rw [a2] at hg
      have l := hc.label_of_glues hg
      have t1 := hn.2 _ _ _ hg
      have t2 := hn.2 _ _ _ hg.rot
      have t3 := hn.2 _ _ _ hg.rot.rot
      have r := a5.room _ _ _ hg.rot.rot
      have g := gap hg.rot.rot
      have p1 := hle l.1
      rw [max_eq_left t1.1] at p1
      unfold Cr at r
      rw [max_eq_left t1.1, max_eq_left t2.1, max_eq_left t3.1] at r
      rw [a6 x l.1, a6 y l.2.1, a6 z l.2.2]
      refine ⟨by omega, ?_⟩
      rcases r with r | r <;> omega
    · have hx := hl.b_mem
      have hlab := hl.label_mem (x := β) (by simp [hx])
      refine size_lt (by rw [a2]) hsz hlab ?_
      have h1 := hle hlab
      have h2 : 1 ≤ cn X β := by rw [hl.cn_b]; omega
      have h3 : (n : Int) * 1 ≤ n * cn X β := mul_le_mul_of_nonneg_left h2 a3.le
      rw [a6 β hlab]
      generalize (n : Int) * cn X β = q at *
      omega

theorem Less.refl' (hN : N.Consistent) (ht : M.tri = N.tri) (hg : M.geometric = N.geometric) : Less N M := by
  have hw : ∀ x, M.w x = N.w x := w_congr hg
  refine ⟨hN.same ht hg, ht, fun x _ => (lf_same ht hg x).le, fun x _ => by rw [hw], ?_, fun h => h.cls_irrel ht hg, ?_⟩
  · obtain ⟨T, g, c⟩ := N
    obtain ⟨T', g', c'⟩ := M
    subst ht hg
    exact id
  · refine size_le (by rw [ht]) (fun x _ => by rw [hw])

theorem Chain.less : ∀ {l : List Item} {N : Lam Int}, Chain N l M → N.Consistent → Less N M ∧ (l ≠ [] → M.size < N.size)
  | [], N, h, hN => ⟨Less.refl' hN h.1 h.2, fun h => absurd rfl h⟩
  | i :: l, N, h, hN => by
    obtain ⟨N', h1, h2⟩ := h
    obtain ⟨k1, k2⟩ := h1.less hN
    have k3 := (Chain.less h2 k1.cons).1
    exact ⟨k1.trans k3, fun _ => lt_of_le_of_lt k3.size k2⟩

end Lam
end Curver
