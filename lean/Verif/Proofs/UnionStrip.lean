import Verif.Proofs.UnionHub
import Verif.Proofs.ShortenMain

/-!
# A short lamination is a disjoint union of curves around vertices, curves around edges and arcs parallel to edges
-/

namespace Curver
open Triangulation
namespace Lam
variable {L N M : Lam Int} {f β η k : Int} {X v : List Int} {l : List Item} {T : Triangulation}

/-- the parts that a short lamination consists of -/
def Basic (T : Triangulation) (Y : Lam Int) : Prop :=
  (∃ v, T.Star v ∧ Y = T.curveFromCutSequence v) ∨ (∃ f, T.IsLabel f ∧ Y = T.edgeArcOf f) ∨ ∃ f β η X, Loop T f β η X ∧ Y = T.curveFromCutSequence X

theorem Basic.connected {Y : Lam Int} (h : Basic T Y) : Y.Connected := by
  rcases h with ⟨v, h, rfl⟩ | ⟨f, h, rfl⟩ | ⟨f, β, η, X, h, rfl⟩
  · exact link_connected h
  · exact arc_connected h
  · exact loop_connected h

theorem room_belt (hN : N.Consistent) (h : Room N.tri N.w f β η X k) (hk : 0 < k) : N.Belt f β η X 0 k := by
  have hl := h.loop
  have t := hN.lf_tri hl.glues
  have b := h.bal
  have o : max (N.w f) 0 = 0 := by have := h.off; omega
  have z : N.lf f = 0 ∧ N.lf β = 0 := by
    rw [o, b] at t
    have n := le_max_right (N.w η) 0
    generalize max (N.w η) 0 = B at *
    unfold TriDual at t
    rcases t with t | t | t | t <;> omega
  refine ⟨hN, hl, z.1, z.2, le_rfl, ?_⟩
  intro x hx hb
  have hlab := hl.label_mem (x := x) (by simp [hx])
  obtain ⟨y, z, hg⟩ := hN.1.1.comp.exists_glues hlab
  have hm : 1 ≤ Triangulation.mu f β η X x := by
    unfold Triangulation.mu
    rw [if_neg (by rintro rfl; exact hl.a_notin hx), if_neg hb]
    split_ifs
    · omega
    · rw [List.count_eq_one_of_mem hl.nodup hx]; rfl
  have hkm : k * 1 ≤ k * Triangulation.mu f β η X x := mul_le_mul_of_nonneg_left hm hk.le
  have r := h.room x y z hg
  generalize k * Triangulation.mu f β η X x = m at *
  have := (hN.strand_iff hg (t := m - 1) (by omega)).1
  unfold Cr at r
  rcases r with r | r
  · omega
  · have := this (by refine ⟨?_, ?_, ?_⟩ <;> omega)
    omega

theorem Item.Takes.peels {i : Item} {N' : Lam Int} (h1 : i.Takes N N') (hN : N.Consistent) : ∃ Xs K, Xs = List.replicate (i.term N.tri).2.toNat (i.term N.tri).1 ∧ N.Peels Xs K ∧ K.tri = N.tri ∧ K.Consistent ∧ (∀ Y ∈ Xs, Basic N.tri Y) ∧
    ∀ x, N.tri.IsLabel x → K.w x = N'.w x := by
  cases i with
  | arc f μ =>
    obtain ⟨a1, a2, a3, a4, a5, a6, a7⟩ := h1
    obtain ⟨n, rfl⟩ := Int.eq_ofNat_of_zero_le a4.le
    obtain ⟨K, b1, b2, b3, b4⟩ := arc_peels (L := N) a3 n hN rfl (by omega)
    refine ⟨_, K, ?_, b1, b2, b3, ?_, ?_⟩
    · unfold Item.term; simp
    · intro Y hY
      rw [List.eq_of_mem_replicate hY]
      exact .inr (.inl ⟨f, a3, rfl⟩)
    · intro x hx
      rw [b4 x hx]
      split_ifs with q
      · rcases q with rfl | rfl
        · omega
        · rw [w_inv, w_inv]; omega
      · rw [not_or] at q
        rw [a7 x hx q.1 q.2]; omega
  | curve f k =>
    obtain ⟨a1, a2, a3, a4, β, η, X, a5, a6⟩ := h1
    obtain ⟨n, rfl⟩ := Int.eq_ofNat_of_zero_le a3.le
    obtain ⟨K, b1, b2, b3, b4⟩ := Belt.peels n (room_belt hN a5 a3) le_rfl
    refine ⟨_, K, ?_, b1, b3, b2.con, ?_, ?_⟩
    · rw [(Item.term_curve a5.loop _).2]; simp
    · intro Y hY
      rw [List.eq_of_mem_replicate hY]
      exact .inr (.inr ⟨f, β, η, X, a5.loop, rfl⟩)
    · intro x hx
      rw [(b4 x hx).2, a6 x hx]

theorem chain_unions : ∀ {l : List Item} {N : Lam Int}, N.Consistent → Chain N l M → (∀ x, N.tri.IsLabel x → M.w x = 0) → ∃ D, N.Unions D ∧ (∀ Y ∈ D, Basic N.tri Y) ∧
    D = (l.map (Item.term N.tri)).flatMap (fun p => List.replicate p.2.toNat p.1)
  | [], N, hN, h, hz => ⟨[], .nil (fun x hx => by rw [← w_congr h.2]; exact hz x hx), by simp, rfl⟩
  | i :: l, N, hN, h, hz => by
    obtain ⟨N', h1, h2⟩ := h
    have w1 := h1.wf
    obtain ⟨Xs, K, p0, p1, p2, p3, p4, p5⟩ := h1.peels hN
    have hs : Same N' K := same_of_w w1.1 p3.1 (w1.2.trans p2.symm) (fun x hx => (p5 x (by rw [← w1.2]; exact hx)).symm)
    obtain ⟨D, d1, d2, d3⟩ := chain_unions p3 (Chain.congr hs.1 hs.2 h2) (by rw [p2]; exact hz)
    refine ⟨Xs ++ D, p1.unions d1, ?_, ?_⟩
    · intro Y hY
      rcases List.mem_append.1 hY with hY | hY
      · exact p4 Y hY
      · rw [← p2]; exact d2 Y hY
    · rw [p0, d3, p2, List.map_cons, List.flatMap_cons]

/-- the curves around all vertices -/
theorem links_peel (μ : Int → Int) : ∀ (vs : List (List Int)) {L : Lam Int}, L.Consistent → (∀ v ∈ vs, L.tri.Star v) → vs.Pairwise List.Disjoint →
    (∀ v ∈ vs, ∃ n : Nat, ∀ x ∈ v, μ x = n ∧ (0 < n → n ≤ L.lf x)) → ∃ Xs M, L.Peels Xs M ∧ M.tri = L.tri ∧ M.Consistent ∧ (∀ Y ∈ Xs, Basic L.tri Y) ∧
    ∀ x, L.tri.IsLabel x → M.w x = L.w x - (if x ∈ vs.flatten then μ x else 0) - (if inv x ∈ vs.flatten then μ (inv x) else 0)
  | [], L, hL, _, _, _ => ⟨[], L, .nil L, rfl, hL, by simp, by simp⟩
  | v :: vs, L, hL, hs, hd, hm => by
    rw [List.pairwise_cons] at hd
    obtain ⟨n, hn⟩ := hm v (by simp)
    have hst := hs v (by simp)
    obtain ⟨b1, b2, b3⟩ := hst.basic
    obtain ⟨K, k1, k2, k3, k4⟩ : ∃ M, L.Peels (List.replicate n (L.tri.curveFromCutSequence v)) M ∧
        M.tri = L.tri ∧ M.Consistent ∧ ∀ x, L.tri.IsLabel x → M.lf x = L.lf x - n * v.count x ∧ M.w x = L.w x - n * (v.count x + v.count (inv x)) := by
      rcases Nat.eq_zero_or_pos n with rfl | hp
      · exact ⟨L, .nil L, rfl, hL, fun x _ => by simp⟩
      · exact Hub.peels n (k := n) ⟨hL, hst, fun x hx => (hn x hx).2 hp⟩ le_rfl
    obtain ⟨Xs, M, m1, m2, m3, m4, m5⟩ := links_peel μ vs k3 (by rw [k2]; exact fun u hu => hs u (by simp [hu])) hd.2 (by
      intro u hu
      obtain ⟨m, hm'⟩ := hm u (by simp [hu])
      refine ⟨m, fun x hx => ?_⟩
      have hxv : x ∉ v := fun h => hd.1 u hu h hx
      rw [(k4 x ((hs u (by simp [hu])).basic.2.1 x hx)).1, List.count_eq_zero.2 hxv]
      simpa using hm' x hx)
    rw [k2] at m2 m4 m5
    refine ⟨_, M, k1.append m1, m2, m3, ?_, ?_⟩
    · intro Y hY
      rcases List.mem_append.1 hY with hY | hY
      · rw [List.eq_of_mem_replicate hY]
        exact .inl ⟨v, hst, rfl⟩
      · exact m4 Y hY
    · intro x hx
      rw [m5 x hx, (k4 x hx).2]
      have key : ∀ x, (if x ∈ (v :: vs).flatten then μ x else 0) = n * v.count x + (if x ∈ vs.flatten then μ x else 0) := by
        intro x
        simp only [List.flatten_cons, List.mem_append]
        by_cases q : x ∈ v
        · have q' : x ∉ vs.flatten := by
            rw [List.mem_flatten]
            rintro ⟨u, hu, hx⟩
            exact hd.1 u hu q hx
          rw [if_pos (.inl q), if_neg q', (hn x q).1, List.count_eq_one_of_mem b1 q]
          simp
        · rw [List.count_eq_zero.2 q]
          simp [q]
      rw [key x, key (inv x)]
      ring

/-- the curves around the vertices can be taken away -/
theorem Consistent.peels {K : Lam Int} (hK : K.Consistent) : ∃ Xs M', K.Peels Xs M' ∧ M'.tri = K.tri ∧ M'.Consistent ∧ (∀ Y ∈ Xs, Basic K.tri Y) ∧
    ∀ x, K.tri.IsLabel x → M'.w x = K.w x - K.mu x - K.mu (inv x) := by
  have hc := hK.1.1.comp
  obtain ⟨vs, hv, -⟩ := hc.vertices_ok
  obtain ⟨v1, v2, v3, v4⟩ := hc.vertices_mem hv
  have hm := isMult_mu hK
  have hlab : ∀ v ∈ vs, ∀ x ∈ v, K.tri.IsLabel x := fun v hv x hx => (v2 v hv).2.2 x hx
  obtain ⟨Xs, M', m1, m2, m3, m4, m5⟩ := links_peel K.mu vs hK (fun v hm => by
      obtain ⟨x, hx⟩ := List.exists_mem_of_ne_nil _ (v2 v hm).1.ne
      exact ⟨hK.1.1, x, hlab v hm x hx, hc.vertexOf_of_mem hv hm hx⟩) (List.nodup_flatten.1 v4).2 (fun v hvs => by
      obtain ⟨x, hx⟩ := List.exists_mem_of_ne_nil _ (v2 v hvs).1.ne
      obtain ⟨n, hn⟩ := Int.eq_ofNat_of_zero_le (hm.nonneg x (hlab v hvs x hx))
      refine ⟨n, fun y hy => ?_⟩
      have e : K.mu y = n := by
        rw [← hn]
        exact (hm.const x y (hlab v hvs x hx) ⟨v, hc.vertexOf_of_mem hv hvs hx, hy⟩).symm
      refine ⟨e, fun hp => ?_⟩
      have := hm.le y _ (hlab v hvs y hy) (hK.left (hlab v hvs y hy))
      omega)
  have all : ∀ x, K.tri.IsLabel x → x ∈ vs.flatten := fun x hx => by
    obtain ⟨v, h1, h2⟩ := v1 x hx
    exact List.mem_flatten.2 ⟨v, h1, h2⟩
  refine ⟨Xs, M', m1, m2, m3, m4, ?_⟩
  intro x hx
  rw [m5 x hx, if_pos (all x hx), if_pos (all _ (isLabel_inv.2 hx))]

/-- a lamination that has been stripped -/
theorem Stripped.unions {s : Lam Int} (h : s.Stripped) : s.Consistent ∧ ∃ D, s.Unions D ∧ ∀ Y ∈ D, Basic s.tri Y := by
  obtain ⟨K, N, M, l, h1, h2, h3, h4, h5, h6, h7, h8⟩ := h
  have hs : Same K s := ⟨h1, h2⟩
  have hcs : s.Consistent := by
    have : s = ⟨K.tri, K.geometric, s.cls⟩ := by rw [h1, h2]
    rw [this]
    exact h3
  refine ⟨hcs, ?_⟩
  obtain ⟨Xs, M', m1, m2, m3, m4, m5⟩ := h3.peels
  have hN : Same N M' := by
    refine same_of_w h4.1 m3.1 (h5.trans m2.symm) ?_
    intro x hx
    rw [h5] at hx
    rw [m5 x hx, h8 x hx]
    ring
  obtain ⟨D, d1, d2, -⟩ := chain_unions h4 h6 h7
  refine ⟨Xs ++ D, (m1.unions (d1.same hN)).same hs, ?_⟩
  intro Y hY
  rw [← h1]
  rcases List.mem_append.1 hY with hY | hY
  · exact m4 Y hY
  · rw [← h5]; exact d2 Y hY

end Lam
end Curver
