import Verif.Proofs.DisjointClass

/-!
# The class that `shorten` finds
-/

namespace Curver
open Triangulation
namespace Lam
variable {L M N s : Lam Int} {P : Lam Int → Py LamClass} {l : List Item}

theorem links_peel' (ν : List Int → Nat) : ∀ (vs : List (List Int)) {L : Lam Int}, L.Consistent → (∀ v ∈ vs, L.tri.Star v) → vs.Pairwise List.Disjoint →
    (∀ v ∈ vs, 0 < ν v → ∀ x ∈ v, ν v ≤ L.lf x) → ∃ M, L.Peels (vs.flatMap (fun v => List.replicate (ν v) (L.tri.curveFromCutSequence v))) M
  | [], L, hL, _, _, _ => ⟨L, .nil L⟩
  | v :: vs, L, hL, hs, hd, hm => by
    rw [List.pairwise_cons] at hd
    have hst := hs v (by simp)
    obtain ⟨K, k1, k2, k3, k4⟩ : ∃ M, L.Peels (List.replicate (ν v) (L.tri.curveFromCutSequence v)) M ∧
        M.tri = L.tri ∧ M.Consistent ∧ ∀ x, L.tri.IsLabel x → M.lf x = L.lf x - ν v * v.count x ∧ M.w x = L.w x - ν v * (v.count x + v.count (Curver.inv x)) := by
      rcases Nat.eq_zero_or_pos (ν v) with h | hp
      · rw [h]
        exact ⟨L, .nil L, rfl, hL, fun x _ => by simp⟩
      · exact Hub.peels (ν v) (k := ν v) ⟨hL, hst, fun x hx => hm v (by simp) hp x hx⟩ le_rfl
    obtain ⟨M, m1⟩ := links_peel' ν vs k3 (by rw [k2]; exact fun u hu => hs u (by simp [hu])) hd.2 (by
      intro u hu hp x hx
      have hxv : x ∉ v := fun h => hd.1 u hu h hx
      rw [(k4 x ((hs u (by simp [hu])).basic.2.1 x hx)).1, List.count_eq_zero.2 hxv]
      simpa using hm u (by simp [hu]) hp x hx)
    rw [k2] at m1
    exact ⟨M, k1.append m1⟩

theorem link_describes {T : Triangulation} (hT : T.Valid) {v : List Int} (hv : T.Star v) : (T.curveFromCutSequence v : Lam Int).Describes (T.curveFromCutSequence v : Lam Int).cls := by
  have := (Basic.prime hT (Y := T.curveFromCutSequence v) (.inl ⟨v, hv, rfl⟩)).1
  exact ⟨this.2.1, (this.2.2.resolve_right (fun q => by cases q.1)).2⟩

/-- the class of the peripheral part is right -/
theorem peripheral_right (hL : L.Consistent) {per : Lam Int} (h : L.peripheral P = .ok per) : per.Consistent ∧ per.Describes per.cls ∧ ∃ M, L.IsUnion per M := by
  have hc := hL.1.1.comp
  obtain ⟨vs, hv, μ, h1, h2, h3⟩ := peripheralComponents_ok hL
  obtain ⟨v1, v2, v3, v4⟩ := hc.vertices_mem hv
  have hm := isMult_mu hL
  unfold peripheral at h
  rw [h3, py_bind_ok] at h
  have star : ∀ v ∈ vs, L.tri.Star v := fun v hm => by
    obtain ⟨x, hx⟩ := List.exists_mem_of_ne_nil _ (v2 v hm).1.ne
    exact ⟨hL.1.1, x, (v2 v hm).2.2 x hx, hc.vertexOf_of_mem hv hm hx⟩
  obtain ⟨M, m1⟩ := links_peel' (fun v => (μ v).toNat) (vs.filter (fun v => decide (0 < μ v))) hL (fun v hv => star v (List.mem_of_mem_filter hv))
    ((List.nodup_flatten.1 v4).2.sublist List.filter_sublist) (fun v hvs hp x hx => by
      have hvs := List.mem_of_mem_filter hvs
      have hl := (v2 v hvs).2.2 x hx
      have e := h2 v hvs x hx
      have := hm.le x _ hl (hL.left hl)
      omega)
  obtain ⟨Y, y1, y2⟩ := m1.join hL
  have hY := (y1.consistent hL).1
  have ht := y1.wf.2.2.1
  have hf : (vs.filter (fun v => decide (0 < μ v))).flatMap (fun v => List.replicate (μ v).toNat (L.tri.curveFromCutSequence v)) =
      flat (((vs.filter (fun v => decide (0 < μ v))).map (fun v => ((L.tri.curveFromCutSequence v : Lam Int), (μ v, v)))).map (fun p => (p.1, p.2.1))) := by
    unfold flat
    rw [List.map_map, List.flatMap_map]
    rfl
  rw [hf] at y2
  have mem : ∀ p ∈ ((vs.filter (fun v => decide (0 < μ v))).map (fun v => ((L.tri.curveFromCutSequence v : Lam Int), (μ v, v)))).map (fun p => (p.1, p.2.1)),
      ∃ v ∈ vs, p.1 = L.tri.curveFromCutSequence v := by
    intro p hp
    rw [List.map_map, List.mem_map] at hp
    obtain ⟨v, hv, rfl⟩ := hp
    exact ⟨v, List.mem_of_mem_filter hv, rfl⟩
  generalize ((vs.filter (fun v => decide (0 < μ v))).map (fun v => ((L.tri.curveFromCutSequence v : Lam Int), (μ v, v)))).map (fun p => (p.1, p.2.1)) = ls at *
  rw [← ht] at h
  have R := disjointSum_right P hY y2 (fun p hp => by
    obtain ⟨v, hv, e⟩ := mem p hp
    rw [ht, e]
    exact cut_length v) (fun p hp _ _ => by
    obtain ⟨v, hv, e⟩ := mem p hp
    rw [e]
    exact link_describes hL.1.1 (star v hv)) h
  have hu : L.IsUnion per M := y1.same y1.wf.1 y1.wf.2.1 .refl R.1 .refl
  exact ⟨(hu.consistent hL).1, R.2, M, hu⟩

theorem Basic.describes {T : Triangulation} (hT : T.Valid) {Y : Lam Int} (h : Basic T Y) : Y.Describes Y.cls := by
  have := (h.prime hT).1
  rcases this.2.2 with ⟨q, q'⟩ | ⟨q, q'⟩ <;> rw [q] <;> exact ⟨this.2.1, q'⟩

theorem disjointSumDict_tri {T : Triangulation} {ls : List (Lam Int × Int)} (h : T.disjointSumDict P ls = .ok s) : ∀ p ∈ ls, p.1.tri = T := by
  unfold disjointSumDict at h
  split at h
  · cases h
  · rename_i q
    simpa using q

theorem Rebuilt.right (hL : L.Consistent) (h : Rebuilt P L s) : s.Consistent ∧ s.Describes s.cls := by
  obtain ⟨g, per₀, per, K, N, M, l, g1, g2, g3, g4, h1, h2, h3, h4, h5, h6, h7, h8, ts, t1, t0, t2⟩ := h
  obtain ⟨p1, p2, -⟩ := peripheral_right hL g2
  have pc := p1.enc g1 g3
  have pd := p2.enc p1 g1 g3
  have hcls : per.cls = per₀.cls := (g1.undo p1.1 g3).2.2.1
  rw [← hcls] at pd
  obtain ⟨perK, k1, k2, k3, k4, -⟩ := peripheral_ok P h3
  obtain ⟨-, -, M', hM'⟩ := peripheral_right h3 k1
  obtain ⟨D, d1, d2, d3⟩ := chain_unions h4 h6 h7
  have hpt : per.tri = K.tri := (disjointSumDict_tri t2 (per, 1) (by simp)).trans h5
  have sper : Same perK per := same_of_w ⟨by rw [k2]; exact h3.1.1, by rw [k2, k3]⟩ pc.1 (k2.trans hpt.symm) (fun x hx => by
    rw [k2] at hx
    rw [g4 x hx, k4 x hx])
  have w' := hM'.wf
  have sN : Same M' N := same_of_w w'.2.1 h4.1 (w'.2.2.2.trans h5.symm) (fun x hx => by
    rw [w'.2.2.2] at hx
    have := hM'.sum h3.1 hx
    rw [k4 x hx, h8 x hx] at this
    omega)
  have hu : K.IsUnion per N := hM'.same w'.1 w'.2.1 .refl sper sN
  have hU : K.Unions (flat ((per, 1) :: ts)) := by
    unfold flat
    rw [List.flatMap_cons]
    refine .cons hu ?_
    have : N.Unions (flat ts) := Unions.perm (List.Perm.flatMap_right _ t1) h4 (by rw [← d3]; exact d1)
    exact this
  rw [h5] at t2
  have R := disjointSum_right P h3 hU (fun p hp => by
    rcases List.mem_cons.1 hp with rfl | hp
    · rw [← hpt]; exact pc.1.2
    · rw [← h5]; exact t0 p hp) (fun p hp h0 _ => by
    rcases List.mem_cons.1 hp with rfl | hp
    · exact pd
    · have hp' : p.1 ∈ D := by
        rw [d3]
        have : p.1 ∈ flat (l.map (Item.term N.tri)) := mem_flat (t1.mem_iff.2 hp) h0
        exact this
      exact (d2 _ hp').describes h4.1.1) t2
  have hc : s.Consistent := by
    have : s = ⟨K.tri, K.geometric, s.cls⟩ := by rw [h1, h2]
    rw [this]; exact h3
  exact ⟨hc, R.2⟩

end Lam
end Curver
