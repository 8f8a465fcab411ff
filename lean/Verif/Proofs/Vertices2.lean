import Verif.Proofs.Vertices

/-!
# `vertices` and `has_distinct_endpoints`
-/

namespace Curver
open Triangulation
namespace Lam
variable {L K X Y S N : Lam Int} {v : List Int} {h : Enc}

theorem arcVertices_spec (hL : L.Consistent) : ∃ vs l, L.tri.vertices = .ok vs ∧ L.arcVertices = .ok l ∧ l.Nodup ∧ ∀ v, v ∈ l ↔ v ∈ vs ∧ L.Reaches v := by
  classical
  have hc := hL.1.1.comp
  obtain ⟨vs, hvs, -⟩ := hc.vertices_ok
  obtain ⟨a1, a2, a3, a4⟩ := hc.vertices_mem hvs
  let p : List Int → Bool := fun v => decide (∃ x ∈ v, L.w x < 0 ∨ L.lf x < 0)
  refine ⟨vs, vs.filter p, hvs, ?_, (hc.nodup_vertices hvs).filter _, fun v => ?_⟩
  · unfold arcVertices
    rw [hvs, py_bind_ok]
    have hf : vs.mapM (fun v => do
        let ws ← v.mapM (fun e => do
          let x ← L.wt e
          let y ← L.leftWeight e
          return decide (x < 0 ∨ y < 0))
        return ws.any id) = .ok (vs.map p) := by
      refine mapM_ok (fun v hv => ?_)
      have hvl := (a2 v hv).2.2
      rw [mapM_ok (g := fun e => decide (L.w e < 0 ∨ L.lf e < 0))]
      · rw [py_bind_ok]
        simp only [p, py_pure, Except.ok.injEq, List.any_map]
        rw [Bool.eq_iff_iff, List.any_eq_true, decide_eq_true_iff]
        simp only [Function.comp, id, decide_eq_true_iff]
      · intro e he
        have hel := hvl e he
        rw [wt_eq hL.1.2 hel, py_bind_ok, hL.left hel, py_bind_ok]
        rfl
    rw [hf, py_bind_ok, IsEdgeArc.zip_filter]
    rfl
  · rw [List.mem_filter]
    refine and_congr_right fun hv => ?_
    rw [reaches_iff hL (star_of_mem hL.1.1 hvs hv)]
    simp only [p, decide_eq_true_iff]

/-- every arc ends somewhere, and at no more than two vertices -/
theorem arc_ends (hX : X.Connected) (hc : X.Consistent) (hn : ¬ X.NoArcs) {vs : List (List Int)} (hvs : X.tri.vertices = .ok vs) :
    ∃ v ∈ vs, ∃ u ∈ vs, ∀ t ∈ vs, X.Reaches t ↔ t = v ∨ t = u := by
  obtain ⟨⟨s, g⟩, n, hs⟩ := shorten_returns (P := fun _ => .ok .curve) (dflt := fun _ _ => false) (slow := fun _ _ => false) hc (fun _ _ => rfl)
  have hs := hs n le_rfl
  obtain ⟨h1, h2, h3, h4, K, h5, h6, h7, h8⟩ := shorten_same hc hs
  have hA : X.OnlyHasArcs := by
    intro Y hY hY'
    obtain ⟨q, N, hN⟩ := hY
    rcases hX.2 _ _ hN with b | b
    · exact q.1 b
    · exact hn ((hN.symm.same_of_blank hc.1 b).noArcs hY')
  have hle := hA.short hc hs
  have cK := (hX.enc hc h1 h5).same h7
  obtain ⟨Z, -, hZ⟩ := union_blank h4.1
  obtain ⟨i, i1, i2, i3⟩ := nonpos_part h4 hle ⟨cK, _, hZ.symm⟩
  have li := isLabel_index i1
  have hsT := h4.1.1
  have hw : ∀ x, s.tri.IsLabel x → s.w x = if x = i ∨ x = inv i then -1 else 0 := by
    intro x hx
    rw [← arc_w hx]
    unfold w
    rw [i3]
  obtain ⟨vm, vs', ws, m1, m2, m3, m4, m5, m6, m7⟩ := C43_vertex_map g h1
  rw [h2, hvs] at m2; cases m2
  rw [h3] at m3
  have key : ∀ t ∈ ws, s.Reaches t ↔ i ∈ t ∨ inv i ∈ t := by
    intro t ht
    have hst := star_of_mem hsT m3 ht
    rw [reaches_iff h4 hst]
    constructor
    · rintro ⟨x, hx, q⟩
      have lx := hst.basic.2.1 x hx
      have q' : s.w x < 0 := by
        rcases q with q | q
        · exact q
        · exfalso
          obtain ⟨y, z, hg⟩ := hsT.comp.exists_glues lx
          have l := hsT.comp.label_of_glues hg
          have := h4.lf_tri hg
          rw [max_eq_right (hle x l.1), max_eq_right (hle y l.2.1), max_eq_right (hle z l.2.2)] at this
          unfold TriDual at this
          omega
      rw [hw x lx] at q'
      split_ifs at q' with k
      · rcases k with rfl | rfl
        · exact .inl hx
        · exact .inr hx
      · omega
    · rintro (hx | hx)
      · exact ⟨i, hx, .inl i2⟩
      · exact ⟨inv i, hx, .inl (by rw [w_inv]; exact i2)⟩
  obtain ⟨a1, a2, a3, a4⟩ := hsT.comp.vertices_mem m3
  have back : ∀ x, s.tri.IsLabel x → ∃ v ∈ vs, ∃ w ∈ ws, (v, w) ∈ vm ∧ x ∈ w := by
    intro x hx
    obtain ⟨w, hw, hxw⟩ := a1 x hx
    have := m5.mem_iff.2 hw
    obtain ⟨⟨v, w'⟩, hm, rfl⟩ := List.mem_map.1 this
    exact ⟨v, by rw [← m4]; exact List.mem_map_of_mem (f := Prod.fst) hm, w', hw, hm, hxw⟩
  obtain ⟨v, hv, v', hv', mv, iv⟩ := back i li
  obtain ⟨u, hu, u', hu', mu, iu⟩ := back (inv i) (isLabel_inv.2 li)
  refine ⟨v, hv, u, hu, fun t ht => ?_⟩
  have : ∃ t', (t, t') ∈ vm := by
    rw [← m4] at ht
    obtain ⟨⟨_, t'⟩, hm, rfl⟩ := List.mem_map.1 ht
    exact ⟨t', hm⟩
  obtain ⟨t', hm⟩ := this
  have ht' : t' ∈ ws := m5.mem_iff.1 (List.mem_map_of_mem (f := Prod.snd) hm)
  rw [← reaches_enc hc h1 h5 (m7 t t' hm)]
  have e : K.Reaches t' ↔ s.Reaches t' := ⟨fun q => q.same h7, fun q => q.same h7.symm⟩
  rw [e, key t' ht']
  have inj : ∀ {a b : List Int}, (a, b) ∈ vm → (t' = b ↔ t = a) := by
    intro a b hab
    constructor
    · rintro rfl
      have := List.inj_on_of_nodup_map m6 hm hab rfl
      exact congrArg Prod.fst this
    · rintro rfl
      have hk : vm.keys.Nodup := by rw [m4]; exact hc.1.1.comp.nodup_vertices hvs
      exact congrArg Prod.snd (List.inj_on_of_nodup_map hk hm hab rfl)
  rw [← inj mv, ← inj mu]
  constructor
  · rintro (q | q)
    · exact .inl (a3 _ ht' _ hv' _ q iv)
    · exact .inr (a3 _ ht' _ hu' _ q iu)
  · rintro (rfl | rfl)
    · exact .inl iv
    · exact .inr iu

end Lam
end Curver
