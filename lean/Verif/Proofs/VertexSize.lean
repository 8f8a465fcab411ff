import Verif.Model.FindIsometry
import Verif.Proofs.Isometry

namespace Curver
open Triangulation

namespace Triangulation
variable {S T : Triangulation} {f : Int → Int}

theorem chain_all {α : Type _} {s : α → α} {P : α → Prop} : ∀ (l : List α) (a : α), List.IsChain (fun x y => y = s x) (a :: l) → P a →
    (∀ x ∈ a :: l, P x → P (s x)) → ∀ x ∈ a :: l, P x := by
  intro l
  induction l with
  | nil => intro a _ ha _ x hx; simp at hx; exact hx ▸ ha
  | cons b l ih =>
    intro a hc ha hs x hx
    rw [List.isChain_cons_cons] at hc
    have hb : P b := hc.1 ▸ hs a (by simp) ha
    rw [List.mem_cons] at hx
    rcases hx with rfl | hx
    · exact ha
    · exact ih b hc.2 hb (fun y hy => hs y (by simp at hy ⊢; tauto)) x hx

/-- a property preserved by rotation holds all around a vertex -/
theorem IsVertex.induct {v : List Int} (h : T.IsVertex v) {P : Int → Prop} {e : Int} (he : e ∈ v) (hP : P e)
    (hs : ∀ x ∈ v, P x → P (T.spin x)) : ∀ x ∈ v, P x := by
  obtain ⟨a, b, rfl⟩ := List.append_of_mem he
  have hb : List.IsChain (fun x y => y = T.spin x) (e :: b) := (List.isChain_append.1 h.chain).2.1
  have h1 := chain_all b e hb hP (fun x hx => hs x (by simp at hx ⊢; tauto))
  have h2 : P ((a ++ e :: b).getLast h.ne) := by
    rw [List.getLast_append_of_ne_nil _ (by simp)]
    exact h1 _ (List.getLast_mem _)
  have h3 := hs _ (List.getLast_mem h.ne) h2
  have h4 := h.closes
  obtain ⟨c, l, hcl⟩ : ∃ c l, a ++ e :: b = c :: l := List.exists_cons_of_ne_nil h.ne
  simp only [hcl] at h4 h3 hs ⊢
  have hc := h.chain
  rw [hcl] at hc
  simp only [List.head?_cons, Option.some.injEq] at h4
  exact chain_all l c hc (h4 ▸ h3) hs

theorem Complete.vertices_mem (hT : T.Complete) {vs : List (List Int)} (h : T.vertices = .ok vs) :
    (∀ e, T.IsLabel e → ∃ v ∈ vs, e ∈ v) ∧ (∀ v ∈ vs, T.IsVertex v ∧ v.Nodup ∧ ∀ e ∈ v, T.IsLabel e) ∧
    (∀ v ∈ vs, ∀ w ∈ vs, ∀ e, e ∈ v → e ∈ w → v = w) ∧ vs.flatten.Nodup := by
  obtain ⟨vs', h1, h2, h3, h4⟩ := hT.vertices_ok
  rw [h] at h1; cases h1
  have hnd : vs.flatten.Nodup := h2.nodup_iff.2 nodup_labels
  refine ⟨?_, ?_, ?_, hnd⟩
  · intro e he
    have := h2.mem_iff.2 (mem_labels.2 he)
    rw [List.mem_flatten] at this
    exact this
  · intro v hv
    refine ⟨h3 v hv, (List.nodup_flatten.1 hnd).1 v hv, ?_⟩
    intro e he
    rw [← mem_labels, ← h2.mem_iff]
    exact List.mem_flatten.2 ⟨v, hv, he⟩
  · intro v hv w hw e hev hew
    have hp := (List.nodup_flatten.1 hnd).2
    by_contra hne
    haveI : Std.Symm (List.Disjoint (α := Int)) := ⟨fun _ _ h => h.symm⟩
    have := hp.forall hv hw hne
    exact this hev hew

/-- the vertex at the tail of `e` -/
theorem Complete.vertexOf_ok (hT : T.Complete) {e : Int} (he : T.IsLabel e) : ∃ v vs, T.vertexOf e = .ok v ∧ T.vertices = .ok vs ∧ v ∈ vs ∧ e ∈ v ∧
    T.IsVertex v ∧ v.Nodup ∧ (∀ x ∈ v, T.IsLabel x) := by
  obtain ⟨vs, h1, _⟩ := hT.vertices_ok
  obtain ⟨k1, k2, k3, k4⟩ := hT.vertices_mem h1
  obtain ⟨v, hv, hev⟩ := k1 e he
  refine ⟨v, vs, ?_, h1, hv, hev, (k2 v hv).1, (k2 v hv).2.1, (k2 v hv).2.2⟩
  unfold vertexOf
  rw [h1, py_bind_ok, PyDict.get_eq_ok_iff, PyDict.get?_ofList_iff]
  · rw [List.mem_flatMap]
    exact ⟨v, hv, List.mem_map.2 ⟨e, hev, rfl⟩⟩
  · rw [List.map_flatMap]
    simpa [List.map_map, Function.comp_def, List.flatMap_def] using k4

theorem Complete.vertexOf_unique (hT : T.Complete) {e x : Int} {v : List Int} (he : T.IsLabel e) (h : T.vertexOf e = .ok v) (hx : x ∈ v) :
    T.vertexOf x = .ok v := by
  obtain ⟨v', vs, h1, h2, h3, h4, h5, h6, h7⟩ := hT.vertexOf_ok he
  rw [h] at h1; cases h1
  obtain ⟨w, vs', k1, k2, k3, k4, _⟩ := hT.vertexOf_ok (h7 x hx)
  rw [h2] at k2; cases k2
  rw [k1, (hT.vertices_mem h2).2.2.1 v h3 w k3 x hx k4]

theorem Complete.orders_ok (hT : T.Complete) : ∃ o, T.orders = .ok o ∧ ∀ e, T.IsLabel e → ∃ v, T.vertexOf e = .ok v ∧ o.get e = .ok v.length := by
  obtain ⟨vs, h1, _⟩ := hT.vertices_ok
  obtain ⟨k1, k2, k3, k4⟩ := hT.vertices_mem h1
  refine ⟨PyDict.ofList (vs.flatMap (fun v => v.map (fun e => (e, v.length)))), by unfold orders; rw [h1]; rfl, ?_⟩
  intro e he
  obtain ⟨v, vs', g1, g2, g3, g4, _⟩ := hT.vertexOf_ok he
  rw [h1] at g2; cases g2
  refine ⟨v, g1, ?_⟩
  rw [PyDict.get_eq_ok_iff, PyDict.get?_ofList_iff]
  · rw [List.mem_flatMap]
    exact ⟨v, g3, List.mem_map.2 ⟨e, g4, rfl⟩⟩
  · rw [List.map_flatMap]
    simpa [List.map_map, Function.comp_def, List.flatMap_def] using k4

theorem IsIsometry.spin (h : S.IsIsometry T f) (hS : S.Complete) (hT : T.Complete) {e : Int} (he : S.IsLabel e) :
    f (S.spin e) = T.spin (f e) := by
  unfold Triangulation.spin
  rw [h.inverts _ (hS.isLabel_nxt (hS.isLabel_nxt he)), h.nxt hS hT (hS.isLabel_nxt he), h.nxt hS hT he]

theorem IsIsometry.vertex_mem (h : S.IsIsometry T f) (hS : S.Complete) (hT : T.Complete) {e : Int} (he : S.IsLabel e) {v w : List Int}
    (hv : S.vertexOf e = .ok v) (hw : T.vertexOf (f e) = .ok w) : ∀ x ∈ v, f x ∈ w := by
  obtain ⟨v', _, h1, _, _, h4, h5, h6, h7⟩ := hS.vertexOf_ok he
  rw [hv] at h1; cases h1
  obtain ⟨w', _, k1, _, _, k4, k5, k6, k7⟩ := hT.vertexOf_ok (h.maps e he)
  rw [hw] at k1; cases k1
  refine h5.induct (P := fun x => f x ∈ w) h4 k4 ?_
  intro x hx hfx
  rw [h.spin hS hT (h7 x hx)]
  exact k5.spin_mem hfx

theorem IsIsometry.vertex_length_le (h : S.IsIsometry T f) (hS : S.Complete) (hT : T.Complete) {e : Int} (he : S.IsLabel e) {v w : List Int}
    (hv : S.vertexOf e = .ok v) (hw : T.vertexOf (f e) = .ok w) : v.length ≤ w.length := by
  obtain ⟨v', _, h1, _, _, h4, h5, h6, h7⟩ := hS.vertexOf_ok he
  rw [hv] at h1; cases h1
  have hnd : (v.map f).Nodup := List.Nodup.map_on (fun x hx y hy hxy => h.inj x y (h7 x hx) (h7 y hy) hxy) h6
  have hsub : v.map f ⊆ w := by
    intro y hy
    rw [List.mem_map] at hy
    obtain ⟨x, hx, rfl⟩ := hy
    exact h.vertex_mem hS hT he hv hw x hx
  have := (List.subperm_of_subset hnd hsub).length_le
  rwa [List.length_map] at this

theorem IsIsometry.vertex_length (h : S.IsIsometry T f) (hS : S.Complete) (hT : T.Complete) {e : Int} (he : S.IsLabel e) {v w : List Int}
    (hv : S.vertexOf e = .ok v) (hw : T.vertexOf (f e) = .ok w) : v.length = w.length := by
  obtain ⟨g, hg, hgf, hfg⟩ := h.exists_inverse hS hT
  refine Nat.le_antisymm (h.vertex_length_le hS hT he hv hw) ?_
  exact hg.vertex_length_le hT hS (h.maps e he) hw (by rw [hgf e he]; exact hv)

end Triangulation
end Curver
