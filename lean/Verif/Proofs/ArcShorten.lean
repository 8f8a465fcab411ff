import Verif.Proofs.ShortArc

/-!
# Short arcs are short, and the intersection number with one
-/

namespace Curver
open Triangulation
namespace Lam
namespace IsEdgeArc
variable {c : Lam Int} {T : Triangulation} {a : Int}

theorem left (h : c.IsEdgeArc T a) (hT : T.Valid) {x : Int} (hx : T.IsLabel x) : c.leftWeight x = .ok 0 :=
  leftWeight_short (h.wellFormed hT) (fun y hy => h.nonpos (h.tri ▸ hy)) (h.tri ▸ hx)

theorem dual (h : c.IsEdgeArc T a) (hT : T.Valid) {x : Int} (hx : T.IsLabel x) : c.dualWeight x = .ok 0 := by
  obtain ⟨y, z, hg⟩ := hT.comp.exists_glues hx
  have hl := hT.comp.label_of_glues hg
  have hw := h.wellFormed hT
  rw [dualWeight_eq hw (h.tri ▸ hg), half_ok_iff]
  unfold dual2
  rw [max_eq_right (h.nonpos hl.1), max_eq_right (h.nonpos hl.2.1), max_eq_right (h.nonpos hl.2.2)]
  rfl

theorem consistent (h : c.IsEdgeArc T a) (hT : T.Valid) : c.Consistent :=
  ⟨h.wellFormed hT, fun x hx => ⟨0, h.dual hT (h.tri ▸ hx)⟩⟩

theorem peripheralComponents (h : c.IsEdgeArc T a) (hT : T.Valid) : c.peripheralComponents = .ok [] := by
  obtain ⟨vs, hvs, hq⟩ := hT.comp.vertices_ok
  obtain ⟨k1, k2, k3, k4⟩ := hT.comp.vertices_mem hvs
  unfold Lam.peripheralComponents
  rw [h.tri, hvs, py_bind_ok]
  have hm : ∀ v ∈ vs, c.vertexMultiplicity v = .ok 0 := by
    intro v hv
    unfold vertexMultiplicity
    rw [mapM_ok (g := fun _ => 0) (fun y hy => h.left hT ((k2 v hv).2.2 y hy)), py_bind_ok, maximin_of_zeros]
    · have := (k2 v hv).1.ne
      simpa using this
    · simp
  clear k1 k2 k3 k4 hvs hq
  induction vs with
  | nil => rfl
  | cons v vs ih =>
    unfold peripheralFrom
    rw [hm v (by simp), py_bind_ok, if_neg (lt_irrefl _)]
    exact ih (fun w hw => hm w (by simp [hw]))

theorem peripheral (h : c.IsEdgeArc T a) (hT : T.Valid) (P : Lam Int → Py LamClass) : c.peripheral P = .ok c.tri.emptyLamination := by
  unfold Lam.peripheral
  rw [h.peripheralComponents hT, py_bind_ok]
  rfl

theorem nonPeripheral (h : c.IsEdgeArc T a) (hT : T.Valid) (P : Lam Int → Py LamClass) : c.nonPeripheral P false = .ok ⟨c.tri, c.geometric, .lamination⟩ := by
  unfold Lam.nonPeripheral
  rw [h.peripheral hT, py_bind_ok]
  have : List.zipWith (· - ·) c.geometric (c.tri.emptyLamination : Lam Int).geometric = c.geometric := by
    unfold emptyLamination
    rw [← (h.wellFormed hT).2]
    generalize c.geometric = l
    induction l with
    | nil => rfl
    | cons x l ih => simp [List.replicate_succ, ih]
  rw [this]
  unfold lamination
  simp [(h.wellFormed hT).2, pyAssert]

theorem label_norm (h : c.IsEdgeArc T a) : T.IsLabel (norm a) := by
  unfold norm
  rcases max_choice a (inv a) with k | k <;> rw [k]
  · exact h.label
  · exact isLabel_inv.2 h.label

theorem norm' (h : c.IsEdgeArc T a) : c.IsEdgeArc T (norm a) := by
  unfold norm
  rcases max_choice a (inv a) with k | k <;> rw [k]
  · exact h
  · exact h.inv'

theorem subtract (h : c.IsEdgeArc T a) (hT : T.Valid) : (⟨c.tri, c.geometric, .lamination⟩ : Lam Int).subtractParallel = .ok (c.geometric.map (fun _ => 0), ([(norm a, 1)], [])) := by
  unfold subtractParallel subtractFrom
  have h1 : (⟨c.tri, c.geometric, .lamination⟩ : Lam Int).parallelComponents = c.parallelComponents := rfl
  rw [h1, h.parallelComponents hT, py_bind_ok]
  have h2 : (⟨c.tri, c.geometric, .lamination⟩ : Lam Int).wt (norm a) = .ok (-1) := by
    have : (⟨c.tri, c.geometric, .lamination⟩ : Lam Int).wt (norm a) = c.wt (norm a) := rfl
    rw [this, wt_eq (h.wellFormed hT).2 (h.tri ▸ h.label_norm), h.norm'.at_edge]
  simp only [List.foldlM_cons, List.foldlM_nil, h2, py_bind_ok, h.cls]
  rw [if_pos (by decide)]
  have h3 : List.zipWith (fun x y => x - y * 1) c.geometric c.geometric = c.geometric.map (fun _ => (0 : Int)) := by
    generalize c.geometric = l
    induction l with
    | nil => rfl
    | cons x l ih => simp
  rw [h3]
  rfl

theorem nonempty (h : c.IsEdgeArc T a) (hT : T.Valid) : c.isEmpty = false := by
  by_contra hn
  have hn : c.isEmpty = true := by simpa using hn
  rw [all_zero_iff (h.wellFormed hT)] at hn
  have := hn a (h.tri ▸ h.label)
  rw [h.at_edge] at this
  omega

theorem weighted_one : weighted [(c, (1 : Int))] = c.geometric := by
  unfold weighted
  apply List.ext_getElem?
  intro j
  simp only [List.map_cons, List.map_nil, List.sum_cons, List.sum_nil, mul_one, add_zero, List.min?_singleton, Option.getD_some]
  rw [List.getElem?_map]
  by_cases hj : j < c.geometric.length
  · rw [List.getElem?_range hj, List.getElem?_eq_getElem hj, Option.map_some, List.getElem?_eq_getElem hj]; rfl
  · rw [List.getElem?_eq_none (by simpa using hj), List.getElem?_eq_none (by omega)]; rfl

theorem short (h : c.IsEdgeArc T a) (hT : T.Valid) (P : Lam Int → Py LamClass) : ∃ i, T.idEncoding = .ok i ∧ c.shorten P = .ok (c, i) := by
  obtain ⟨i, i1, _⟩ := hT.idEncoding_spec
  refine ⟨i, i1, ?_⟩
  unfold shorten
  rw [h.peripheral hT, py_bind_ok, h.nonPeripheral hT, py_bind_ok, h.tri, i1, py_bind_ok]
  have hs := h.subtract hT
  rw [h.tri] at hs
  rw [hs, py_bind_ok]
  dsimp only
  rw [if_pos (by simp)]
  simp only [List.mapM_nil, py_pure, py_bind_ok]
  have hK : T.edgeArcOf (norm a) = c := (of_edge h.label_norm).ext h.norm'
  simp only [List.map_cons, List.map_nil, hK, List.append_nil]
  have hne := h.nonempty hT
  have hd : (T.emptyLamination : Lam Int).eqv c = false := by
    by_contra hn
    have hn : (T.emptyLamination : Lam Int).eqv c = true := by simpa using hn
    have := (eqv_spec.1 hn).2
    unfold isEmpty at hne
    rw [← this] at hne
    simp [emptyLamination] at hne
  have h3 : (List.foldl (fun d (p : Lam Int × Int) => setComponent d p.1 p.2) [] [(T.emptyLamination, 1), (c, 1)]) = [(T.emptyLamination, 1), (c, 1)] := by
    simp only [List.foldl_cons, List.foldl_nil, setComponent, hd]
    simp
  rw [h3]
  have hem : (T.emptyLamination : Lam Int).isEmpty = true := by
    simp [isEmpty, emptyLamination]
  have hint : c.isIntegral = .ok true := by
    unfold isIntegral
    rw [if_pos, pyAllM_ok_iff]
    · intro x hx
      rw [h.dual hT (h.tri ▸ mem_labels.1 hx), py_bind_ok]; rfl
    · rw [List.all_eq_true]; intro _ _; rfl
  have hkeep : keepNonempty [((T.emptyLamination : Lam Int), (1 : Int)), (c, 1)] = [(c, 1)] := by
    simp [keepNonempty, hem, hne]
  unfold disjointSumDict
  rw [if_neg (by simp [emptyLamination, h.tri]), if_neg (by simp), hkeep, if_neg (by simp)]
  have hall : pyAllM (fun (p : Lam Int × Int) => p.1.isIntegral) [(c, 1)] = .ok true := by
    simp only [pyAllM, hint, py_bind_ok, if_true]
  rw [hall, py_bind_ok]
  have hdc : disjointClass [(c, (1 : Int))] = .arc := by
    simp [disjointClass, h.cls, LamClass.isMultiArc, LamClass.isConnected]
  rw [weighted_one, hdc]
  have : (⟨T, c.geometric, .arc⟩ : Lam Int) = c := by
    have h1 := h.cls; have h2 := h.tri
    cases c; simp only at h1 h2; rw [h1, h2]
  simp [this]

section
variable {R : Type} [CommRing R] [LinearOrder R] [IsStrictOrderedRing R] [Halvable R]

/-- the intersection number with the arc along an edge is the number of times that the lamination crosses that edge -/
theorem intersection (h : c.IsEdgeArc T a) (hT : T.Valid) (P : Lam Int → Py LamClass) {L : Lam R} (hL : L.WellFormed) (ht : L.tri = T) :
    c.intersection P L = .ok (max (L.w a) 0) := by
  obtain ⟨i, i1, i2⟩ := h.short hT P
  obtain ⟨j, j1, _, _, _, _, j2, _⟩ := hT.idEncoding_spec
  rw [i1] at j1; cases j1
  unfold Lam.intersection
  have : (L.tri == c.tri) = true := by rw [ht, h.tri]; simp
  rw [this]
  simp only [pyAssert]
  rw [if_pos trivial, py_bind_ok, i2, py_bind_ok]
  dsimp only
  rw [j2 R L hL ht, py_bind_ok, h.peripheralComponents hT, py_bind_ok]
  simp only [List.mapM_nil, py_pure, py_bind_ok]
  rw [h.parallelComponents hT, py_bind_ok]
  simp only [List.mapM_cons, List.mapM_nil, h.cls, decide_true, parallelCrossings, if_true]
  have hw : L.wt0 (norm a) = .ok (max (L.w a) 0) := by
    unfold Lam.wt0
    rw [wt_eq hL.2 (ht ▸ h.label_norm), py_bind_ok]
    have : L.w (norm a) = L.w a := by
      unfold norm
      rcases max_choice a (inv a) with k | k <;> rw [k]
      exact w_inv _ _
    rw [this]; rfl
  rw [hw]
  simp [py_bind_ok]

end
end IsEdgeArc
end Lam
end Curver
