import Verif.Proofs.HalfBuild
import Verif.Spec.HalfTwist
import Verif.Proofs.Peripheral
import Verif.Proofs.TwistShort

/-!
# Short arcs: the arc that runs along an edge
-/

namespace Curver
open Triangulation

theorem maximin_of_zeros {l : List Int} (hl : l ≠ []) (h : ∀ x ∈ l, x = 0) : maximin [[0], l] = .ok 0 := by
  obtain ⟨m, h1, _, _, x, hx, rfl⟩ := Lam.maximin_zero hl
  rw [h1, h x hx]; rfl

namespace Lam
variable {L c : Lam Int} {T : Triangulation} {a : Int}

theorem leftWeight_short (hw : L.WellFormed) (h : ∀ x, L.tri.IsLabel x → L.w x ≤ 0) {x : Int} (hx : L.tri.IsLabel x) : L.leftWeight x = .ok 0 := by
  obtain ⟨y, z, hg⟩ := hw.1.comp.exists_glues hx
  have hl := hw.1.comp.label_of_glues hg
  rw [leftWeight_eq hw hg, dualWeight_eq hw hg.rot, half_ok_iff]
  unfold dual2
  rw [max_eq_right (h _ hl.1), max_eq_right (h _ hl.2.1), max_eq_right (h _ hl.2.2)]
  rfl

theorem parallelCurve_short (hw : L.WellFormed) (h : ∀ x, L.tri.IsLabel x → L.w x ≤ 0) {x : Int} (hx : L.tri.IsLabel x) : L.parallelCurve x = .ok none := by
  have hc := hw.1.comp
  obtain ⟨v, _, hv, _⟩ := hc.vertexOf_ok hx
  obtain ⟨u, _, hu, _, _, hi, _⟩ := hc.vertexOf_ok (isLabel_inv.2 hx)
  unfold Lam.parallelCurve
  rw [hv, py_bind_ok, hu, py_bind_ok]
  by_cases hvu : v = u
  swap
  · rw [if_neg hvu]; rfl
  subst hvu
  rw [if_pos rfl]
  obtain ⟨X, hs, hX⟩ := hc.sweep hx hv hi
  have hlab : ∀ y ∈ x :: X, L.tri.IsLabel y := by
    intro y hy
    refine chain_all (X ++ [inv x]) x hX.chain hx (fun z _ hz => hc.isLabel_spin hz) y ?_
    simp only [List.mem_cons, List.mem_append] at hy ⊢; tauto
  have ha : L.around x = .ok (x :: X) := by
    unfold Lam.around; rw [hv, py_bind_ok, hs]
  rw [ha, py_bind_ok]
  by_cases hlen : (x :: X).length > 2
  swap
  · rw [if_neg hlen]; rfl
  rw [if_pos hlen]
  have h1 : L.aroundWeight (x :: X) = .ok 0 := by
    unfold Lam.aroundWeight
    rw [mapM_ok (g := fun _ => 0) (fun y hy => leftWeight_short hw h (hlab y hy)), py_bind_ok, maximin_of_zeros (by simp) (by simp)]
  have h2 : L.twistingWeight (x :: X) 0 = .ok 0 := by
    unfold Lam.twistingWeight Lam.middle
    rw [List.drop_succ_cons, List.drop_zero, mapM_ok (g := fun _ => 0) (fun y hy => leftWeight_short hw h (hlab y (by
      have := List.dropLast_subset X hy
      simp [this]))), py_bind_ok, maximin_of_zeros]
    · intro k
      have := congrArg List.length k
      simp at this hlen; omega
    · simp
  rw [h1, py_bind_ok, h2, py_bind_ok]
  obtain ⟨y, hy⟩ : ∃ y, (x :: X).getLast? = some y := ⟨_, List.getLast?_eq_getLast_of_ne_nil (by simp)⟩
  have hym : y ∈ x :: X := List.mem_of_getLast? hy
  rw [hy]
  simp only [List.head?_cons]
  rw [leftWeight_short hw h hx, py_bind_ok, if_pos rfl, leftWeight_short hw h (hlab y hym), py_bind_ok, if_pos rfl, if_neg (lt_irrefl _)]
  rfl

namespace IsEdgeArc

theorem ext (h : c.IsEdgeArc T a) (h' : L.IsEdgeArc T a) : c = L := by
  refine Lam.ext_w (h.tri.trans h'.tri.symm) (h.cls.trans h'.cls.symm) (by rw [h.length, h.tri]) (by rw [h'.length, h'.tri]) ?_
  intro x hx
  rw [h.tri] at hx
  by_cases h1 : x = a
  · rw [h1, h.at_edge, h'.at_edge]
  by_cases h2 : x = inv a
  · rw [h2, w_inv, w_inv, h.at_edge, h'.at_edge]
  rw [h.other x hx h1 h2, h'.other x hx h1 h2]

theorem inv' (h : c.IsEdgeArc T a) : c.IsEdgeArc T (inv a) := by
  refine ⟨h.tri, h.cls, h.length, by rw [w_inv]; exact h.at_edge, fun x hx h1 h2 => h.other x hx ?_ h1⟩
  rwa [inv_inv] at h2

theorem of_edge (ha : T.IsLabel a) : (T.edgeArcOf a).IsEdgeArc T a := by
  have hi := idx_lt ha
  refine ⟨rfl, rfl, by simp [edgeArcOf], ?_, ?_⟩
  · unfold w edgeArcOf
    simp only [List.getElem?_map, List.getElem?_range hi]
    simp only [Option.map_some, Option.getD_some]
    rw [if_neg]
    have := norm_nonneg a
    push Not; omega
  · intro x hx h1 h2
    have hx' := idx_lt hx
    unfold w edgeArcOf
    simp only [List.getElem?_map, List.getElem?_range hx']
    simp only [Option.map_some, Option.getD_some]
    rw [if_pos]
    have := norm_nonneg x
    intro k
    rw [Int.toNat_of_nonneg this, norm_eq_iff] at k
    tauto

theorem wellFormed (h : c.IsEdgeArc T a) (hT : T.Valid) : c.WellFormed := ⟨h.tri ▸ hT, by rw [h.length, h.tri]⟩

theorem nonpos (h : c.IsEdgeArc T a) {x : Int} (hx : T.IsLabel x) : c.w x ≤ 0 := by
  by_cases h1 : x = a
  · rw [h1, h.at_edge]; decide
  by_cases h2 : x = inv a
  · rw [h2, w_inv, h.at_edge]; decide
  rw [h.other x hx h1 h2]

theorem label (h : c.IsEdgeArc T a) : T.IsLabel a := by
  by_contra hn
  have h1 := h.at_edge
  unfold w at h1
  rw [List.getElem?_eq_none] at h1
  · simp at h1
  · rw [h.length]
    unfold IsLabel at hn
    unfold norm inv
    omega

theorem isShort (h : c.IsEdgeArc T a) : c.isShortArc = true := by
  unfold isShortArc
  rw [List.all_eq_true]
  intro w hw
  obtain ⟨i, hi, rfl⟩ := List.mem_iff_getElem.1 hw
  rw [h.length] at hi
  have := h.nonpos (x := (i : Int)) (by unfold IsLabel; omega)
  unfold Lam.w at this
  rw [norm_of_nonneg (by omega), Int.toNat_natCast, List.getElem?_eq_getElem (by rw [h.length]; exact hi)] at this
  simpa using this

theorem parallelArc (h : c.IsEdgeArc T a) {x : Int} (hx : T.IsLabel x) : c.parallelArc x = .ok (if x = norm a then some (c, 1) else none) := by
  unfold Lam.parallelArc
  have key : x = norm a ↔ sign x = 1 ∧ (x = a ∨ x = inv a) := by
    rw [sign_eq_one_iff, ← norm_eq_iff]
    constructor
    · rintro rfl; exact ⟨norm_nonneg a, norm_of_nonneg (norm_nonneg a)⟩
    · rintro ⟨h1, h2⟩; rw [← h2, norm_of_nonneg h1]
  by_cases hs : sign x = 1
  swap
  · rw [if_neg hs, if_neg (fun k => hs (key.1 k).1)]; rfl
  rw [if_pos hs, wt_eq (by rw [h.length, h.tri]) (h.tri ▸ hx), py_bind_ok]
  by_cases hxa : x = a ∨ x = inv a
  · rw [if_pos (key.2 ⟨hs, hxa⟩)]
    have hw : c.w x = -1 := by
      rcases hxa with rfl | rfl
      · exact h.at_edge
      · rw [w_inv]; exact h.at_edge
    have he : c.tri.edgeArcOf x = c := by
      rw [h.tri]
      rcases hxa with rfl | rfl
      · exact (of_edge hx).ext h
      · exact (of_edge hx).ext h.inv'
    rw [hw, he]; rfl
  · rw [if_neg (fun k => hxa (key.1 k).2)]
    push Not at hxa
    rw [h.other x hx hxa.1 hxa.2]; rfl


theorem fold_once {α β : Type} {f : β → α → Py β} {n : α} {b b' : β} (hn : f b n = .ok b') : ∀ {l : List α}, l.Nodup → n ∈ l → (∀ x ∈ l, x ≠ n → ∀ d, f d x = .ok d) →
    l.foldlM f b = .ok b' := by
  have skip : ∀ {l : List α} {d : β}, (∀ x ∈ l, ∀ d, f d x = .ok d) → l.foldlM f d = .ok d := by
    intro l
    induction l with
    | nil => intro d _; rfl
    | cons x l ih =>
      intro d h
      rw [List.foldlM_cons, h x (by simp), py_bind_ok]
      exact ih (fun y hy => h y (by simp [hy]))
  intro l
  induction l with
  | nil => intro _ hm; simp at hm
  | cons x l ih =>
    intro hnd hm h
    have hx := (List.nodup_cons.1 hnd).1
    by_cases hxn : x = n
    · rw [List.foldlM_cons, hxn, hn, py_bind_ok]
      refine skip (fun y hy => h y (by simp [hy]) ?_)
      rintro rfl; exact hx (hxn ▸ hy)
    · rw [List.foldlM_cons, h x (by simp) hxn, py_bind_ok]
      exact ih (List.nodup_cons.1 hnd).2 (by simpa [Ne.symm hxn] using hm) (fun y hy => h y (by simp [hy]))

theorem parallelComponents (h : c.IsEdgeArc T a) (hT : T.Valid) : c.parallelComponents = .ok [(c, (1, norm a))] := by
  have ha := h.label
  have hw := h.wellFormed hT
  have hs : ∀ x, T.IsLabel x → ∀ d, c.parallelStep d x = .ok (if x = norm a then setComponent d c (1, x) else d) := by
    intro x hx d
    unfold parallelStep
    rw [h.parallelArc hx, py_bind_ok, parallelCurve_short hw (fun y hy => h.nonpos (h.tri ▸ hy)) (h.tri ▸ hx), py_bind_ok]
    by_cases hx : x = norm a
    · rw [if_pos hx, if_pos hx]; rfl
    · rw [if_neg hx, if_neg hx]; rfl
  have hn : T.IsLabel (norm a) := by
    unfold norm
    rcases max_choice a (inv a) with k | k <;> rw [k]
    · exact ha
    · exact isLabel_inv.2 ha
  unfold Lam.parallelComponents
  rw [h.tri]
  refine fold_once (n := norm a) ?_ nodup_labels (mem_labels.2 hn) ?_
  · rw [hs _ hn, if_pos rfl]; rfl
  · intro x hx hxn d
    rw [hs x (mem_labels.1 hx), if_neg hxn]

theorem parallel (h : c.IsEdgeArc T a) (hT : T.Valid) : c.parallelToEdge = .ok (norm a) := by
  unfold parallelToEdge
  rw [h.isShort, h.parallelComponents hT]
  have : c.eqv c = true := eqv_spec.2 ⟨rfl, rfl⟩
  simp only [pyAssert, py_bind_ok, this]
  rfl

theorem zip_filter {α : Type} (p : α → Bool) : ∀ l : List α, ((l.zip (l.map p)).filter (fun q => q.2)).map Prod.fst = l.filter p
  | [] => rfl
  | x :: l => by
    have ih := zip_filter p l
    by_cases h : p x = true
    · simp [h, ih]
    · simp only [Bool.not_eq_true] at h
      simp [h, ih]

/-- the vertices at the ends of the arc -/
theorem arcVertices (h : c.IsEdgeArc T a) (hT : T.Valid) {v u : List Int} (hv : T.vertexOf a = .ok v) (hu : T.vertexOf (inv a) = .ok u) :
    ∃ l, c.arcVertices = .ok l ∧ l.Nodup ∧ ∀ x, x ∈ l ↔ x = v ∨ x = u := by
  have hc := hT.comp
  have ha := h.label
  have hw := h.wellFormed hT
  obtain ⟨v', vs, h1, h2, h3, h4, _⟩ := hc.vertexOf_ok ha
  rw [hv] at h1; cases h1
  obtain ⟨u', vs', k1, k2, k3, k4, _⟩ := hc.vertexOf_ok (isLabel_inv.2 ha)
  rw [hu] at k1; cases k1
  rw [h2] at k2; cases k2
  obtain ⟨j1, j2, j3, j4⟩ := hc.vertices_mem h2
  have hnd : vs.Nodup := by
    rw [List.nodup_iff_pairwise_ne] at *
    rw [List.pairwise_flatten] at j4
    refine j4.2.imp_of_mem ?_
    rintro x y hx hy hxy rfl
    obtain ⟨z, hz⟩ := List.exists_mem_of_ne_nil _ (j2 x hx).1.ne
    exact hxy z hz z hz rfl
  let p : List Int → Bool := fun v => decide (a ∈ v ∨ inv a ∈ v)
  refine ⟨vs.filter p, ?_, hnd.filter _, ?_⟩
  · unfold Lam.arcVertices
    rw [h.tri, h2, py_bind_ok]
    have hf : vs.mapM (fun v => do
        let ws ← v.mapM (fun e => do
          let x ← c.wt e
          let y ← c.leftWeight e
          return decide (x < 0 ∨ y < 0))
        return ws.any id) = .ok (vs.map p) := by
      refine mapM_ok (fun v hv => ?_)
      have hvl := (j2 v hv).2.2
      rw [mapM_ok (g := fun e => decide (e = a ∨ e = inv a))]
      · rw [py_bind_ok]
        simp only [p, py_pure, Except.ok.injEq, List.any_map]
        rw [Bool.eq_iff_iff, List.any_eq_true, decide_eq_true_iff]
        simp only [Function.comp, id, decide_eq_true_iff]
        constructor
        · rintro ⟨x, hx, rfl | rfl⟩
          · exact .inl hx
          · exact .inr hx
        · rintro (k | k)
          · exact ⟨a, k, .inl rfl⟩
          · exact ⟨inv a, k, .inr rfl⟩
      · intro e he
        have hel := hvl e he
        rw [wt_eq hw.2 (h.tri ▸ hel), py_bind_ok, leftWeight_short hw (fun y hy => h.nonpos (h.tri ▸ hy)) (h.tri ▸ hel), py_bind_ok]
        simp only [py_pure, Except.ok.injEq, lt_irrefl, or_false]
        rw [Bool.eq_iff_iff, decide_eq_true_iff, decide_eq_true_iff]
        constructor
        · intro k
          by_contra hn
          push Not at hn
          rw [h.other e hel hn.1 hn.2] at k
          exact lt_irrefl _ k
        · rintro (rfl | rfl)
          · rw [h.at_edge]; decide
          · rw [w_inv, h.at_edge]; decide
    rw [hf, py_bind_ok, zip_filter]
    rfl
  · intro x
    rw [List.mem_filter]
    simp only [p, decide_eq_true_iff]
    constructor
    · rintro ⟨hx, k | k⟩
      · exact .inl (j3 _ hx _ h3 _ k h4)
      · exact .inr (j3 _ hx _ k3 _ k k4)
    · rintro (rfl | rfl)
      · exact ⟨h3, .inl h4⟩
      · exact ⟨k3, .inr k4⟩

theorem distinctEndpoints (h : c.IsEdgeArc T a) (hT : T.Valid) : ∃ b, c.arcDistinctEndpoints = .ok b ∧ (b = true ↔ ¬ T.SV a (inv a)) := by
  have hc := hT.comp
  have ha := h.label
  obtain ⟨v, _, hv, _⟩ := hc.vertexOf_ok ha
  obtain ⟨u, _, hu, _, _, k4, _⟩ := hc.vertexOf_ok (isLabel_inv.2 ha)
  obtain ⟨l, h1, h2, h3⟩ := h.arcVertices hT hv hu
  refine ⟨_, by unfold Lam.arcDistinctEndpoints; rw [h1, py_bind_ok]; rfl, ?_⟩
  rw [decide_eq_true_iff]
  have hsv : T.SV a (inv a) ↔ v = u := by
    constructor
    · rintro ⟨v', e1, e2⟩
      rw [hv] at e1; cases e1
      have := hc.vertexOf_unique ha hv e2
      rw [hu] at this; cases this; rfl
    · rintro rfl; exact ⟨v, hv, k4⟩
  rw [hsv]
  by_cases e : v = u
  · have hp : l.Perm [v] := (List.perm_ext_iff_of_nodup h2 (by simp)).2 (fun x => by rw [h3]; simp [e])
    simp [hp.length_eq, e]
  · have hp : l.Perm [v, u] := (List.perm_ext_iff_of_nodup h2 (by simp [e])).2 (fun x => by rw [h3]; simp)
    simp [hp.length_eq, e]

end IsEdgeArc
end Lam
end Curver
