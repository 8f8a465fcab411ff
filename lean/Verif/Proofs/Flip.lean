import Verif.Spec.Flip
import Verif.Proofs.Triangulation
import Mathlib.Data.List.Dedup

namespace Curver
namespace Triangulation
variable {T T' : Triangulation}

/-- the triangle of an oriented edge -/
def triOf (T : Triangulation) (e : Int) : Tri :=
  match T.triangle e with
  | .ok t => t
  | .error _ => ⟨0, 0, 0⟩

namespace Complete
variable (hT : T.Complete)
include hT

theorem triangle_eq {e : Int} (h : T.IsLabel e) : T.triangle e = .ok (T.triOf e) := by
  obtain ⟨t, _, _, h3⟩ := hT.exists_triangle h
  simp [triOf, h3]

theorem triOf_mem {e : Int} (h : T.IsLabel e) : T.triOf e ∈ T.triangles ∧ e ∈ (T.triOf e).labels :=
  hT.triangle_ok_iff.1 (hT.triangle_eq h)

theorem triOf_eq {e : Int} {t : Tri} (ht : t ∈ T.triangles) (h : e ∈ t.labels) : T.triOf e = t := by
  have := hT.triangle_ok_iff.2 ⟨ht, h⟩
  simp [triOf, this]

theorem triOf_eq_iff {e f : Int} (he : T.IsLabel e) (hf : T.IsLabel f) : T.triOf e = T.triOf f ↔ T.SameTriangle e f := by
  constructor
  · intro h
    refine ⟨T.triOf e, (hT.triOf_mem he).1, (hT.triOf_mem he).2, ?_⟩
    rw [h]; exact (hT.triOf_mem hf).2
  · rintro ⟨t, ht, h1, h2⟩
    rw [hT.triOf_eq ht h1, hT.triOf_eq ht h2]

theorem sameTriangle_iff {e f : Int} (he : T.IsLabel e) : T.SameTriangle e f ↔ f = e ∨ f = T.nxt e ∨ f = T.nxt (T.nxt e) := by
  constructor
  · rintro ⟨t, ht, h1, h2⟩
    have hg := glues_of_mem ht
    simp only [Tri.labels, List.mem_cons, List.not_mem_nil, or_false] at h1 h2
    have n1 := hT.nxt_of_glues hg
    have n2 := hT.nxt_of_glues hg.rot
    have n3 := hT.nxt_of_glues hg.rot.rot
    rcases h1 with rfl | rfl | rfl
    · rw [n1, n2]; tauto
    · rw [n2, n3]; tauto
    · rw [n3, n1]; tauto
  · intro h
    obtain ⟨t, ht, h1, h2, h3, _⟩ := (hT.glues_nxt he).exists_tri
    refine ⟨t, ht, h1, ?_⟩
    rcases h with rfl | rfl | rfl <;> assumption

theorem triOf_labels {e : Int} (he : T.IsLabel e) : (T.triOf e).labels.Perm [e, T.nxt e, T.nxt (T.nxt e)] := by
  obtain ⟨t, ht, h1, h2, h3, hh⟩ := (hT.glues_nxt he).exists_tri
  rw [hT.triOf_eq ht h1]
  rcases hh with rfl | rfl | rfl
  · exact .refl _
  · simp only [Tri.labels]
    exact (List.perm_append_comm (l₁ := [T.nxt e, T.nxt (T.nxt e)]) (l₂ := [e]))
  · simp only [Tri.labels]
    exact (List.perm_append_comm (l₁ := [T.nxt (T.nxt e)]) (l₂ := [e, T.nxt e]))

theorem isFlippable_eq {e : Int} (h : T.IsLabel e) : T.isFlippable e = .ok (decide (T.triOf e ≠ T.triOf (inv e))) := by
  unfold isFlippable
  rw [hT.triangle_eq h, hT.triangle_eq (isLabel_inv.2 h)]
  simp only [py_bind_ok, py_pure, Except.ok.injEq]
  rw [Bool.eq_iff_iff]; simp

theorem isFlippable_iff {e : Int} (h : T.IsLabel e) : T.isFlippable e = .ok true ↔ T.Flippable e := by
  rw [hT.isFlippable_eq h]
  simp only [Except.ok.injEq, decide_eq_true_eq, ne_eq, hT.triOf_eq_iff h (isLabel_inv.2 h), Flippable, h, true_and]

theorem square_eq {e : Int} (h : T.Flippable e) :
    T.square e = .ok ⟨T.nxt e, T.nxt (T.nxt e), T.nxt (inv e), T.nxt (T.nxt (inv e)), e⟩ := by
  unfold square
  rw [(hT.isFlippable_iff h.1).2 h, hT.corner_nxt h.1, hT.corner_nxt (isLabel_inv.2 h.1)]
  simp [pyAssert]

theorem square_error {e : Int} (h : T.IsLabel e) (h' : ¬ T.Flippable e) : T.square e = .error .assertionError := by
  unfold square
  have : T.isFlippable e = .ok false := by
    rw [hT.isFlippable_eq h]
    rw [← hT.isFlippable_iff h, hT.isFlippable_eq h] at h'
    simpa using h'
  rw [this]
  simp [pyAssert]

theorem support_eq {es : List Int} (h : ∀ e ∈ es, T.IsLabel e) :
    T.support es = .ok ((es.flatMap (fun e => [e, inv e])).map T.triOf).dedup := by
  unfold support
  rw [mapM_ok (g := T.triOf)]
  · simp
  · intro e he
    rw [List.mem_flatMap] at he
    obtain ⟨f, hf, he⟩ := he
    apply hT.triangle_eq
    simp at he
    rcases he with rfl | rfl
    · exact h _ hf
    · exact isLabel_inv.2 (h _ hf)

end Complete

theorem length_sides (es : List Int) : (es.flatMap (fun e => [e, inv e])).length = 2 * es.length := by
  induction es with
  | nil => rfl
  | cons a l ih => simp only [List.flatMap_cons, List.length_append, List.length_cons, List.length_nil, ih]; omega

theorem mem_sides {es : List Int} {u : Int} : u ∈ es.flatMap (fun e => [e, inv e]) ↔ u ∈ es ∨ inv u ∈ es := by
  rw [List.mem_flatMap]
  constructor
  · rintro ⟨e, he, hu⟩
    simp at hu
    rcases hu with rfl | rfl
    · exact .inl he
    · right; simpa using he
  · rintro (h | h)
    · exact ⟨u, h, by simp⟩
    · exact ⟨inv u, h, by simp⟩

theorem dedup_length_iff {α : Type _} [DecidableEq α] {l : List α} : l.dedup.length = l.length ↔ l.Nodup := by
  constructor
  · intro h
    rw [← (List.dedup_sublist l).eq_of_length h]; exact List.nodup_dedup l
  · intro h; rw [h.dedup]

namespace Complete
variable (hT : T.Complete)
include hT

theorem disjoint_iff {es : List Int} (h : ∀ e ∈ es, T.IsLabel e) :
    T.DisjointSupport es ↔ ((es.flatMap (fun e => [e, inv e])).map T.triOf).Nodup := by
  unfold DisjointSupport
  rw [List.Nodup, List.pairwise_map]
  have hl : ∀ u ∈ es.flatMap (fun e => [e, inv e]), T.IsLabel u := by
    intro u hu
    rcases mem_sides.1 hu with h' | h'
    · exact h _ h'
    · exact isLabel_inv.1 (h _ h')
  constructor
  · rintro ⟨_, hp⟩
    refine hp.imp_of_mem ?_
    intro a b ha hb hab
    rw [ne_eq, hT.triOf_eq_iff (hl _ ha) (hl _ hb)]; exact hab
  · intro hp
    refine ⟨h, hp.imp_of_mem ?_⟩
    intro a b ha hb hab
    rw [ne_eq, hT.triOf_eq_iff (hl _ ha) (hl _ hb)] at hab; exact hab

end Complete

theorem DisjointSupport.sides_nodup {es : List Int} (h : T.DisjointSupport es) (hT : T.Complete) :
    (es.flatMap (fun e => [e, inv e])).Nodup :=
  ((hT.disjoint_iff h.1).1 h).of_map

theorem DisjointSupport.flippable {es : List Int} (h : T.DisjointSupport es) {e : Int} (he : e ∈ es) : T.Flippable e := by
  refine ⟨h.1 e he, ?_⟩
  have := h.2
  rw [List.pairwise_flatMap] at this
  have := this.1 e he
  simpa using this

theorem disjoint_singleton {e : Int} : T.DisjointSupport [e] ↔ T.Flippable e := by
  simp [DisjointSupport, Flippable]

/-- the new triangles of the flip of `e` -/
def newTris (T : Triangulation) (e : Int) : List Tri :=
  if sign e = 1 then [Tri.create e (T.nxt (T.nxt (inv e))) (T.nxt e), Tri.create (inv e) (T.nxt (T.nxt e)) (T.nxt (inv e))]
  else [Tri.create (inv e) (T.nxt (T.nxt (inv e))) (T.nxt e), Tri.create e (T.nxt (T.nxt e)) (T.nxt (inv e))]

theorem Complete.flippedTriangles_eq (hT : T.Complete) {e : Int} (h : T.Flippable e) :
    T.flippedTriangles e = .ok (T.newTris e) := by
  unfold flippedTriangles newTris
  rw [hT.square_eq h]
  simp only [bind, Except.bind]
  split <;> rfl

theorem newTris_labels (T : Triangulation) (e : Int) : ((T.newTris e).flatMap Tri.labels).Perm
    [e, T.nxt e, T.nxt (T.nxt e), inv e, T.nxt (inv e), T.nxt (T.nxt (inv e))] := by
  unfold newTris
  split
  · simp only [List.flatMap_cons, List.flatMap_nil, List.append_nil]
    refine ((Tri.create_labels_perm _ _ _).append (Tri.create_labels_perm _ _ _)).trans ?_
    simp only [List.cons_append, List.nil_append]
    generalize T.nxt (T.nxt (inv e)) = d; generalize T.nxt (T.nxt e) = b; generalize T.nxt e = a
    generalize T.nxt (inv e) = c; generalize inv e = e'
    rw [List.perm_iff_count]; intro x; simp only [List.count_cons, List.count_nil]; omega
  · simp only [List.flatMap_cons, List.flatMap_nil, List.append_nil]
    refine ((Tri.create_labels_perm _ _ _).append (Tri.create_labels_perm _ _ _)).trans ?_
    simp only [List.cons_append, List.nil_append]
    generalize T.nxt (T.nxt (inv e)) = d; generalize T.nxt (T.nxt e) = b; generalize T.nxt e = a
    generalize T.nxt (inv e) = c; generalize inv e = e'
    rw [List.perm_iff_count]; intro x; simp only [List.count_cons, List.count_nil]; omega

theorem newTris_canonical {e : Int} {t : Tri} (h : t ∈ T.newTris e) : t.x ≤ t.y ∧ t.x ≤ t.z := by
  unfold newTris at h
  split at h <;> simp at h <;> rcases h with rfl | rfl <;> exact Tri.create_canonical _ _ _

theorem newTris_length (T : Triangulation) (e : Int) : (T.newTris e).length = 2 := by
  unfold newTris; split <;> rfl

end Triangulation
end Curver
