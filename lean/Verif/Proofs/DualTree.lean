import Verif.Spec.DualTree
import Verif.Proofs.Components
import Verif.Proofs.CycleMerge
import Verif.Proofs.Isometry
import Verif.Proofs.Flip

namespace Curver
open Triangulation

/-! ### forests given as lists of edges, newest first -/

theorem eqvGen_mono {κ : Type _} {P Q : κ → κ → Prop} (h : ∀ x y, P x y → Q x y) {x y : κ} (hc : Relation.EqvGen P x y) :
    Relation.EqvGen Q x y := by
  induction hc with
  | rel x y hxy => exact .rel _ _ (h _ _ hxy)
  | refl x => exact .refl _
  | symm x y _ ih => exact ih.symm
  | trans x y z _ _ ih1 ih2 => exact ih1.trans _ _ _ ih2

section
variable {ι κ : Type _} (a b : ι → κ)

def Conn (l : List ι) : κ → κ → Prop := Relation.EqvGen (fun u v => ∃ i ∈ l, u = a i ∧ v = b i)

def Forest : List ι → Prop
  | [] => True
  | i :: l => ¬ Conn a b l (a i) (b i) ∧ Forest l

variable {a b}

theorem Conn.mono {l l' : List ι} (h : ∀ i ∈ l, i ∈ l') {x y : κ} (hc : Conn a b l x y) : Conn a b l' x y :=
  eqvGen_mono (fun _ _ ⟨i, hi, h'⟩ => ⟨i, h i hi, h'⟩) hc

theorem conn_cons {i : ι} {l : List ι} {x y : κ} : Conn a b (i :: l) x y ↔ Conn a b l x y ∨
    (Conn a b l x (a i) ∧ Conn a b l (b i) y) ∨ (Conn a b l x (b i) ∧ Conn a b l (a i) y) := by
  rw [show Conn a b l x y = Relation.EqvGen (fun u v => ∃ i ∈ l, u = a i ∧ v = b i) x y from rfl]
  unfold Conn
  rw [← eqvGen_insert]
  have : (fun u v => ∃ j ∈ i :: l, u = a j ∧ v = b j) = (fun u v => (∃ j ∈ l, u = a j ∧ v = b j) ∨ (u = a i ∧ v = b i)) := by
    funext u v
    simp only [List.mem_cons, exists_eq_or_imp, eq_iff_iff]
    exact or_comm
  rw [this]

theorem Conn.edge {l : List ι} {i : ι} (hi : i ∈ l) : Conn a b l (a i) (b i) := .rel _ _ ⟨i, hi, rfl, rfl⟩

theorem Forest.erase [DecidableEq ι] {l : List ι} (h : Forest a b l) (i : ι) : Forest a b (l.erase i) := by
  induction l with
  | nil => exact h
  | cons j l ih =>
    by_cases hij : j = i
    · subst hij; rw [List.erase_cons_head]; exact h.2
    · rw [List.erase_cons_tail (by simpa using hij)]
      exact ⟨fun hc => h.1 (hc.mono (fun k hk => List.mem_of_mem_erase hk)), ih h.2⟩

theorem Forest.bridge [DecidableEq ι] {l : List ι} (h : Forest a b l) {i : ι} (hi : i ∈ l) :
    ¬ Conn a b (l.erase i) (a i) (b i) := by
  induction l with
  | nil => simp at hi
  | cons j l ih =>
    by_cases hij : j = i
    · subst hij; rw [List.erase_cons_head]; exact h.1
    · rw [List.erase_cons_tail (by simpa using hij)]
      have hi' : i ∈ l := by
        rcases List.mem_cons.1 hi with h | h
        · exact absurd h.symm hij
        · exact h
      have hm : ∀ {x y}, Conn a b (l.erase i) x y → Conn a b l x y := fun h => h.mono (fun k hk => List.mem_of_mem_erase hk)
      rw [conn_cons]
      rintro (hc | ⟨h1, h2⟩ | ⟨h1, h2⟩)
      · exact ih h.2 hi' hc
      · exact h.1 ((hm h1).symm.trans _ _ _ ((Conn.edge hi').trans _ _ _ (hm h2).symm))
      · exact h.1 ((hm h2).trans _ _ _ ((Conn.edge hi').symm.trans _ _ _ (hm h1)))

end

namespace Triangulation
variable {T : Triangulation}

namespace Complete
variable (hT : T.Complete)
include hT

theorem triOf_nxt {e : Int} (h : T.IsLabel e) : T.triOf (T.nxt e) = T.triOf e := by
  obtain ⟨t, ht, h1, h2, -, -⟩ := (hT.glues_nxt h).exists_tri
  rw [hT.triOf_eq ht h1, hT.triOf_eq ht h2]

theorem triOf_eq_iff' {e f : Int} (he : T.IsLabel e) (hf : T.IsLabel f) :
    T.triOf e = T.triOf f ↔ f = e ∨ f = T.nxt e ∨ f = T.nxt (T.nxt e) := by
  constructor
  · intro h
    obtain ⟨t, ht, h1, h2, h3, h4⟩ := (hT.glues_nxt he).exists_tri
    have := (hT.triOf_mem hf).2
    rw [← h, hT.triOf_eq ht h1] at this
    rcases h4 with rfl | rfl | rfl <;> simp only [Tri.labels, List.mem_cons, List.not_mem_nil, or_false] at this <;> tauto
  · rintro (rfl | rfl | rfl)
    · rfl
    · rw [hT.triOf_nxt he]
    · rw [hT.triOf_nxt (hT.isLabel_nxt he), hT.triOf_nxt he]

/-- connectivity by a list of indices -/
theorem dualConnected_iff {l : List Int} (hl : ∀ i ∈ l, i ∈ T.indices) {s t : Tri} :
    T.DualConnected (· ∈ l) s t ↔ Conn T.triOf (fun i => T.triOf (inv i)) l s t := by
  unfold DualConnected Conn
  have : (fun s t => s ∈ T.triangles ∧ t ∈ T.triangles ∧ ∃ i, 0 ≤ i ∧ i ∈ l ∧ i ∈ s.labels ∧ inv i ∈ t.labels) =
      (fun u v => ∃ i ∈ l, u = T.triOf i ∧ v = T.triOf (inv i)) := by
    funext u v
    rw [eq_iff_iff]
    constructor
    · rintro ⟨h1, h2, i, _, h4, h5, h6⟩
      exact ⟨i, h4, (hT.triOf_eq h1 h5).symm, (hT.triOf_eq h2 h6).symm⟩
    · rintro ⟨i, hi, rfl, rfl⟩
      have h1 := hT.triOf_mem (mem_indices_isLabel (hl i hi))
      have h2 := hT.triOf_mem (isLabel_inv.2 (mem_indices_isLabel (hl i hi)))
      exact ⟨h1.1, h2.1, i, (mem_indices.1 (hl i hi)).1, hi, h1.2, h2.2⟩
  rw [this]

end Complete

theorem DualConnected.mono {S S' : Int → Prop} (h : ∀ i, i ∈ T.indices → S i → S' i) (hT : T.Complete) {s t : Tri} (hc : T.DualConnected S s t) :
    T.DualConnected S' s t := by
  refine eqvGen_mono ?_ hc
  rintro s t ⟨h1, h2, i, h3, h4, h5, h6⟩
  refine ⟨h1, h2, i, h3, h i ?_ h4, h5, h6⟩
  have := hT.mem_labels_of_mem h1 h5
  rw [mem_indices]; unfold IsLabel at this; omega

/-- what is known after processing the indices in `done`; `tree` in the order of insertion -/
structure TreeInv (T : Triangulation) (avoid done : List Int) (s : UnionFind Tri) (tree : List Int) : Prop where
  rep : ∃ P, UnionFind.Rep s T.triangles P ∧ ∀ u v, Relation.EqvGen P u v ↔ Conn T.triOf (fun i => T.triOf (inv i)) tree.reverse u v
  sub : tree.Sublist done
  avoids : ∀ i ∈ tree, i ∉ avoid
  forest : Forest T.triOf (fun i => T.triOf (inv i)) tree.reverse
  covers : ∀ i ∈ done, i ∉ avoid → Conn T.triOf (fun i => T.triOf (inv i)) tree.reverse (T.triOf i) (T.triOf (inv i))
  greedy : ∀ i ∈ done, i ∉ avoid → (i ∈ tree ↔
    ¬ Conn T.triOf (fun i => T.triOf (inv i)) (tree.filter (· < i)).reverse (T.triOf i) (T.triOf (inv i)))

theorem TreeInv.step (hT : T.Complete) {avoid done : List Int} {s : UnionFind Tri} {tree : List Int} (h : T.TreeInv avoid done s tree)
    {i : Int} (hi : i ∈ T.indices) (hdone : ∀ j ∈ done, j < i) : ∃ s' tree', T.dualTreeStep avoid (s, tree) i = .ok (s', tree') ∧
      T.TreeInv avoid (done ++ [i]) s' tree' := by
  have hli := mem_indices_isLabel hi
  have hli' := isLabel_inv.2 hli
  have ht1 := hT.triOf_mem hli
  have ht2 := hT.triOf_mem hli'
  unfold dualTreeStep
  dsimp only
  by_cases hav : i ∈ avoid
  · rw [if_neg (by simpa using hav)]
    refine ⟨s, tree, rfl, h.rep, h.sub.trans (List.sublist_append_left _ _), h.avoids, h.forest, ?_, ?_⟩
    · intro j hj hja
      rw [List.mem_append, List.mem_singleton] at hj
      rcases hj with hj | rfl
      · exact h.covers j hj hja
      · exact absurd hav hja
    · intro j hj hja
      rw [List.mem_append, List.mem_singleton] at hj
      rcases hj with hj | rfl
      · exact h.greedy j hj hja
      · exact absurd hav hja
  · rw [if_pos hav, hT.triangle_eq hli, hT.triangle_eq hli']
    obtain ⟨P, hP, hPc⟩ := h.rep
    obtain ⟨ra, s1, a1, a2, a3, a4⟩ := UnionFind.find_rep hP ht1.1
    obtain ⟨rb, s2, b1, b2, b3, b4⟩ := UnionFind.find_rep a3 ht2.1
    simp only [py_bind_ok, a1, b1]
    have hkey : ra = rb ↔ Conn T.triOf (fun i => T.triOf (inv i)) tree.reverse (T.triOf i) (T.triOf (inv i)) := by
      rw [← hPc, ← hP.same, UnionFind.same_iff_root_eq a2 ((a4 _ _).1 b2)]
    have hfilter : tree.filter (· < i) = tree := by
      rw [List.filter_eq_self]; intro j hj; simpa using hdone j (h.sub.subset hj)
    have hitree : i ∉ tree := fun hh => by have := hdone i (h.sub.subset hh); omega
    by_cases hr : ra = rb
    · rw [if_neg (by simpa using hr)]
      refine ⟨s2, tree, rfl, ⟨P, b3, hPc⟩, h.sub.trans (List.sublist_append_left _ _), h.avoids, h.forest, ?_, ?_⟩
      · intro j hj hja
        rw [List.mem_append, List.mem_singleton] at hj
        rcases hj with hj | rfl
        · exact h.covers j hj hja
        · exact hkey.1 hr
      · intro j hj hja
        rw [List.mem_append, List.mem_singleton] at hj
        rcases hj with hj | rfl
        · exact h.greedy j hj hja
        · rw [hfilter]
          exact iff_of_false hitree (fun hh => hh (hkey.1 hr))
    · rw [if_pos hr]
      obtain ⟨s3, c1, c2⟩ := UnionFind.unionMany_ok b3 [T.triOf i, T.triOf (inv i)] (by
        intro t ht; simp only [List.mem_cons, List.not_mem_nil, or_false] at ht
        rcases ht with rfl | rfl
        · exact ht1.1
        · exact ht2.1)
      simp only [c1, py_bind_ok]
      refine ⟨s3, tree ++ [i], rfl, ⟨_, c2, ?_⟩, List.Sublist.append_right h.sub _, ?_, ?_, ?_, ?_⟩
      · intro u v
        rw [List.reverse_append, List.reverse_singleton, List.singleton_append, conn_cons]
        simp only [← hPc]
        rw [← eqvGen_insert]
        constructor
        · intro hh
          induction hh with
          | rel x y hxy =>
            rcases hxy with hxy | hxy
            · exact .rel _ _ (.inl hxy)
            · simp only [UnionFind.Op.pairs, List.map_cons, List.map_nil, List.mem_cons, Prod.mk.injEq, List.not_mem_nil, or_false] at hxy
              rcases hxy with ⟨rfl, rfl⟩ | ⟨rfl, rfl⟩
              · exact .refl _
              · exact .rel _ _ (.inr ⟨rfl, rfl⟩)
          | refl x => exact .refl _
          | symm x y _ ih => exact ih.symm
          | trans x y z _ _ ih1 ih2 => exact ih1.trans _ _ _ ih2
        · intro hh
          refine eqvGen_mono ?_ hh
          rintro x y (hxy | ⟨rfl, rfl⟩)
          · exact .inl hxy
          · exact .inr (by simp [UnionFind.Op.pairs])
      · intro j hj
        rw [List.mem_append, List.mem_singleton] at hj
        rcases hj with hj | rfl
        · exact h.avoids j hj
        · exact hav
      · rw [List.reverse_append, List.reverse_singleton, List.singleton_append]
        exact ⟨fun hc => hr (hkey.2 hc), h.forest⟩
      · intro j hj hja
        rw [List.mem_append, List.mem_singleton] at hj
        rw [List.reverse_append, List.reverse_singleton, List.singleton_append]
        rcases hj with hj | rfl
        · exact (h.covers j hj hja).mono (fun k hk => by simp [hk])
        · exact Conn.edge (b := fun i => T.triOf (inv i)) (by simp)
      · intro j hj hja
        rw [List.mem_append, List.mem_singleton] at hj
        rcases hj with hj | rfl
        · have hji := hdone j hj
          rw [List.filter_append]
          have : List.filter (· < j) [i] = [] := by
            rw [List.filter_eq_nil_iff]; simp; omega
          rw [this, List.append_nil, ← h.greedy j hj hja]
          simp; omega
        · rw [List.filter_append, hfilter]
          have : List.filter (· < j) [j] = [] := by simp
          rw [this, List.append_nil]
          exact iff_of_true (by simp) (fun hc => hr (hkey.2 hc))

theorem sorted_indices : T.indices.Pairwise (· < ·) := by
  unfold indices
  rw [List.pairwise_map]
  exact List.pairwise_lt_range.imp (fun h => by simpa using h)

theorem Complete.dualTree_ok (hT : T.Complete) (avoid : List Int) : ∃ s tree, T.dualTree avoid = .ok tree ∧ T.TreeInv avoid T.indices s tree := by
  have gen : ∀ (rest done : List Int) (s : UnionFind Tri) (tree : List Int), (done ++ rest).Pairwise (· < ·) → (∀ i ∈ rest, i ∈ T.indices) →
      T.TreeInv avoid done s tree → ∃ s' tree', rest.foldlM (T.dualTreeStep avoid) (s, tree) = .ok (s', tree') ∧
        T.TreeInv avoid (done ++ rest) s' tree' := by
    intro rest
    induction rest with
    | nil => intro done s tree _ _ h; exact ⟨s, tree, rfl, by simpa using h⟩
    | cons i rest ih =>
      intro done s tree hp hr h
      obtain ⟨s1, tree1, h1, h2⟩ := h.step hT (hr i (by simp)) (by
        intro j hj
        exact (List.pairwise_append.1 hp).2.2 j hj i (by simp))
      obtain ⟨s2, tree2, h3, h4⟩ := ih (done ++ [i]) s1 tree1 (by simpa using hp) (fun j hj => hr j (by simp [hj])) h2
      exact ⟨s2, tree2, by simp [h1, h3], by simpa using h4⟩
  have hrep := UnionFind.create_rep T.triangles
  rw [UnionFind.create_keys hT.nodup_triangles] at hrep
  obtain ⟨s, tree, h1, h2⟩ := gen T.indices [] (UnionFind.create T.triangles) [] (by simpa using sorted_indices) (fun i hi => hi)
    ⟨⟨_, hrep, fun u v => by unfold Conn; simp⟩, List.Sublist.refl _, by simp, trivial, by simp, by simp⟩
  refine ⟨s, tree, ?_, by simpa using h2⟩
  unfold dualTree
  rw [h1]; rfl

end Triangulation
end Curver
