import Verif.Spec.Components
import Verif.Proofs.Triangulation
import Verif.Props.UnionFind

namespace Curver
open Triangulation

theorem UnionFind.unionAll_ok {κ ι : Type _} [DecidableEq κ] {K : List κ} (F : ι → List κ) : ∀ (ls : List ι) {s : UnionFind κ}
    {P : κ → κ → Prop}, Rep s K P → (∀ l ∈ ls, ∀ b ∈ F l, b ∈ K) →
    ∃ s', ls.foldlM (fun s l => s.unionMany (F l)) s = .ok s' ∧
      Rep s' K (fun u v => P u v ∨ ∃ l ∈ ls, (u, v) ∈ (Op.union (F l)).pairs) := by
  intro ls
  induction ls with
  | nil => intro s P h _; exact ⟨s, rfl, h.congr (by simp)⟩
  | cons l ls ih =>
    intro s P h hl
    obtain ⟨s1, h1, h2⟩ := unionMany_ok h (F l) (hl l (by simp))
    obtain ⟨s2, h3, h4⟩ := ih h2 (fun l' h' => hl l' (by simp [h']))
    exact ⟨s2, by simp [h1, h3], h4.congr (by simp [or_assoc])⟩

theorem UnionFind.create_keys {κ : Type _} [DecidableEq κ] {items : List κ} (hn : items.Nodup) :
    (UnionFind.create items).parent.keys = items := by
  have : (items.map fun i => (i, i)).map Prod.fst = items := by
    rw [List.map_map]; exact List.map_id items
  unfold create
  rw [PyDict.keys_ofList_of_nodup _ (by rw [this]; exact hn), this]

namespace Triangulation
variable {T : Triangulation}

theorem Joined.refl {e : Int} : T.Joined e e := Relation.ReflTransGen.refl

theorem Joined.trans {e f g : Int} (h : T.Joined e f) (h' : T.Joined f g) : T.Joined e g := Relation.ReflTransGen.trans h h'

theorem joined_inv (T : Triangulation) (e : Int) : T.Joined e (inv e) := .single (.inl rfl)

theorem joined_of_glues {a b c : Int} (h : T.Glues a b c) : T.Joined a b := .single (.inr ⟨c, h⟩)

theorem Adjacent.joined_symm {e f : Int} (h : T.Adjacent e f) : T.Joined f e := by
  rcases h with rfl | ⟨c, h⟩
  · have := T.joined_inv (inv e); rwa [inv_inv] at this
  · exact (joined_of_glues h.rot).trans (joined_of_glues h.rot.rot)

theorem Joined.symm {e f : Int} (h : T.Joined e f) : T.Joined f e := by
  induction h with
  | refl => exact .refl
  | tail _ h ih => exact h.joined_symm.trans ih

theorem Complete.adjacent_isLabel (hT : T.Complete) {e f : Int} (h : T.Adjacent e f) (he : T.IsLabel e) : T.IsLabel f := by
  rcases h with rfl | ⟨c, h⟩
  · exact isLabel_inv.2 he
  · exact (hT.label_of_glues h).2.1

theorem Complete.joined_isLabel (hT : T.Complete) {e f : Int} (h : T.Joined e f) (he : T.IsLabel e) : T.IsLabel f := by
  induction h with
  | refl => exact he
  | tail _ h ih => exact hT.adjacent_isLabel h ih

theorem eqvGen_iff_joined (hT : T.Complete) {x y : Int} (hx : T.IsLabel x) :
    Relation.EqvGen (fun u v => (False ∨ ∃ l ∈ T.labels, (u, v) ∈ (UnionFind.Op.union [l, inv l]).pairs) ∨
      ∃ t ∈ T.triangles, (u, v) ∈ (UnionFind.Op.union t.labels).pairs) x y ↔ T.Joined x y := by
  constructor
  · intro h
    clear hx
    induction h with
    | rel a b h =>
      rcases h with (h | ⟨l, hl, h⟩) | ⟨t, ht, h⟩
      · exact h.elim
      · simp only [UnionFind.Op.pairs, List.map_cons, List.map_nil, List.mem_cons, Prod.mk.injEq, List.not_mem_nil, or_false] at h
        rcases h with ⟨rfl, rfl⟩ | ⟨rfl, rfl⟩
        · exact .refl
        · exact T.joined_inv _
      · simp only [UnionFind.Op.pairs, Tri.labels, List.map_cons, List.map_nil, List.mem_cons, Prod.mk.injEq, List.not_mem_nil,
          or_false] at h
        have hg := glues_of_mem ht
        rcases h with ⟨rfl, rfl⟩ | ⟨rfl, rfl⟩ | ⟨rfl, rfl⟩
        · exact .refl
        · exact joined_of_glues hg
        · exact (joined_of_glues hg).trans (joined_of_glues hg.rot)
    | refl a => exact .refl
    | symm a b _ ih => exact ih.symm
    | trans a b c _ _ ih1 ih2 => exact ih1.trans ih2
  · intro h
    induction h with
    | refl => exact .refl _
    | @tail b c hb h ih =>
      have hb' := hT.joined_isLabel hb hx
      refine .trans _ _ _ ih ?_
      rcases h with rfl | ⟨d, h⟩
      · refine .rel _ _ (.inl (.inr ⟨b, mem_labels.2 hb', ?_⟩))
        simp [UnionFind.Op.pairs]
      · obtain ⟨t, ht, -, -, -, hh⟩ := h.exists_tri
        rcases hh with rfl | rfl | rfl
        · refine .rel _ _ (.inr ⟨_, ht, ?_⟩); simp [UnionFind.Op.pairs, Tri.labels]
        · refine .trans _ c _ (.symm _ _ (.rel _ _ (.inr ⟨_, ht, ?_⟩))) (.refl _); simp [UnionFind.Op.pairs, Tri.labels]
        · refine .trans _ d _ (.symm _ _ (.rel _ _ (.inr ⟨_, ht, ?_⟩))) (.rel _ _ (.inr ⟨_, ht, ?_⟩)) <;>
            simp [UnionFind.Op.pairs, Tri.labels]

theorem Complete.components_ok (hT : T.Complete) : ∃ cs, T.components = .ok cs ∧ cs.flatten.Perm T.labels ∧
    (∀ g ∈ cs, g ≠ [] ∧ g.Pairwise (· < ·) ∧ ∀ x ∈ g, ∀ y, y ∈ g ↔ T.Joined x y) ∧
    (cs.filterMap List.head?).Pairwise (· < ·) := by
  have hrep := UnionFind.create_rep T.labels
  rw [UnionFind.create_keys nodup_labels] at hrep
  obtain ⟨s1, h1, h2⟩ := UnionFind.unionAll_ok (fun e => [e, inv e]) T.labels hrep (by
    intro l hl b hb
    simp only [List.mem_cons, List.not_mem_nil, or_false] at hb
    rcases hb with rfl | rfl
    · exact hl
    · exact mem_labels.2 (isLabel_inv.2 (mem_labels.1 hl)))
  obtain ⟨s2, h3, h4⟩ := UnionFind.unionAll_ok Tri.labels T.triangles h2 (by
    intro t ht b hb
    exact mem_labels.2 (hT.mem_labels_of_mem ht hb))
  obtain ⟨gs, s3, h5, h6, h7, h8, h9, h10⟩ := UnionFind.groups_ok h4
  have hid : gs.map (·.insertionSort (· ≤ ·)) = gs := by
    conv_rhs => rw [← List.map_id gs]
    apply List.map_congr_left
    intro g hg
    apply List.Pairwise.insertionSort_eq
    exact (List.Pairwise.sublist (h8 g hg).2.1 sorted_labels).imp (fun h => Int.le_of_lt h)
  refine ⟨gs, ?_, h7, ?_, ?_⟩
  · unfold components
    simp only [h1, h3, h5, py_bind_ok, py_pure, hid]
  · intro g hg
    obtain ⟨a, b, c⟩ := h8 g hg
    refine ⟨a, List.Pairwise.sublist b sorted_labels, ?_⟩
    intro x hx y
    have hxl : T.IsLabel x := mem_labels.1 (b.subset hx)
    rw [c x hx y, eqvGen_iff_joined hT hxl]
    constructor
    · exact fun h => h.2
    · exact fun h => ⟨mem_labels.2 (hT.joined_isLabel h hxl), h⟩
  · exact List.Pairwise.sublist h9 sorted_labels

end Triangulation
end Curver
