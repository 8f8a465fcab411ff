import Verif.Proofs.UnionFind

/-!
# Properties of union-find: C21

`Connected ops` (Spec/UnionFind.lean) is the equivalence relation generated by the unions in the history `ops`.
-/

namespace Curver
namespace UnionFind
variable {κ : Type _} [DecidableEq κ]

theorem groups_ok {s : UnionFind κ} {K : List κ} {P : κ → κ → Prop} (h : Rep s K P) :
    ∃ gs s', s.groups = .ok (gs, s') ∧ Rep s' K P ∧ gs.flatten.Perm K ∧
      (∀ g ∈ gs, g ≠ [] ∧ g.Sublist K ∧ ∀ x ∈ g, ∀ y, y ∈ g ↔ y ∈ K ∧ Relation.EqvGen P x y) ∧
      (gs.filterMap List.head?).Sublist K ∧ s.len = .ok gs.length := by
  have hnK : K.Nodup := h.keys ▸ h.inv.1
  obtain ⟨s', g, h1, h2, h3, h4⟩ := iterLoop_ok (par := s.parent) s.parent.keys [] s [] h (fun _ _ => Iff.rfl)
    (fun x hx => h.keys ▸ hx) ⟨by simp [PyDict.keys], by simp [PyDict.get?], by simp, by simp [PyDict.get?], by simp [PyDict.values]⟩
  simp only [List.nil_append] at h4
  have hmem : ∀ l, l ∈ g.values ↔ ∃ r, g.get? r = some l := by
    intro l
    simp only [PyDict.values, List.mem_map]
    constructor
    · rintro ⟨⟨r, l'⟩, hm, rfl⟩; exact ⟨r, PyDict.get?_of_mem h4.nodup hm⟩
    · rintro ⟨r, hr⟩; exact ⟨(r, l), PyDict.mem_of_get? hr, rfl⟩
  have hkeysK : s.parent.keys = K := h.keys
  refine ⟨g.values, s', by simp [groups, h1], h2, ?_, ?_, ?_, ?_⟩
  · -- partition
    have hdisj : ∀ l ∈ g.values, ∀ l' ∈ g.values, ∀ x, x ∈ l → x ∈ l' → l = l' := by
      intro l hl l' hl' x hx hx'
      obtain ⟨r, hr⟩ := (hmem l).1 hl
      obtain ⟨r', hr'⟩ := (hmem l').1 hl'
      have e1 := (((h4.get r l hr).2 x).1 hx).2
      have e2 := (((h4.get r' l' hr').2 x).1 hx').2
      have := e1.unique e2; subst this
      rw [hr] at hr'; cases hr'; rfl
    have hvals : g.values.Nodup := by
      have : (g.map Prod.fst).Nodup := h4.nodup
      unfold PyDict.values
      refine List.Nodup.map_on ?_ (List.Nodup.of_map _ this)
      rintro ⟨r, l⟩ hr ⟨r', l'⟩ hr' hl
      simp only at hl; subst hl
      have e1 := PyDict.get?_of_mem h4.nodup hr
      have e2 := PyDict.get?_of_mem h4.nodup hr'
      obtain ⟨hne, hx⟩ := h4.get r l e1
      obtain ⟨x, hxl⟩ := List.exists_mem_of_ne_nil _ hne
      have := ((hx x).1 hxl).2.unique (((h4.get r' l e2).2 x).1 hxl).2
      rw [this]
    rw [List.perm_ext_iff_of_nodup ?_ hnK]
    · intro x
      simp only [List.mem_flatten, hmem]
      constructor
      · rintro ⟨l, ⟨r, hr⟩, hx⟩
        rw [← hkeysK]
        exact (((h4.get r l hr).2 x).1 hx).1
      · intro hx
        obtain ⟨r, h5, h6⟩ := h4.all x (by rw [hkeysK]; exact hx)
        obtain ⟨l, hl⟩ := Option.isSome_iff_exists.1 (PyDict.get?_isSome_iff.2 h6)
        exact ⟨l, ⟨r, hl⟩, ((h4.get r l hl).2 x).2 ⟨by rw [hkeysK]; exact hx, h5⟩⟩
    · rw [List.nodup_flatten]
      constructor
      · intro l hl
        obtain ⟨r, hr⟩ := (hmem l).1 hl
        exact (h4.ord r l hr).nodup (by rw [hkeysK]; exact hnK)
      · refine hvals.imp_of_mem ?_
        intro l l' hl hl' hne x hx hx'
        exact hne (hdisj l hl l' hl' x hx hx')
  · intro l hl
    obtain ⟨r, hr⟩ := (hmem l).1 hl
    obtain ⟨h5, h6⟩ := h4.get r l hr
    refine ⟨h5, by rw [← hkeysK]; exact h4.ord r l hr, ?_⟩
    intro x hx y
    have hxr := ((h6 x).1 hx).2
    rw [h6 y, hkeysK, ← h.same]
    constructor
    · rintro ⟨h7, h8⟩; exact ⟨h7, .inr ⟨r, hxr, h8⟩⟩
    · rintro ⟨h7, h8⟩
      refine ⟨h7, ?_⟩
      rcases h8 with rfl | ⟨r', h9, h10⟩
      · exact hxr
      · rw [hxr.unique h9]; exact h10
  · rw [← hkeysK]; exact h4.heads
  · -- length: roots are exactly the keys of g
    unfold len
    have hm : s.parent.keys.mapM (fun item => do
        let p ← s.parent.get item
        return if p = item then 1 else 0) = .ok (s.parent.keys.map fun item => if s.parent.get? item = some item then 1 else 0) := by
      apply mapM_ok
      intro x hx
      obtain ⟨p, hp⟩ := get?_some_of_mem hx
      rw [PyDict.get_eq_ok_iff.2 hp, hp]
      simp
    rw [hm]
    simp only [py_bind_ok, py_pure, Except.ok.injEq]
    have hsum : ∀ l : List κ, (l.map fun item => if s.parent.get? item = some item then 1 else 0).sum =
        (l.filter (fun item => decide (s.parent.get? item = some item))).length := by
      intro l
      induction l with
      | nil => rfl
      | cons a l ih =>
        by_cases e : s.parent.get? a = some a
        · simp [e, ih, Nat.add_comm]
        · simp [e, ih]
    rw [hsum]
    have : (s.parent.keys.filter (fun item => decide (s.parent.get? item = some item))).Perm g.keys := by
      rw [List.perm_ext_iff_of_nodup (h.inv.1.filter _) h4.nodup]
      intro r
      simp only [List.mem_filter, decide_eq_true_eq]
      constructor
      · rintro ⟨h5, h6⟩
        obtain ⟨r', h7, h8⟩ := h4.all r h5
        have := (Root.base h6).unique h7; subst this; exact h8
      · intro h5
        obtain ⟨l, hl⟩ := Option.isSome_iff_exists.1 (PyDict.get?_isSome_iff.2 h5)
        obtain ⟨h6, h7⟩ := h4.get r l hl
        obtain ⟨x, hx⟩ := List.exists_mem_of_ne_nil _ h6
        have := ((h7 x).1 hx).2.fix
        exact ⟨mem_keys_of_get? this, this⟩
    rw [this.length_eq]
    simp [PyDict.keys, PyDict.values]

theorem run_rep {items : List κ} (ops : List (Op κ)) (hops : ∀ op ∈ ops, ∀ x ∈ op.items, x ∈ items) :
    ∃ s, run (create items) ops = .ok s ∧
      Rep s (create items).parent.keys (fun x y => ∃ op ∈ ops, (x, y) ∈ op.pairs) := by
  have hK : ∀ x, x ∈ items → x ∈ (create items).parent.keys := by
    intro x hx
    apply PyDict.mem_keys_ofList.2
    simpa [List.map_map, Function.comp] using hx
  have gen : ∀ (ops : List (Op κ)), (∀ op ∈ ops, ∀ x ∈ op.items, x ∈ items) → ∀ (s : UnionFind κ) (P : κ → κ → Prop),
      Rep s (create items).parent.keys P → ∃ s', ops.foldlM Op.run s = .ok s' ∧
      Rep s' (create items).parent.keys (fun x y => P x y ∨ ∃ op ∈ ops, (x, y) ∈ op.pairs) := by
    intro ops
    induction ops with
    | nil => intro _ s P h; exact ⟨s, rfl, h.congr (by simp)⟩
    | cons op ops ih =>
      intro hops s P h
      have hop : ∀ x ∈ op.items, x ∈ (create items).parent.keys := fun x hx => hK x (hops op (by simp) x hx)
      have hstep : ∃ s1, Op.run s op = .ok s1 ∧ Rep s1 (create items).parent.keys (fun x y => P x y ∨ (x, y) ∈ op.pairs) := by
        cases op with
        | find x =>
          obtain ⟨r, s1, h1, _, h3, _⟩ := find_rep h (hop x (by simp [Op.items]))
          exact ⟨s1, by simp [Op.run, h1], h3.congr (by simp [Op.pairs])⟩
        | union2 x y =>
          obtain ⟨s1, h1, h2⟩ := union2_ok h (hop x (by simp [Op.items])) (hop y (by simp [Op.items]))
          exact ⟨s1, h1, h2.congr (by simp [Op.pairs])⟩
        | union args => exact unionMany_ok h args hop
        | iterate =>
          obtain ⟨gs, s1, h1, h2, _⟩ := groups_ok h
          exact ⟨s1, by simp [Op.run, h1], h2.congr (by simp [Op.pairs])⟩
      obtain ⟨s1, h1, h2⟩ := hstep
      obtain ⟨s2, h3, h4⟩ := ih (fun op' h' => hops op' (by simp [h'])) s1 _ h2
      refine ⟨s2, by simp [h1, h3], h4.congr ?_⟩
      intro u v
      simp [or_assoc]
  obtain ⟨s, h1, h2⟩ := gen ops hops _ _ (create_rep items)
  exact ⟨s, h1, h2.congr (by simp)⟩

/-- C21: after any history on known items every operation has succeeded, and two items have the same root
iff the unions made so far connect them. -/
theorem C21_same_root_iff_connected (items : List κ) (ops : List (Op κ))
    (hops : ∀ op ∈ ops, ∀ x ∈ op.items, x ∈ items) :
    ∃ s, run (create items) ops = .ok s ∧ ∀ x ∈ items, ∀ y ∈ items,
      ∃ rx ry sx sy, s.find x = .ok (rx, sx) ∧ s.find y = .ok (ry, sy) ∧ (rx = ry ↔ Connected ops x y) := by
  obtain ⟨s, h1, h2⟩ := run_rep ops hops
  refine ⟨s, h1, fun x hx y hy => ?_⟩
  have hK : ∀ x, x ∈ items → x ∈ (create items).parent.keys := by
    intro x hx
    apply PyDict.mem_keys_ofList.2
    simpa [List.map_map, Function.comp] using hx
  obtain ⟨rx, sx, h3, h4, _⟩ := find_rep h2 (hK x hx)
  obtain ⟨ry, sy, h5, h6, _⟩ := find_rep h2 (hK y hy)
  exact ⟨rx, ry, sx, sy, h3, h5, (same_iff_root_eq h4 h6).symm.trans (h2.same x y)⟩

/-- C21: iterating yields a partition of the items into the classes of the generated equivalence relation; groups are
listed in the order in which their first members were given, each in the given order; `len` is the number of groups. -/
theorem C21_groups (items : List κ) (hn : items.Nodup) (ops : List (Op κ))
    (hops : ∀ op ∈ ops, ∀ x ∈ op.items, x ∈ items) :
    ∃ s gs s', run (create items) ops = .ok s ∧ s.groups = .ok (gs, s') ∧ gs.flatten.Perm items ∧
      (∀ g ∈ gs, g ≠ [] ∧ g.Sublist items ∧ ∀ x ∈ g, ∀ y, y ∈ g ↔ y ∈ items ∧ Connected ops x y) ∧
      (gs.filterMap List.head?).Sublist items ∧ s.len = .ok gs.length := by
  obtain ⟨s, h1, h2⟩ := run_rep ops hops
  have hkeys : (create items).parent.keys = items := by
    have : (items.map fun i => (i, i)).map Prod.fst = items := by
      rw [List.map_map]; exact List.map_id items
    unfold create
    rw [PyDict.keys_ofList_of_nodup _ (by rw [this]; exact hn), this]
  rw [hkeys] at h2
  obtain ⟨gs, s', h3, h4, h5, h6, h7, h8⟩ := groups_ok h2
  exact ⟨s, gs, s', h1, h3, h5, h6, h7, h8⟩

/-- C21: asking for an item that was never given is a KeyError. -/
theorem C21_unknown_item (items : List κ) (ops : List (Op κ))
    (hops : ∀ op ∈ ops, ∀ x ∈ op.items, x ∈ items) (x : κ) (hx : x ∉ items) :
    ∃ s, run (create items) ops = .ok s ∧ s.find x = .error .keyError := by
  obtain ⟨s, h1, h2⟩ := run_rep ops hops
  refine ⟨s, h1, find_error ?_⟩
  rw [h2.keys]
  intro h
  have := PyDict.mem_keys_ofList.1 h
  rw [List.map_map] at this
  exact hx (by simpa [Function.comp] using this)

/-- a concrete history meeting the hypotheses -/
example : ∃ s gs s', run (create [1, 2, 3, 4, 5]) [.union2 1 2, .union [4, 5, 2], .find 3, .iterate] = .ok s ∧
    s.groups = .ok (gs, s') ∧ gs = [[1, 2, 4, 5], [3]] ∧ s.len = .ok 2 := by
  refine ⟨_, _, _, rfl, rfl, ?_, ?_⟩ <;> decide

end UnionFind
end Curver
