import Verif.Proofs.Triangulation
import Verif.Props.Permutation
import Verif.Props.Utilities
import Mathlib.Data.List.Perm.Subperm
import Mathlib.Data.List.Count

namespace Curver
namespace Triangulation

/-! ## `from_tuple` -/

theorem check_ok {flattened : List Int} : ∀ (l : List Nat), checkLabels flattened l = .ok () ↔
    ∀ i ∈ l, (i : Int) ∈ flattened ∧ inv i ∈ flattened := by
  intro l
  induction l with
  | nil => simp [checkLabels]
  | cons a l ih =>
    by_cases h1 : (a : Int) ∈ flattened <;> by_cases h2 : inv a ∈ flattened <;> simp [checkLabels, h1, h2, ih]

theorem check_error {flattened : List Int} : ∀ (l : List Nat),
    (¬ ∀ i ∈ l, (i : Int) ∈ flattened ∧ inv i ∈ flattened) → checkLabels flattened l = .error .typeError := by
  intro l
  induction l with
  | nil => simp
  | cons a l ih =>
    intro h
    by_cases h1 : (a : Int) ∈ flattened <;> by_cases h2 : inv a ∈ flattened <;> simp [checkLabels, h1, h2]
    apply ih
    intro hl; apply h
    intro i hi
    simp at hi
    rcases hi with rfl | hi
    · exact ⟨h1, h2⟩
    · exact hl i hi

/-- the triangle of a triple -/
def toTri (l : List Int) : Tri := Tri.create (l.getD 0 0) (l.getD 1 0) (l.getD 2 0)

theorem triOfLabels_eq {l : List Int} (h : l.length = 3) : triOfLabels l = .ok (toTri l) := by
  match l, h with
  | [a, b, c], _ => rfl

theorem toTri_labels {l : List Int} (h : l.length = 3) : (toTri l).labels.Perm l := by
  match l, h with
  | [a, b, c], _ => exact Tri.create_labels_perm a b c

theorem flatten_length {ls : List (List Int)} (h : ∀ l ∈ ls, l.length = 3) : ls.flatten.length = 3 * ls.length := by
  induction ls with
  | nil => rfl
  | cons l ls ih =>
    simp only [List.flatten_cons, List.length_append, List.length_cons]
    rw [ih (fun l hl => h l (by simp [hl])), h l (by simp)]; omega

theorem toTri_flat {ls : List (List Int)} (h : ∀ l ∈ ls, l.length = 3) :
    ((ls.map toTri).flatMap Tri.labels).Perm ls.flatten := by
  induction ls with
  | nil => exact List.Perm.refl _
  | cons l ls ih =>
    simp only [List.map_cons, List.flatMap_cons, List.flatten_cons]
    exact List.Perm.append (toTri_labels (h l (by simp))) (ih (fun l hl => h l (by simp [hl])))

theorem fromTuple_eq {ls : List (List Int)} (h3 : ∀ l ∈ ls, l.length = 3) (hne : ls ≠ [])
    (hall : ∀ i : Nat, i < ls.length * 3 / 2 → (i : Int) ∈ ls.flatten ∧ inv i ∈ ls.flatten) :
    fromTuple ls = create (ls.map toTri) := by
  unfold fromTuple
  have h1 : pyAssert (ls.all (fun l => l.length == 3)) = .ok () := by
    rw [pyAssert_ok_iff, List.all_eq_true]; intro l hl; simp [h3 l hl]
  have h2 : pyAssert (!ls.isEmpty) = .ok () := by
    rw [pyAssert_ok_iff]; simp [hne]
  rw [h1, py_bind_ok, h2, py_bind_ok]
  simp only
  rw [(check_ok (flattened := ls.flatten) (List.range (ls.length * 3 / 2))).2
    (fun i hi => hall i (List.mem_range.1 hi)), py_bind_ok]
  rw [mapM_ok (g := toTri) (fun l hl => triOfLabels_eq (h3 l hl)), py_bind_ok]

theorem fromTuple_ok_of {ls : List (List Int)} {T : Triangulation} (h : fromTuple ls = .ok T) :
    (∀ l ∈ ls, l.length = 3) ∧ ls ≠ [] ∧
    ∀ i : Nat, i < ls.length * 3 / 2 → (i : Int) ∈ ls.flatten ∧ inv i ∈ ls.flatten := by
  unfold fromTuple at h
  obtain ⟨u, h1, h⟩ := py_bind_eq_ok.1 h
  obtain ⟨u', h2, h⟩ := py_bind_eq_ok.1 h
  simp only at h
  obtain ⟨u'', h3, h⟩ := py_bind_eq_ok.1 h
  have h3' := (check_ok (flattened := ls.flatten) (List.range (ls.length * 3 / 2))).1 h3
  rw [pyAssert_ok_iff, List.all_eq_true] at h1
  rw [pyAssert_ok_iff] at h2
  refine ⟨fun l hl => by simpa using h1 l hl, ?_, fun i hi => h3' i (List.mem_range.2 hi)⟩
  rintro rfl; simp at h2

/-- completeness of a labelling, for an even number of triples -/
theorem complete_of_all {ls : List (List Int)} (h3 : ∀ l ∈ ls, l.length = 3) (hev : ls.length % 2 = 0)
    (hall : ∀ i : Nat, i < ls.length * 3 / 2 → (i : Int) ∈ ls.flatten ∧ inv i ∈ ls.flatten) :
    (⟨ls.map toTri⟩ : Triangulation).Complete := by
  unfold Complete
  have hp : (⟨ls.map toTri⟩ : Triangulation).signature.Perm ls.flatten := toTri_flat h3
  refine hp.trans ?_
  refine (List.Subperm.perm_of_length_le ?_ ?_).symm
  · refine List.subperm_of_subset nodup_labels ?_
    intro e he
    rw [mem_labels] at he
    unfold IsLabel zeta at he
    simp only [List.length_map] at he
    rcases lt_or_ge e 0 with h | h
    · have := (hall (inv e).toNat (by unfold inv; omega)).2
      rwa [show (((inv e).toNat : Nat) : Int) = inv e by unfold inv; omega, inv_inv] at this
    · have := (hall e.toNat (by omega)).1
      rwa [show ((e.toNat : Nat) : Int) = e by omega] at this
  · rw [length_labels, flatten_length h3]; simp [zeta]; omega

theorem CompleteLabelling.all {ls : List (List Int)} (h : CompleteLabelling ls) :
    ls.length % 2 = 0 ∧ ∀ i : Nat, i < ls.length * 3 / 2 → (i : Int) ∈ ls.flatten ∧ inv i ∈ ls.flatten := by
  obtain ⟨h3, z, hz, hc⟩ := h
  rw [flatten_length h3] at hz
  refine ⟨by omega, fun i hi => ?_⟩
  obtain ⟨h1, h2⟩ := hc i (by omega)
  exact ⟨List.count_pos_iff.1 (by omega), List.count_pos_iff.1 (by omega)⟩

theorem completeLabelling_iff {ls : List (List Int)} (h3 : ∀ l ∈ ls, l.length = 3) (hev : ls.length % 2 = 0) :
    CompleteLabelling ls ↔ ∀ i : Nat, i < ls.length * 3 / 2 → (i : Int) ∈ ls.flatten ∧ inv i ∈ ls.flatten := by
  refine ⟨fun h => h.all.2, fun h => ⟨h3, ls.length * 3 / 2, ?_, ?_⟩⟩
  · rw [flatten_length h3]; omega
  · intro i hi
    have hc := complete_of_all h3 hev h
    have hn : ls.flatten.Nodup := (toTri_flat h3).nodup_iff.1 hc.nodup
    exact ⟨List.count_eq_one_of_mem hn (h i hi).1, List.count_eq_one_of_mem hn (h i hi).2⟩

theorem fromTuple_ok {ls : List (List Int)} (hne : ls ≠ []) (h : CompleteLabelling ls) :
    ∃ T, fromTuple ls = .ok T ∧ T.Valid ∧ T.triangles.Perm (ls.map toTri) := by
  have hc := complete_of_all h.1 h.all.1 h.all.2
  rw [fromTuple_eq h.1 hne h.all.2]
  refine create_ok ?_ hc
  intro t ht
  rw [List.mem_map] at ht
  obtain ⟨l, _, rfl⟩ := ht
  exact Tri.create_canonical _ _ _

theorem glues_of_perm_toTri {T : Triangulation} {ls : List (List Int)} (h3 : ∀ l ∈ ls, l.length = 3) (hc : T.Complete)
    (hp : T.triangles.Perm (ls.map toTri)) (a b c : Int) :
    T.Glues a b c ↔ [a, b, c] ∈ ls ∨ [b, c, a] ∈ ls ∨ [c, a, b] ∈ ls := by
  have key : ∀ a b c, [a, b, c] ∈ ls → T.Glues a b c := by
    intro a b c h
    have : Tri.create a b c ∈ T.triangles := hp.mem_iff.2 (List.mem_map.2 ⟨_, h, rfl⟩)
    rcases Tri.create_mem a b c with h' | h' | h' <;> rw [h'] at this
    · exact .inl this
    · exact .inr (.inl this)
    · exact .inr (.inr this)
  constructor
  · intro h
    obtain ⟨t, ht, _, _, _, hh⟩ := h.exists_tri
    rw [hp.mem_iff, List.mem_map] at ht
    obtain ⟨l, hl, rfl⟩ := ht
    match l, h3 l hl with
    | [x, y, z], _ =>
      have hx : toTri [x, y, z] = Tri.create x y z := rfl
      rw [hx] at hh
      rcases Tri.create_mem x y z with h' | h' | h' <;> rw [h'] at hh <;>
        rcases hh with hh | hh | hh <;> simp at hh <;> obtain ⟨rfl, rfl, rfl⟩ := hh <;> tauto
  · rintro (h | h | h)
    · exact key _ _ _ h
    · exact (key _ _ _ h).rot.rot
    · exact (key _ _ _ h).rot

/-! ## signatures -/

theorem package_labels (T : Triangulation) : T.package.flatten = T.signature := by
  simp [package, signature, List.flatMap]

theorem signature_inj {S T : Triangulation} (h : S.signature = T.signature) : S = T := by
  cases S with
  | mk s =>
  cases T with
  | mk t =>
  simp only [signature] at h
  congr
  induction s generalizing t with
  | nil =>
    cases t with
    | nil => rfl
    | cons b t => simp [Tri.labels] at h
  | cons a s ih =>
    cases t with
    | nil => simp [Tri.labels] at h
    | cons b t =>
      simp [Tri.labels] at h
      obtain ⟨h1, h2, h3, h4⟩ := h
      rw [ih t h4]
      congr
      cases a; cases b; simp at h1 h2 h3; simp [h1, h2, h3]

theorem package_complete {T : Triangulation} (hT : T.Complete) : CompleteLabelling T.package := by
  have h3 : ∀ l ∈ T.package, l.length = 3 := by
    intro l hl; simp [package] at hl; obtain ⟨t, _, rfl⟩ := hl; rfl
  refine ⟨h3, T.zeta, ?_, ?_⟩
  · rw [package_labels, hT.length_eq, length_labels]
  · intro i hi
    rw [package_labels]
    refine ⟨List.count_eq_one_of_mem hT.nodup ?_, List.count_eq_one_of_mem hT.nodup ?_⟩
    · rw [hT.mem_signature]; unfold IsLabel; omega
    · rw [hT.mem_signature]; unfold IsLabel inv; omega

theorem package_toTri {T : Triangulation} (h : ∀ t ∈ T.triangles, t.x ≤ t.y ∧ t.x ≤ t.z) :
    T.package.map toTri = T.triangles := by
  unfold package
  rw [List.map_map]
  conv_rhs => rw [← List.map_id T.triangles]
  apply List.map_congr_left
  intro t ht
  exact Tri.create_of_canonical (h t ht)

theorem unpickle_ok {T : Triangulation} (hT : T.Valid) (hne : T.triangles ≠ []) : fromTuple T.package = .ok T := by
  have hc := package_complete hT.comp
  obtain ⟨S, h1, h2, h3⟩ := fromTuple_ok (by simpa [package] using hne) hc
  rw [package_toTri hT.canonical] at h3
  rw [h1, Valid.ext h2 hT (fun a b c => glues_perm h3)]

theorem splitUnderscore_of_not_mem {s : List Char} (h : '_' ∉ s) : splitUnderscore s = [s] := by
  induction s with
  | nil => rfl
  | cons c s ih =>
    simp at h
    simp only [splitUnderscore]
    rw [if_neg (by intro hc; exact h.1 hc.symm), ih h.2]

theorem splitUnderscore_append {s t : List Char} (h : '_' ∉ s) (h' : '_' ∉ t) : splitUnderscore (s ++ '_' :: t) = [s, t] := by
  induction s with
  | nil => simp [splitUnderscore, splitUnderscore_of_not_mem h']
  | cons c s ih =>
    simp at h
    simp only [List.cons_append, splitUnderscore]
    rw [if_neg (by intro hc; exact h.1 hc.symm), ih h.2]

theorem triples_package (z : Nat) (ts : List Tri) (h : ∀ e ∈ ts.flatMap Tri.labels, 0 ≤ e + z) :
    triples z ((ts.flatMap Tri.labels).map (fun e => (e + (z : Int)).toNat)) = .ok (ts.map Tri.labels) := by
  induction ts with
  | nil => rfl
  | cons t ts ih =>
    simp [Tri.labels] at h
    simp only [List.flatMap_cons, List.map_append, Tri.labels, List.map_cons, List.map_nil, List.cons_append,
      List.nil_append, triples]
    rw [ih (by
      intro e he
      simp only [List.mem_flatMap, Tri.labels, List.mem_cons, List.not_mem_nil, or_false] at he
      obtain ⟨s, hs, he⟩ := he
      have := h.2.2.2 
      rcases he with rfl | rfl | rfl
      · exact this _ s hs (.inl rfl)
      · exact this _ s hs (.inr (.inl rfl))
      · exact this _ s hs (.inr (.inr rfl)))]
    simp
    omega

theorem represents_cast {p : Permutation} {n m : Nat} (h : n = m) {σ : Equiv.Perm (Fin n)} (hp : p.Represents σ) :
    ∃ τ : Equiv.Perm (Fin m), p.Represents τ := by
  subst h; exact ⟨σ, hp⟩

theorem sig_ok {T : Triangulation} (hT : T.Complete) : ∃ (p : Permutation) (σ : Equiv.Perm (Fin (2 * T.zeta))),
    T.sig = .ok (b64encode T.zeta ++ '_' :: b64encode p.index) ∧ p.Represents σ ∧
    p.perm = T.signature.map (fun e => (e + (T.zeta : Int)).toNat) := by
  have hlab : ∀ e ∈ T.signature, 0 ≤ e + T.zeta ∧ e + T.zeta < 2 * T.zeta := by
    intro e he; rw [hT.mem_signature] at he; unfold IsLabel at he; omega
  have hlen : T.signature.length = 2 * T.zeta := by rw [hT.length_eq, length_labels]
  have hcr : Permutation.create (T.signature.map (· + (T.zeta : Int))) =
      .ok ⟨T.signature.map (fun e => (e + (T.zeta : Int)).toNat)⟩ := by
    rw [Permutation.create_ok_iff]
    refine ⟨?_, ?_, by simp [Function.comp_def]⟩
    · intro x hx
      rw [List.mem_map] at hx
      obtain ⟨e, he, rfl⟩ := hx
      have := hlab e he
      simp [hlen]
      omega
    · intro i hi
      simp [hlen] at hi
      rw [List.mem_map]
      refine ⟨(i : Int) - T.zeta, ?_, by simp⟩
      rw [hT.mem_signature]; unfold IsLabel; omega
  obtain ⟨σ, hσ⟩ := Permutation.exists_represents hcr
  have hlen' : Permutation.len ⟨T.signature.map (fun e => (e + (T.zeta : Int)).toNat)⟩ = 2 * T.zeta := by
    simp [Permutation.len, hlen]
  obtain ⟨τ, hτ⟩ := represents_cast hlen' hσ
  exact ⟨_, τ, by simp [sig, hcr], hτ, rfl⟩

/-- the vertices can be computed when each label has a corner, even if there are further corners -/
theorem vertices_total {T : Triangulation} (h : ∀ e, T.IsLabel e → ∃ c, T.corner e = .ok c) : ∃ vs, T.vertices = .ok vs := by
  have hrot : ∀ fuel (u : List Int) (e : Int), u.length < fuel → (∀ x ∈ u, T.IsLabel x) → T.IsLabel e →
      ∃ vs rest, T.rotateFrom fuel u e = .ok (vs, rest) ∧ rest.length ≤ u.length ∧ ∀ x ∈ rest, T.IsLabel x := by
    intro fuel
    induction fuel with
    | zero => intro u e hf; omega
    | succ fuel ih =>
      intro u e hf hu he
      obtain ⟨c, hc⟩ := h e he
      unfold rotateFrom
      rw [hc, py_bind_ok]
      by_cases hm : inv c.z ∈ u
      · simp only [hm, if_true]
        have hlen := List.length_erase_of_mem hm
        have hpos := List.length_pos_of_mem hm
        obtain ⟨vs, rest, h1, h2, h3⟩ := ih (u.erase (inv c.z)) (inv c.z) (by omega) (fun x hx => hu x (List.mem_of_mem_erase hx)) (hu _ hm)
        rw [h1]
        exact ⟨_, rest, rfl, by omega, h3⟩
      · simp only [hm, if_false]
        exact ⟨_, u, rfl, le_refl _, hu⟩
  have hver : ∀ fuel (u : List Int), u.length ≤ fuel → (∀ x ∈ u, T.IsLabel x) → ∃ vs, T.verticesFrom fuel u = .ok vs := by
    intro fuel
    induction fuel with
    | zero =>
      intro u hf _
      have : u = [] := List.length_eq_zero_iff.1 (by omega)
      subst this; exact ⟨_, rfl⟩
    | succ fuel ih =>
      intro u hf hu
      match u with
      | [] => exact ⟨[], rfl⟩
      | e :: u =>
        obtain ⟨vs, rest, h1, h2, h3⟩ := hrot (u.length + 1) u e (by omega) (fun x hx => hu x (by simp [hx])) (hu e (by simp))
        unfold verticesFrom
        rw [h1, py_bind_ok]
        simp only [List.length_cons] at hf
        obtain ⟨ws, h4⟩ := ih rest (by omega) h3
        simp only [h4, py_bind_ok]
        exact ⟨_, rfl⟩
  exact hver _ _ (le_refl _) (fun x hx => mem_labels.1 hx)

theorem fromTuple_total {ls : List (List Int)} (h3 : ∀ l ∈ ls, l.length = 3) (hne : ls ≠ [])
    (hall : ∀ i : Nat, i < ls.length * 3 / 2 → (i : Int) ∈ ls.flatten ∧ inv i ∈ ls.flatten) : ∃ T, fromTuple ls = .ok T := by
  rw [fromTuple_eq h3 hne hall]
  unfold create
  have hp : (List.insertionSort Tri.le (ls.map toTri)).Perm (ls.map toTri) := List.perm_insertionSort _ _
  have hz : (⟨List.insertionSort Tri.le (ls.map toTri)⟩ : Triangulation).zeta = ls.length * 3 / 2 := by
    unfold zeta; rw [hp.length_eq, List.length_map]
  obtain ⟨vs, hv⟩ := vertices_total (T := ⟨List.insertionSort Tri.le (ls.map toTri)⟩) (by
    intro e he
    unfold IsLabel at he
    rw [hz] at he
    have hmem : e ∈ ls.flatten := by
      rcases lt_or_ge e 0 with h | h
      · have := (hall (inv e).toNat (by unfold inv; omega)).2
        rwa [show (((inv e).toNat : Nat) : Int) = inv e by unfold inv; omega, inv_inv] at this
      · have := (hall e.toNat (by omega)).1
        rwa [show ((e.toNat : Nat) : Int) = e by omega] at this
    have hsig : e ∈ (⟨List.insertionSort Tri.le (ls.map toTri)⟩ : Triangulation).signature := by
      rw [(signature_perm (S := ⟨List.insertionSort Tri.le (ls.map toTri)⟩) (T := ⟨ls.map toTri⟩) hp).mem_iff]
      exact (toTri_flat h3).mem_iff.2 hmem
    rw [← corners_map_x] at hsig
    have hk : e ∈ (cornerLookup ⟨List.insertionSort Tri.le (ls.map toTri)⟩).keys := by
      unfold cornerLookup
      rw [PyDict.mem_keys_ofList]
      simpa [Function.comp_def] using hsig
    unfold Triangulation.corner PyDict.get
    cases hg : (cornerLookup ⟨List.insertionSort Tri.le (ls.map toTri)⟩).get? e with
    | some c => exact ⟨c, rfl⟩
    | none => exact absurd hk (PyDict.get?_eq_none_iff.1 hg))
  simp only [hv, py_bind_ok]
  exact ⟨_, rfl⟩

end Triangulation
end Curver
