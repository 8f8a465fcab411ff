import Verif.Proofs.Encoding

namespace Curver
open Triangulation

namespace EncItem
variable {S T U : Triangulation} {item : EncItem} {items : List EncItem} {ms : List LMove}

theorem StandsFor.path (hT : T.Valid) (h : item.StandsFor T ms U) : Path T ms U := by
  cases h with
  | flip e m h =>
    have hl : m.Legal := .flip T e m hT h
    obtain ⟨T', h1, h2, rfl⟩ := hT.encodeFlip_ok_iff.1 h
    exact Path.single hl
  | multiflip es m h =>
    have hl : m.Legal := .multiflip T es m hT h
    obtain ⟨T', h1, h2, rfl⟩ := hT.encodeMultiflip_ok_iff.1 h
    exact Path.single hl
  | relabel d m hd h hm =>
    have : m.move.source = T := by
      unfold encodeRelabel at h
      simp only [py_bind_eq_ok] at h
      obtain ⟨d', _, ts, _, T', _, h⟩ := h
      unfold LMove.isometry at h
      simp only [py_bind_eq_ok] at h
      obtain ⟨i, h1, i', _, h⟩ := h
      cases h
      unfold Isometry.create at h1
      simp only [py_bind_eq_ok] at h1
      obtain ⟨_, _, _, _, h⟩ := h1
      cases h; rfl
    subst this
    exact Path.single hm
  | none m h =>
    obtain ⟨m', h1, h2, h3, h4, h5⟩ := hT.idIsometry
    rw [h] at h1; cases h1
    have := Path.single h2
    rwa [h3, h4] at this
  | move m hm h => subst h; exact Path.single hm
  | enc k hk h => subst h; exact hk.path

theorem AllStandFor.path (h : AllStandFor T items ms U) : Path T ms U := by
  induction h with
  | nil T hT => exact .nil T hT
  | cons T U V item items ms ns hT h hs ih => exact (h.path hT).append ih

theorem mem_keys_iff_contains {d : PyDict Int Int} {k : Int} : d.contains k = true ↔ k ∈ d.keys := by
  unfold PyDict.contains PyDict.keys
  induction d with
  | nil => simp [PyDict.get?]
  | cons p d ih =>
    obtain ⟨a, b⟩ := p
    simp only [PyDict.get?, List.map_cons, List.mem_cons]
    by_cases h : a = k
    · simp [h]
    · rw [if_neg h, ih]; simp [Ne.symm h]

theorem StandsFor.encodeItem (hT : T.Valid) (hz : S.zeta = T.zeta) (h : item.StandsFor T ms U) :
    ∃ k, S.encodeItem T item = .ok (.enc k) ∧ k.target = U ∧ k.sequence = ms.reverse := by
  have hp := h.path hT
  cases h with
  | flip e m h =>
    refine ⟨⟨if m.move.source = m.move.target then .mappingClass else .mapping, [m], m.move.source, m.move.target⟩, ?_, rfl, rfl⟩
    · simp only [Triangulation.encodeItem, h, py_bind_ok, (Path.single_iff.1 hp).1.encode]; rfl
  | multiflip es m h =>
    refine ⟨⟨if m.move.source = m.move.target then .mappingClass else .mapping, [m], m.move.source, m.move.target⟩, ?_, rfl, rfl⟩
    · simp only [Triangulation.encodeItem, h, py_bind_ok, (Path.single_iff.1 hp).1.encode]; rfl
  | relabel d m hd h hm =>
    refine ⟨⟨if m.move.source = m.move.target then .mappingClass else .mapping, [m], m.move.source, m.move.target⟩, ?_, rfl, rfl⟩
    · have : S.indices.all (fun i => d.contains i || d.contains (inv i)) = true := by
        rw [List.all_eq_true]
        intro i hi
        unfold indices at hi
        rw [List.mem_map] at hi
        obtain ⟨j, hj, rfl⟩ := hi
        rw [List.mem_range, hz] at hj
        rw [Bool.or_eq_true, mem_keys_iff_contains, mem_keys_iff_contains]
        exact hd _ (by simp) ⟨by simp, by simpa using hj⟩
      simp only [Triangulation.encodeItem, this, if_true, h, py_bind_ok, hm.encode]; rfl
  | none m h =>
    obtain ⟨m', h1, h2, h3, h4, h5⟩ := hT.idIsometry
    rw [h] at h1; cases h1
    refine ⟨⟨.mappingClass, [m], T, T⟩, ?_, rfl, rfl⟩
    have := h2.encode
    rw [h3, h4, if_pos rfl] at this
    simp only [Triangulation.encodeItem, idEncoding, h, py_bind_ok, this]; rfl
  | move m hm h =>
    refine ⟨⟨if m.move.source = m.move.target then .mappingClass else .mapping, [m], m.move.source, m.move.target⟩, ?_, rfl, rfl⟩
    · simp only [Triangulation.encodeItem, hm.encode, py_bind_ok]; rfl
  | enc k hk h => exact ⟨k, rfl, rfl, by simp [Enc.performed]⟩

theorem AllStandFor.encodeTerms (hz : S.zeta = T.zeta) (h : AllStandFor T items ms U) :
    ∃ ks : List Enc, S.encodeTerms T items = .ok (ks.map .enc) ∧ (ks.reverse.map (·.sequence)).flatten = ms.reverse := by
  induction h with
  | nil T hT => exact ⟨[], rfl, rfl⟩
  | cons T U V item items ms ns hT h hs ih =>
    obtain ⟨k, h1, h2, h3⟩ := h.encodeItem hT hz
    obtain ⟨ks, k1, k2⟩ := ih (by rw [hz, (h.path hT).zeta])
    refine ⟨k :: ks, ?_, ?_⟩
    · simp only [Triangulation.encodeTerms, h1, py_bind_ok, EncTerm.target, h2, k1, List.map_cons]; rfl
    · rw [List.reverse_cons, List.map_append, List.flatten_append, k2, List.reverse_append]
      simp [h3]

/-- what `encode` makes of entries that stand for moves -/
theorem AllStandFor.encode (h : AllStandFor T items ms U) (hne : ms ≠ []) :
    T.encode items.reverse = .ok ⟨if T = U then .mappingClass else .mapping, Enc.trim (Enc.trim ms.reverse), T, U⟩ := by
  obtain ⟨ks, h1, h2⟩ := h.encodeTerms rfl
  have hi : items ≠ [] := by
    rintro rfl
    cases h; exact hne rfl
  unfold Triangulation.encode
  have h3 : pyAssert (!items.reverse.isEmpty) = .ok () := by
    cases hr : items.reverse with
    | nil => simp at hr; exact absurd hr hi
    | cons => rfl
  have h4 : ((ks.map EncTerm.enc).reverse.mapM EncTerm.iter : Py _) = .ok (ks.reverse.map (·.sequence)) := by
    rw [← List.map_reverse]
    generalize ks.reverse = l
    induction l with
    | nil => rfl
    | cons a l ih => rw [List.map_cons, List.mapM_cons, ih]; rfl
  rw [h3, py_bind_ok, List.reverse_reverse, h1, py_bind_ok, h4, py_bind_ok, h2]
  exact Enc.create_promote (by simpa using hne) (by rw [List.reverse_reverse]; exact h.path)

end EncItem

/-- moves given to `encode` stand for themselves -/
theorem Path.allStandFor {S T : Triangulation} {ms : List LMove} (h : Path S ms T) :
    EncItem.AllStandFor S (ms.map .move) ms T := by
  induction h with
  | nil T hT => exact .nil T hT
  | cons m ms T h hs ih =>
    have := EncItem.AllStandFor.cons _ _ _ (.move m) (ms.map .move) [m] ms h.valid.1 (.move m h rfl) ih
    exact this

namespace Enc

theorem path_slice {h : Enc} (hh : h.Legal) {i j : Nat} (hij : i ≤ j) :
    ∃ S T, Path h.source (h.sequence.drop j).reverse S ∧ Path S ((h.sequence.take j).drop i).reverse T ∧
      Path T (h.sequence.take i).reverse h.target := by
  have hp := hh.path
  unfold performed at hp
  have e : h.sequence = h.sequence.take i ++ (h.sequence.take j).drop i ++ h.sequence.drop j := by
    conv_lhs => rw [← List.take_append_drop j h.sequence]
    congr 1
    conv_lhs => rw [← List.take_append_drop i (h.sequence.take j)]
    rw [List.take_take, min_eq_left hij]
  have hp' : Path h.source ((h.sequence.drop j).reverse ++ (((h.sequence.take j).drop i).reverse ++ (h.sequence.take i).reverse)) h.target := by
    have : h.sequence.reverse = (h.sequence.drop j).reverse ++ (((h.sequence.take j).drop i).reverse ++ (h.sequence.take i).reverse) := by
      conv_lhs => rw [e]
      simp [List.reverse_append, List.append_assoc]
    rw [← this]; exact hp
  obtain ⟨S, h1, h2⟩ := hp'.split
  obtain ⟨T, h3, h4⟩ := h2.split
  exact ⟨S, T, h1, h3, h4⟩

end Enc
end Curver
