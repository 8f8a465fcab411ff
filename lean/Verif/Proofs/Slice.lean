import Verif.Proofs.Power

namespace Curver
open Triangulation
namespace Enc

theorem sliceBound_nat (n d : Int) (i : Nat) : sliceBound n d (some (i : Int)) = i := by
  unfold sliceBound; dsimp only; rw [if_pos (by omega)]

/-- the slice with natural bounds, non empty -/
theorem slice_lt {h : Enc} (hh : h.Legal) {i j : Nat} (hij : i < j) (hj : j ≤ h.len) :
    ∃ p S T, h.slice (some i) (some j) = .ok p ∧ Path h.source (h.sequence.drop j).reverse S ∧
      Path S ((h.sequence.take j).drop i).reverse T ∧ Path T (h.sequence.take i).reverse h.target ∧
      p = ⟨if S = T then .mappingClass else .mapping, trim (trim ((h.sequence.take j).drop i)), S, T⟩ := by
  obtain ⟨S, T, h1, h2, h3⟩ := path_slice hh (le_of_lt hij)
  refine ⟨_, S, T, ?_, h1, h2, h3, rfl⟩
  unfold len at hj
  have hne : (h.sequence.take j).drop i ≠ [] := by
    rw [← List.length_pos_iff, List.length_drop, List.length_take]; omega
  unfold slice len
  dsimp only
  rw [sliceBound_nat, sliceBound_nat, max_eq_left (by omega), min_eq_left (by omega), if_neg (by omega), if_neg (by omega)]
  have hlt : j - 1 < h.sequence.length := by omega
  have hm : pyGetInt h.sequence ((j : Int) - 1) = .ok h.sequence[j - 1] := by
    unfold pyGetInt
    rw [if_pos (by omega)]
    have : ((j : Int) - 1).toNat = j - 1 := by omega
    rw [this, pyGet, List.getElem?_eq_getElem hlt]
  rw [hm, py_bind_ok]
  have hsl : pySlice h.sequence (some (i : Int)) (some (j : Int)) = (h.sequence.take j).drop i := by
    unfold pySlice pyClip
    dsimp only
    rw [if_neg (by omega), if_neg (by omega), Int.toNat_natCast, Int.toNat_natCast, min_eq_left (by omega), min_eq_left (by omega)]
  rw [hsl]
  have hs : h.sequence[j - 1].move.source = S := by
    have e : (h.sequence.take j).drop i = ((h.sequence.take (j - 1)).drop i) ++ [h.sequence[j - 1]] := by
      have : h.sequence.take j = h.sequence.take (j - 1) ++ [h.sequence[j - 1]] := by
        conv_lhs => rw [show j = (j - 1) + 1 by omega]
        rw [List.take_add_one, List.getElem?_eq_getElem hlt]; rfl
      rw [this, List.drop_append_of_le_length]
      rw [List.length_take]; omega
    rw [e, List.reverse_append, List.reverse_singleton, List.singleton_append, Path.cons_iff] at h2
    exact h2.2.1.symm
  rw [hs]
  have := (h2.allStandFor).encode (by simpa using hne)
  rw [← List.map_reverse, List.reverse_reverse] at this
  exact this

/-- the slice with natural bounds, empty -/
theorem slice_eq {h : Enc} {i : Nat} (hi : i ≤ h.len) :
    h.slice (some i) (some i) = (((h.sequence[i]?).map (fun m => m.move.target)).getD h.source).idEncoding := by
  unfold len at hi
  unfold slice len
  dsimp only
  rw [sliceBound_nat, sliceBound_nat, max_eq_left (by omega), min_eq_left (by omega), if_pos rfl]
  by_cases hlt : i < h.sequence.length
  · rw [if_pos (by omega)]
    have hm : pyGetInt h.sequence (i : Int) = .ok h.sequence[i] := by
      unfold pyGetInt
      rw [if_pos (by omega), Int.toNat_natCast, pyGet, List.getElem?_eq_getElem hlt]
    rw [hm, py_bind_ok, List.getElem?_eq_getElem hlt]; rfl
  · rw [if_neg (by omega), if_pos (by omega), List.getElem?_eq_none (by omega)]; rfl

theorem slice_norm {h : Enc} {v w : Option Int} {i j : Nat} (hi : i ≤ h.len) (hj : j ≤ h.len)
    (hv : v = some (i : Int) ∨ (v = none ∧ i = 0) ∨ (v = some ((i : Int) - h.len) ∧ i < h.len))
    (hw : w = some (j : Int) ∨ (w = none ∧ j = h.len) ∨ (w = some ((j : Int) - h.len) ∧ j < h.len)) :
    h.slice v w = h.slice (some i) (some j) := by
  unfold len at hi hj hv hw
  have h1 : sliceBound h.sequence.length 0 v = i := by
    unfold sliceBound
    rcases hv with rfl | ⟨rfl, rfl⟩ | ⟨rfl, h'⟩
    · simp
    · simp
    · dsimp only; rw [if_neg (by omega)]; omega
  have h2 : sliceBound h.sequence.length h.sequence.length w = j := by
    unfold sliceBound
    rcases hw with rfl | ⟨rfl, rfl⟩ | ⟨rfl, h'⟩
    · simp
    · simp
    · dsimp only; rw [if_neg (by omega)]; omega
  have h3 : pySlice h.sequence v w = pySlice h.sequence (some (i : Int)) (some (j : Int)) := by
    have a : pyClip h.sequence.length 0 v = pyClip h.sequence.length 0 (some (i : Int)) := by
      unfold pyClip
      rcases hv with rfl | ⟨rfl, rfl⟩ | ⟨rfl, h'⟩
      · rfl
      · simp
      · dsimp only; rw [if_pos (by omega), if_neg (by omega)]; omega
    have b : pyClip h.sequence.length h.sequence.length w = pyClip h.sequence.length h.sequence.length (some (j : Int)) := by
      unfold pyClip
      rcases hw with rfl | ⟨rfl, rfl⟩ | ⟨rfl, h'⟩
      · rfl
      · simp
      · dsimp only; rw [if_pos (by omega), if_neg (by omega)]; omega
    unfold pySlice
    rw [a, b]
  unfold slice len
  dsimp only
  rw [h1, h2, h3, sliceBound_nat, sliceBound_nat]

/-- the action of a slice with natural bounds -/
theorem slice_spec {h : Enc} (hh : h.Legal) {i j : Nat} (hij : i ≤ j) (hj : j ≤ h.len) :
    ∃ p S T, h.slice (some i) (some j) = .ok p ∧ p.Legal ∧ p.kind.isMapping = true ∧ Path h.source (h.sequence.drop j).reverse S ∧
      Path S ((h.sequence.take j).drop i).reverse T ∧ Path T (h.sequence.take i).reverse h.target ∧
      p.SameMap ⟨p.kind, (h.sequence.take j).drop i, S, T⟩ := by
  rcases Nat.lt_or_eq_of_le hij with hlt | rfl
  · obtain ⟨p, S, T, h1, h2, h3, h4, rfl⟩ := slice_lt hh hlt hj
    have hne : (h.sequence.take j).drop i ≠ [] := by
      unfold len at hj
      rw [← List.length_pos_iff, List.length_drop, List.length_take]; omega
    refine ⟨_, S, T, h1, legal_mk _ (trim_ne_nil hne) (path_trim h3) ?_, ?_, h2, h3, h4, sameMap_trim_trim _ _ h3⟩
    · intro hk; by_contra hc; rw [if_neg hc] at hk; cases hk
    · dsimp only; split <;> rfl
  · obtain ⟨S, T, h1, h2, h3⟩ := path_slice hh (le_refl i)
    have e : (h.sequence.take i).drop i = [] := by
      rw [List.drop_eq_nil_iff, List.length_take]; omega
    have hST : S = T := by
      have := h2
      rw [e] at this
      exact this.eq_of_nil
    subst hST
    obtain ⟨p, k1, k2, k3, k4, k5, k6, k7⟩ := h2.valid_source.idEncoding_spec
    have hmid : (((h.sequence[i]?).map (fun m => m.move.target)).getD h.source) = S := by
      unfold len at hj
      by_cases hlt : i < h.sequence.length
      · rw [List.getElem?_eq_getElem hlt]
        rw [List.drop_eq_getElem_cons hlt, List.reverse_cons, Path.concat_iff] at h1
        exact h1.2.1.symm
      · rw [List.getElem?_eq_none (by omega)]
        rw [List.drop_of_length_le (by omega)] at h1
        exact h1.eq_of_nil
    refine ⟨p, S, S, by rw [slice_eq hj, hmid, k1], k2, by rw [k3]; rfl, h1, h2, h3, ?_⟩
    refine ⟨k4, k5, ?_, ?_⟩
    · intro R _ _ _ _ L hL
      by_cases ht : S = L.tri
      · rw [k6 R L hL ht.symm, applyLam_eq, if_pos ht, performed, e]; rfl
      · rw [applyLam_eq, applyLam_eq, k4, if_neg ht, if_neg ht]
    · intro L hL
      by_cases ht : S = L.tri
      · rw [k7 L hL ht.symm, applyHom_eq, if_pos ht, performed, e]; rfl
      · rw [applyHom_eq, applyHom_eq, k4, if_neg ht, if_neg ht]

theorem sameMap_of_composites {k l g h g' h' : Enc} (H : IsComposite k g h) (K : IsComposite l g' h') (hg : SameMap g g') (hh : SameMap h h')
    (hl : h.Legal) : SameMap k l := by
  refine ⟨H.source.trans (hh.source.trans K.source.symm), H.target.trans (hg.target.trans K.target.symm), ?_, ?_⟩
  · intro R _ _ _ _ L hL
    rw [H.lam R L hL, K.lam R L hL, ← hh.lam R L hL]
    cases ha : h.applyLam L with
    | error e => rfl
    | ok L' => simp only [py_bind_ok]; exact hg.lam R L' (hl.undo hL ha).1
  · intro x hx
    rw [H.hom x hx, K.hom x hx, ← hh.hom x hx]
    cases ha : h.applyHom x with
    | error e => rfl
    | ok y =>
      simp only [py_bind_ok]
      have ha' := ha
      rw [applyHom_eq] at ha
      split at ha
      · rename_i ht
        obtain ⟨y', l1, l2, l3⟩ := hl.path.performHom hx ht.symm
        cases ha.symm.trans l1
        exact hg.hom _ l3
      · cases ha

theorem mul_spec {g h : Enc} (hg : g.Legal) (hh : h.Legal) (he : g.source = h.target) :
    ∃ k, g.mul h = .ok k ∧ k.Legal ∧ k.IsComposite g h ∧ k.kind = mulKind g h := by
  have hp := hg.path_append hh he
  have hn : g.sequence ++ h.sequence ≠ [] := by simp [hg.nonempty]
  refine ⟨_, mul_eq hg hh he, legal_mk _ hn hp ?_, IsComposite.congr (sameMap_trim _ _ hp) (isComposite_append (mulKind g h) hh he), rfl⟩
  unfold mulKind
  intro h
  split at h
  · cases h
  · split at h
    · rename_i h'; exact h'.symm
    · cases h

end Enc
end Curver
