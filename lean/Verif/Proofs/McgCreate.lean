import Verif.Proofs.Mcg
import Mathlib.Tactic.IntervalCases

namespace Curver
open Triangulation

namespace Str

theorem swapChar_lower {c : Char} (h : isLower c = true) : isUpper (swapChar c) = true ∧ isLower (swapChar c) = false ∧ swapChar (swapChar c) = c := by
  have hc : c = Char.ofNat c.toNat := (Char.ofNat_toNat c).symm
  unfold isLower at h
  simp only [Bool.and_eq_true, decide_eq_true_eq] at h
  obtain ⟨h1, h2⟩ := h
  have h1' : 97 ≤ c.toNat := h1
  have h2' : c.toNat ≤ 122 := h2
  generalize c.toNat = n at *
  subst hc
  clear h1 h2
  interval_cases n <;> decide

theorem swapChar_upper {c : Char} (h : isUpper c = true) : isLower (swapChar c) = true ∧ swapChar (swapChar c) = c := by
  have hc : c = Char.ofNat c.toNat := (Char.ofNat_toNat c).symm
  unfold isUpper at h
  simp only [Bool.and_eq_true, decide_eq_true_eq] at h
  obtain ⟨h1, h2⟩ := h
  have h1' : 65 ≤ c.toNat := h1
  have h2' : c.toNat ≤ 90 := h2
  generalize c.toNat = n at *
  subst hc
  clear h1 h2
  interval_cases n <;> decide

theorem swapChar_swapChar (c : Char) : swapChar (swapChar c) = c := by
  by_cases h1 : isLower c = true
  · exact (swapChar_lower h1).2.2
  · by_cases h2 : isUpper c = true
    · exact (swapChar_upper h2).2
    · have : swapChar c = c := by unfold swapChar; rw [if_neg h1, if_neg h2]
      rw [this, this]

theorem swapcase_swapcase (w : Str) : swapcase (swapcase w) = w := by
  unfold swapcase
  rw [List.map_map]
  conv => rhs; rw [← List.map_id w]
  apply List.map_congr_left
  intro c _
  exact swapChar_swapChar c

theorem swapcase_inj {v w : Str} (h : swapcase v = swapcase w) : v = w := by
  rw [← swapcase_swapcase v, h, swapcase_swapcase]

theorem swapChar_isWord {c : Char} (h : isWord c = true) : isWord (swapChar c) = true := by
  by_cases h1 : isLower c = true
  · have := (swapChar_lower h1).1
    simp [isWord, this]
  · by_cases h2 : isUpper c = true
    · have := (swapChar_upper h2).1
      simp [isWord, this]
    · have : swapChar c = c := by unfold swapChar; rw [if_neg h1, if_neg h2]
      rw [this, h]

/-- a name and the name of an inverse differ -/
theorem isName_swapcase {w : Str} (h : isName w = true) : isName (swapcase w) = false := by
  cases w with
  | nil => cases h
  | cons c w =>
    simp only [isName, Bool.and_eq_true] at h
    simp [swapcase, isName, (swapChar_lower h.1).2.1]

end Str

namespace Mcg

/-- what a group object holds -/
structure Holds (S : Mcg) (pos : PyDict Str Enc) : Prop where
  pos_eq : S.posMappingClasses = pos
  neg_keys : S.negMappingClasses.keys = pos.keys.map Str.swapcase
  neg_get : ∀ name h, pos.get? name = some h → ∃ g, h.inverse = .ok g ∧ S.negMappingClasses.get? (Str.swapcase name) = some g
  get_pos : ∀ name h, pos.get? name = some h → S.mappingClasses.get? name = some h
  get_neg : ∀ name h, pos.get? name = some h → ∃ g, h.inverse = .ok g ∧ S.mappingClasses.get? (Str.swapcase name) = some g
  keys : ∀ name, name ∈ S.mappingClasses.keys ↔ name ∈ pos.keys ∨ Str.swapcase name ∈ pos.keys

theorem create_ok {T : Triangulation} {pos : PyDict Str Enc} (hne : pos ≠ []) (hn : pos.keys.Nodup) (hnames : ∀ name ∈ pos.keys, Str.isName name = true)
    (hl : ∀ name h, pos.get? name = some h → h.Legal ∧ h.kind = .mappingClass ∧ h.source = T) :
    ∃ S, create pos = .ok S ∧ S.triangulation = T ∧ S.Legal ∧ S.Holds pos := by
  have hmem : ∀ p ∈ pos, pos.get? p.1 = some p.2 := fun p hp => PyDict.get?_of_mem hn hp
  have hinv : ∀ p ∈ pos, (do
        let g ← p.2.inverse
        return (Str.swapcase p.1, g) : Py (Str × Enc)) = .ok (Str.swapcase p.1, p.2.inv') := by
    intro p hp
    rw [Enc.inverse_eq (hl p.1 p.2 (hmem p hp)).1]; rfl
  have hmap := mapM_ok (g := fun p : Str × Enc => (Str.swapcase p.1, p.2.inv')) hinv
  have hneg : ((pos.map (fun p : Str × Enc => (Str.swapcase p.1, p.2.inv'))).map Prod.fst) = pos.keys.map Str.swapcase := by
    simp [PyDict.keys]
  have hnd : ((pos.map (fun p : Str × Enc => (Str.swapcase p.1, p.2.inv'))).map Prod.fst).Nodup := by
    rw [hneg]; exact hn.map (fun a b h => Str.swapcase_inj h)
  have hof := PyDict.ofList_of_nodup _ hnd
  have hnd2 : ((pos ++ pos.map (fun p : Str × Enc => (Str.swapcase p.1, p.2.inv'))).map Prod.fst).Nodup := by
    rw [List.map_append, List.nodup_append]
    refine ⟨hn, hnd, ?_⟩
    intro a ha b hb hab
    rw [hneg] at hb
    obtain ⟨c, hc, rfl⟩ := List.mem_map.1 hb
    have h1 := hnames a ha
    rw [hab, Str.isName_swapcase (hnames c hc)] at h1
    cases h1
  have hof2 := PyDict.ofList_of_nodup _ hnd2
  cases pos with
  | nil => exact absurd rfl hne
  | cons p pos =>
    obtain ⟨n0, h0⟩ := p
    unfold create
    dsimp only
    have hsrc : h0.source = T := (hl n0 h0 (hmem (n0, h0) (by simp))).2.2
    rw [if_neg, if_neg, if_neg]
    · rw [hmap, py_bind_ok]
      rw [hof, hof2]
      refine ⟨_, rfl, hsrc, ?_, rfl, ?_, ?_, ?_, ?_, ?_⟩
      · refine ⟨?_, ?_⟩
        · have := (hl n0 h0 (hmem (n0, h0) (by simp))).1.path.valid_source; exact this
        · intro name h hg
          have hm := PyDict.mem_of_get? hg
          rcases List.mem_append.1 hm with hm | hm
          · obtain ⟨a, b, c⟩ := hl name h (hmem _ hm)
            exact ⟨a, b, c.trans hsrc.symm⟩
          · obtain ⟨q, hq, hq'⟩ := List.mem_map.1 hm
            obtain ⟨a, b, c⟩ := hl q.1 q.2 (hmem _ hq)
            have e : q.2.inv' = h := congrArg Prod.snd hq'
            rw [← e]
            exact ⟨a.inv', b, (a.mappingClass b).symm.trans (c.trans hsrc.symm)⟩
      · rw [← hneg]; rfl
      · intro name h hg
        refine ⟨h.inv', Enc.inverse_eq (hl name h hg).1, PyDict.get?_of_mem ?_ ?_⟩
        · exact hnd
        · exact List.mem_map.2 ⟨(name, h), PyDict.mem_of_get? hg, rfl⟩
      · intro name h hg
        exact PyDict.get?_of_mem hnd2 (List.mem_append_left _ (PyDict.mem_of_get? hg))
      · intro name h hg
        exact ⟨h.inv', Enc.inverse_eq (hl name h hg).1, PyDict.get?_of_mem hnd2 (List.mem_append_right _ (List.mem_map.2 ⟨(name, h), PyDict.mem_of_get? hg, rfl⟩))⟩
      · intro name
        have : name ∈ List.map Prod.fst (((n0, h0) :: pos) ++ List.map (fun p : Str × Enc => (Str.swapcase p.1, p.2.inv')) ((n0, h0) :: pos)) ↔
            name ∈ PyDict.keys ((n0, h0) :: pos) ∨ Str.swapcase name ∈ PyDict.keys ((n0, h0) :: pos) := by
          rw [List.map_append, List.mem_append, hneg]
          constructor
          · rintro (h | h)
            · exact .inl h
            obtain ⟨a, h1, h2⟩ := List.mem_map.1 h
            exact .inr (by rw [← h2, Str.swapcase_swapcase]; exact h1)
          · rintro (h | h)
            · exact .inl h
            · exact .inr (List.mem_map.2 ⟨_, h, Str.swapcase_swapcase _⟩)
        exact this
    · simp only [Bool.not_eq_true, Bool.not_eq_false']
      rw [List.all_eq_true]
      intro p hp
      rw [Triangulation.eq_decide, hsrc]
      simp [(hl p.1 p.2 (hmem p hp)).2.2]
    · simp only [Bool.not_eq_true, Bool.not_eq_false']
      rw [List.all_eq_true]
      intro p hp
      simp [(hl p.1 p.2 (hmem p hp)).2.1]
    · simp only [Bool.not_eq_true, Bool.not_eq_false']
      rw [List.all_eq_true]
      intro p hp
      exact hnames p.1 (List.mem_map.2 ⟨p, hp, rfl⟩)

end Mcg
end Curver
