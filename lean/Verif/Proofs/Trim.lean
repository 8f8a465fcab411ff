import Verif.Proofs.Action

namespace Curver
namespace Enc

/-- the move is an identity isometry -/
abbrev isId (m : LMove) : Bool := m.move.isIdentityIsometry

theorem trim_middle (a b : LMove) (l : List LMove) (hl : l ≠ []) :
    trim (a :: (l ++ [b])) = (if isId a then [] else [a]) ++ l ++ (if isId b then [] else [b]) := by
  have h1 : droppable (a :: (l ++ [b])) (a :: (l ++ [b])).getLast? = isId b := by
    have : (a :: (l ++ [b])).getLast? = some b := by
      rw [← List.cons_append, List.getLast?_append]; simp
    rw [droppable, this]; simp [isId]
  have hl' : 0 < l.length := List.length_pos_iff.2 hl
  unfold trim
  rw [h1]
  have key : ∀ t : List LMove, t ≠ [] → (if droppable (a :: t) (a :: t).head? = true then (a :: t).tail else (a :: t)) =
      (if isId a then [] else [a]) ++ t := by
    intro t ht
    have : 0 < t.length := List.length_pos_iff.2 ht
    have hd : droppable (a :: t) (a :: t).head? = isId a := by
      simp only [droppable, List.head?_cons, Option.map_some, Option.getD_some, List.length_cons]
      rw [decide_eq_true (by omega), Bool.true_and]
    rw [hd]
    by_cases ha : isId a = true
    · simp [ha]
    · simp only [Bool.not_eq_true] at ha; simp [ha]
  cases hb : isId b
  · simp only [Bool.false_eq_true, if_false]
    rw [key _ (by simp)]; simp
  · simp only [if_true]
    rw [← List.cons_append, List.dropLast_concat, key _ hl]; simp

theorem trim_pair (a b : LMove) : trim [a, b] = if isId b then [a] else if isId a then [b] else [a, b] := by
  unfold trim droppable
  cases hb : isId b <;> cases ha : isId a <;> simp_all [isId]

theorem list_cases (s : List LMove) : s = [] ∨ (∃ a, s = [a]) ∨ (∃ a b, s = [a, b]) ∨ ∃ a l b, l ≠ [] ∧ s = a :: (l ++ [b]) := by
  cases s with
  | nil => exact .inl rfl
  | cons a t =>
    rcases t.eq_nil_or_concat with rfl | ⟨l, b, rfl⟩
    · exact .inr (.inl ⟨a, rfl⟩)
    · rw [List.concat_eq_append]
      by_cases hl : l = []
      · subst hl; exact .inr (.inr (.inl ⟨a, b, rfl⟩))
      · exact .inr (.inr (.inr ⟨a, l, b, hl, rfl⟩))

/-- trimming commutes with inverting, except for a pair of identities -/
theorem trim_inverse {s : List LMove} (hs : ∀ m ∈ s, m.Legal) (hne : ¬ ∃ a b, s = [a, b] ∧ isId a = true ∧ isId b = true) :
    trim (s.reverse.map LMove.inverse) = (trim s).reverse.map LMove.inverse := by
  have hi : ∀ m ∈ s, isId m.inverse = isId m := by
    intro m hm
    have h := hs m hm
    rw [Bool.eq_iff_iff]
    exact ⟨fun h' => (h.inverse.isIdentity h').2, fun h' => (h.isIdentity h').2⟩
  rcases list_cases s with rfl | ⟨a, rfl⟩ | ⟨a, b, rfl⟩ | ⟨a, l, b, hl, rfl⟩
  · rfl
  · simp [trim_singleton]
  · have ha := hi a (by simp)
    have hb := hi b (by simp)
    have : ([a, b].reverse.map LMove.inverse) = [b.inverse, a.inverse] := rfl
    rw [this, trim_pair, trim_pair, ha, hb]
    cases hA : isId a <;> cases hB : isId b <;> simp
    exact absurd ⟨a, b, rfl, hA, hB⟩ hne
  · have ha := hi a (by simp)
    have hb := hi b (by simp)
    have : ((a :: (l ++ [b])).reverse.map LMove.inverse) = b.inverse :: (l.reverse.map LMove.inverse ++ [a.inverse]) := by simp
    rw [this, trim_middle _ _ _ (by simpa using hl), trim_middle _ _ _ hl, ha, hb]
    cases hA : isId a <;> cases hB : isId b <;> simp

theorem reduced_iff {h : Enc} (hn : h.sequence ≠ []) : h.Reduced ↔ trim h.sequence = h.sequence := by
  unfold Reduced
  generalize h.sequence = s at hn
  rcases list_cases s with rfl | ⟨a, rfl⟩ | ⟨a, b, rfl⟩ | ⟨a, l, b, hl, rfl⟩
  · exact absurd rfl hn
  · simp [trim_singleton]
  · rw [trim_pair]
    have e1 : [a, b].head? = some a := rfl
    have e2 : [a, b].getLast? = some b := rfl
    rw [e1, e2]
    cases hA : isId a <;> cases hB : isId b <;> simp_all
  · rw [trim_middle _ _ _ hl]
    have e1 : (a :: (l ++ [b])).head? = some a := rfl
    have e2 : (a :: (l ++ [b])).getLast? = some b := by
      rw [← List.cons_append, List.getLast?_append]; simp
    rw [e1, e2]
    have hl' : 0 < l.length := List.length_pos_iff.2 hl
    cases hA : isId a <;> cases hB : isId b <;>
      simp only [hA, hB, Bool.false_eq_true, if_true, if_false, List.length_cons, List.length_append, Option.some.injEq, forall_eq', isId] <;>
      simp_all [isId]
    all_goals intro h; have := congrArg List.length h; simp at this
    omega

theorem not_pair_of_reduced {s : List LMove} (h : trim s = s) : ¬ ∃ a b, s = [a, b] ∧ isId a = true ∧ isId b = true := by
  rintro ⟨a, b, rfl, ha, hb⟩
  rw [trim_pair, if_pos hb] at h
  simp at h

/-- ends of a reduced sequence -/
theorem trim_append_reduced {s t : List LMove} (hs : s ≠ []) (ht : t ≠ []) (h1 : trim s = s) (h2 : trim t = t) :
    trim (s ++ t) = s ∨ trim (s ++ t) = t ∨ trim (s ++ t) = s ++ t := by
  have ends : ∀ u : List LMove, u ≠ [] → trim u = u → (∃ a, u = [a]) ∨ ∃ a l b, u = a :: (l ++ [b]) ∧ isId a = false ∧ isId b = false := by
    intro u hu h
    rcases list_cases u with rfl | ⟨a, rfl⟩ | ⟨a, b, rfl⟩ | ⟨a, l, b, hl, rfl⟩
    · exact absurd rfl hu
    · exact .inl ⟨a, rfl⟩
    · rw [trim_pair] at h
      refine .inr ⟨a, [], b, rfl, ?_⟩
      cases hA : isId a <;> cases hB : isId b <;> simp_all
    · rw [trim_middle _ _ _ hl] at h
      refine .inr ⟨a, l, b, rfl, ?_⟩
      have := congrArg List.length h
      cases hA : isId a <;> cases hB : isId b <;> simp [hA, hB] at this ⊢
      omega
  rcases ends s hs h1 with ⟨a, rfl⟩ | ⟨a, l, b, rfl, ha, hb⟩
  · rcases ends t ht h2 with ⟨c, rfl⟩ | ⟨c, l', d, rfl, hc, hd⟩
    · rw [List.singleton_append, trim_pair]
      cases hA : isId a <;> cases hC : isId c <;> simp
    · have e : [a] ++ c :: (l' ++ [d]) = a :: ((c :: l') ++ [d]) := by simp
      rw [e, trim_middle _ _ _ (by simp)]
      cases hA : isId a <;> simp [hd]
  · rcases ends t ht h2 with ⟨c, rfl⟩ | ⟨c, l', d, rfl, hc, hd⟩
    · have e : (a :: (l ++ [b])) ++ [c] = a :: ((l ++ [b]) ++ [c]) := by simp
      rw [e, trim_middle _ _ _ (by simp)]
      cases hC : isId c <;> simp [ha]
    · have e : (a :: (l ++ [b])) ++ c :: (l' ++ [d]) = a :: ((l ++ [b] ++ c :: l') ++ [d]) := by simp
      rw [e, trim_middle _ _ _ (by simp)]
      simp [ha, hd]

theorem trim_trim_append {s t : List LMove} (hs : s ≠ []) (ht : t ≠ []) (h1 : trim s = s) (h2 : trim t = t) :
    trim (trim (s ++ t)) = trim (s ++ t) := by
  rcases trim_append_reduced hs ht h1 h2 with h | h | h
  · rw [h, h1]
  · rw [h, h2]
  · rw [h, h]

end Enc
end Curver
