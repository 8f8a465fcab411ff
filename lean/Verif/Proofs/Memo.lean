import Verif.Spec.Memo
import Verif.Proofs.PyLemmas

namespace Curver.Memo
variable {ι κ ρ ε : Type} [DecidableEq κ]

/-- invariant of the caches -/
structure Inv (w : Methods ι κ ρ ε) (s : Memo κ ρ ε) : Prop where
  cached : ∀ c x, s.cache.get? (w.keyOf c) = some x → x = stored (w.body c)
  nodup : s.log.Nodup
  logged : ∀ k ∈ s.log, ∃ x, s.cache.get? k = some x

theorem finish_stored {w : Methods ι κ ρ ε} {rank} (h : WellBehaved w rank) (c : ι) :
    finish (stored (w.body c)) = w.body c := by
  cases hb : w.body c with
  | raised e => rfl
  | returned x =>
    cases x with
    | value v => rfl
    | exc e => exact absurd hb (h.noExc c e)

/-- entries below a rank bound only are added -/
def Grows (rank : κ → Nat) (r : Nat) (s s' : Memo κ ρ ε) : Prop :=
  (∀ k x, s.cache.get? k = some x → s'.cache.get? k = some x) ∧
  ∀ k, s.cache.get? k = none → r ≤ rank k → s'.cache.get? k = none

theorem call_ok {w : Methods ι κ ρ ε} {rank} (h : WellBehaved w rank) :
    ∀ depth c s, rank (w.keyOf c) < depth → Inv w s →
      ∃ s', call w depth c s = some (s', w.body c) ∧ Inv w s' ∧
        Grows rank (rank (w.keyOf c) + 1) s s' ∧
        ∃ x, s'.cache.get? (w.keyOf c) = some x := by
  intro depth
  induction depth with
  | zero => intro c s hr; omega
  | succ depth ih =>
    intro c s hr hi
    simp only [call]
    cases hg : s.cache.get? (w.keyOf c) with
    | some x =>
      refine ⟨s, ?_, hi, ⟨fun _ _ h => h, fun _ h _ => h⟩, x, hg⟩
      simp only [hi.cached c x hg, finish_stored h]
    | none =>
      have key : ∀ (ds : List ι) s, (∀ d ∈ ds, rank (w.keyOf d) < rank (w.keyOf c)) → Inv w s →
          ∃ s', ds.foldlM (fun s d => (call w depth d s).map Prod.fst) s = some s' ∧ Inv w s' ∧
            Grows rank (rank (w.keyOf c)) s s' := by
        intro ds
        induction ds with
        | nil => intro s _ hi; exact ⟨s, rfl, hi, fun _ _ h => h, fun _ h _ => h⟩
        | cons d ds ihd =>
          intro s hd hi
          obtain ⟨s1, h1, h2, ⟨h3, h4⟩, _⟩ := ih d s (by have := hd d (by simp); omega) hi
          obtain ⟨s2, h5, h6, h7, h8⟩ := ihd s1 (fun d hd' => hd d (by simp [hd'])) h2
          refine ⟨s2, ?_, h6, fun k x hk => h7 k x (h3 k x hk), fun k hk hr => ?_⟩
          · simp [List.foldlM_cons, h1]; simpa using h5
          · exact h8 k (h4 k hk (by have := hd d (by simp); omega)) hr
      obtain ⟨s1, h1, h2, h3, h4⟩ := key (w.nested c) s (h.nested c) hi
      have hnone : s1.cache.get? (w.keyOf c) = none := h4 _ hg (Nat.le_refl _)
      refine ⟨⟨s1.cache.set (w.keyOf c) (stored (w.body c)), s1.log ++ [w.keyOf c]⟩, ?_, ?_, ?_, ?_⟩
      · rw [finish_stored h]; simp [h1]
      · constructor
        · intro d x hd
          simp only [PyDict.get?_set] at hd
          split at hd
          · rename_i heq
            simp at hd; subst hd
            rw [h.sameKey _ _ heq]
          · exact h2.cached d x hd
        · refine List.nodup_append.2 ⟨h2.nodup, by simp, ?_⟩
          intro a ha b hb hab
          simp at hb; subst hb; subst hab
          obtain ⟨x, hx⟩ := h2.logged _ ha
          rw [hnone] at hx; simp at hx
        · intro k hk
          simp only [PyDict.get?_set]
          split
          · exact ⟨_, rfl⟩
          · rename_i hne
            simp at hk
            rcases hk with hk | rfl
            · exact h2.logged k hk
            · exact absurd rfl hne
      · constructor
        · intro k x hk
          simp only [PyDict.get?_set]
          split
          · rename_i heq; subst heq
            rw [hg] at hk; simp at hk
          · exact h3 k x hk
        · intro k hk hr
          simp only [PyDict.get?_set]
          split
          · rename_i heq; subst heq; omega
          · exact h4 k hk (by omega)
      · exact ⟨stored (w.body c), by simp [PyDict.get?_set]⟩

theorem interrupted_ok {w : Methods ι κ ρ ε} {rank} (h : WellBehaved w rank) (depth : Nat) (c : ι)
    (k : Nat) (s : Memo κ ρ ε) (hr : rank (w.keyOf c) < depth) (hi : Inv w s) :
    ∃ s', interrupted w depth c k s = some s' ∧ Inv w s' := by
  unfold interrupted
  cases hg : s.cache.get? (w.keyOf c) with
  | some x => exact ⟨s, rfl, hi⟩
  | none =>
    have key : ∀ (ds : List ι) s, (∀ d ∈ ds, rank (w.keyOf d) < rank (w.keyOf c)) → Inv w s →
        ∃ s', ds.foldlM (fun s d => (call w depth d s).map Prod.fst) s = some s' ∧ Inv w s' := by
      intro ds
      induction ds with
      | nil => intro s _ hi; exact ⟨s, rfl, hi⟩
      | cons d ds ihd =>
        intro s hd hi
        obtain ⟨s1, h1, h2, _, _⟩ := call_ok h depth d s (by have := hd d (by simp); omega) hi
        obtain ⟨s2, h5, h6⟩ := ihd s1 (fun d hd' => hd d (by simp [hd'])) h2
        exact ⟨s2, by simp [List.foldlM_cons, h1]; simpa using h5, h6⟩
    exact key _ _ (fun d hd => h.nested c d (List.mem_of_mem_take hd)) hi

theorem setCache_inv {w : Methods ι κ ρ ε} {rank} (h : WellBehaved w rank) {c : ι} {a}
    (ha : w.body c = .returned a) {s : Memo κ ρ ε} (hi : Inv w s) : Inv w (setCache w c a s) := by
  constructor
  · intro d x hd
    simp only [setCache, PyDict.get?_set] at hd
    split at hd
    · rename_i heq
      simp at hd; subst hd
      rw [← h.sameKey _ _ heq, ha]; rfl
    · exact hi.cached d x hd
  · exact hi.nodup
  · intro k hk
    simp only [setCache, PyDict.get?_set]
    split
    · exact ⟨_, rfl⟩
    · exact hi.logged k hk

theorem runFrom_ok {w : Methods ι κ ρ ε} {rank} (h : WellBehaved w rank) (depth : Nat)
    (hr : ∀ c, rank (w.keyOf c) < depth) : ∀ (ops : List (Op ι ρ ε)) s, TrueAnswers w ops → Inv w s →
    ∃ s', runFrom w depth ops s = some (s', expected w ops) ∧ Inv w s' := by
  intro ops
  induction ops with
  | nil => intro s _ hi; exact ⟨s, rfl, hi⟩
  | cons op ops ih =>
    intro s ht hi
    have ht' : TrueAnswers w ops := fun c a hc => ht c a (by simp [hc])
    cases op with
    | call c =>
      obtain ⟨s1, h1, h2, _, _⟩ := call_ok h depth c s (hr c) hi
      obtain ⟨s2, h3, h4⟩ := ih s1 ht' h2
      exact ⟨s2, by simp [runFrom, h1, h3, expected], h4⟩
    | interrupted c k =>
      obtain ⟨s1, h1, h2⟩ := interrupted_ok h depth c k s (hr c) hi
      obtain ⟨s2, h3, h4⟩ := ih s1 ht' h2
      exact ⟨s2, by simp [runFrom, h1, h3, expected], h4⟩
    | setCache c a =>
      obtain ⟨s2, h3, h4⟩ := ih _ ht' (setCache_inv h (ht c a (by simp)) hi)
      exact ⟨s2, by simp [runFrom, h3, expected], h4⟩

end Curver.Memo
