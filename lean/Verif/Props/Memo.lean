import Verif.Proofs.Memo

/-!
# C27: memoisation is transparent
-/

namespace Curver
variable {ι κ ρ ε : Type} [DecidableEq κ]

/-- For well behaved methods, every history of decorated calls, of calls killed half way and of
`set_cache` with true answers, starting from empty caches, ends; each call returns or raises exactly
what the undecorated method would, and no undecorated method is evaluated to completion twice for the
same object, name and arguments.  `depth` only has to exceed the nesting depth of the methods. -/
theorem C27_transparent (w : Methods ι κ ρ ε) (rank : κ → Nat) (hw : Memo.WellBehaved w rank)
    (depth : Nat) (hd : ∀ c, rank (w.keyOf c) < depth) (ops : List (Memo.Op ι ρ ε))
    (ht : Memo.TrueAnswers w ops) :
    ∃ s, Memo.runFrom w depth ops ⟨[], []⟩ = some (s, Memo.expected w ops) ∧ s.log.Nodup := by
  obtain ⟨s, h1, h2⟩ := Memo.runFrom_ok hw depth hd ops ⟨[], []⟩ ht
    ⟨by simp [PyDict.get?], by simp, by simp⟩
  exact ⟨s, h1, h2.nodup⟩

/-- The condition that methods never return exception objects is needed: such a result is raised
instead of returned. -/
theorem C27_exception_results_are_raised (w : Methods ι κ ρ ε) (c : ι) (e : ε)
    (hn : w.nested c = []) (hb : w.body c = .returned (.exc e)) :
    ∃ s, Memo.call w 1 c ⟨[], []⟩ = some (s, .raised e) := by
  refine ⟨⟨[(w.keyOf c, .exc e)], [w.keyOf c]⟩, ?_⟩
  simp [Memo.call, PyDict.get?, hn, hb, Memo.stored, Memo.finish, PyDict.set]

/-- The condition that the key determines the answer is needed: two methods of the same name on one
object (for instance an overriding method and the one it overrides) share their cache entry. -/
theorem C27_name_clash (w : Methods ι κ ρ ε) (c d : ι) (v : ρ) (hk : w.keyOf c = w.keyOf d)
    (hn : w.nested c = []) (hb : w.body c = .returned (.value v)) :
    ∃ s, Memo.runFrom w 1 [.call c, .call d] ⟨[], []⟩ =
      some (s, [.returned (.value v), .returned (.value v)]) := by
  refine ⟨⟨[(w.keyOf c, .value v)], [w.keyOf c]⟩, ?_⟩
  simp [Memo.runFrom, Memo.call, PyDict.get?, hn, hb, hk, Memo.stored, Memo.finish, PyDict.set]

/-- Fibonacci numbers by memoised recursion, with one value raising: the hypotheses are met and the
recursion evaluates each argument once. -/
def fibMethods : Methods (Fin 8) Nat Nat String where
  keyOf n := n.val
  nested n := if h : 2 ≤ n.val then [⟨n.val - 1, by omega⟩, ⟨n.val - 2, by omega⟩] else []
  body n := if n.val = 5 then .raised "five" else .returned (.value n.val)

example : Memo.WellBehaved fibMethods id := by
  refine ⟨?_, ?_, ?_⟩
  · intro c d h; simp only [fibMethods] at h ⊢; simp [h]
  · intro c e; simp only [fibMethods]; split <;> simp
  · intro c d hd
    simp only [fibMethods] at hd ⊢
    split at hd
    · simp at hd; rcases hd with rfl | rfl <;> simp <;> omega
    · simp at hd

example : (Memo.runFrom fibMethods 8 [.interrupted 4 1, .call 6, .setCache 7 (.value 7), .call 7,
    .call 5, .call 6] ⟨[], []⟩).map (fun r => (r.1.log, r.2)) =
    some ([1, 0, 2, 3, 4, 5, 6], [.returned (.value 6), .returned (.value 7), .raised "five",
      .returned (.value 6)]) := by decide

end Curver
