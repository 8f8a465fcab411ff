import Verif.Proofs.TermClass

/-!
# The bounds on loops and recursion do not matter

The model of a `while` loop carries a number that bounds its iterations, and stops with `outOfFuel` when it is used up. If it is not, then a larger bound gives the same result.
-/

namespace Curver
open Triangulation

/-- `x` is `y`, or the bound was too small -/
def Upto {α : Type} (x y : Py α) : Prop := x = .error .outOfFuel ∨ x = y

namespace Upto
variable {α β : Type} {x y z : Py α}

theorem rfl' : Upto x x := .inr rfl

theorem ok {a : α} (h : Upto x y) (hx : x = .ok a) : y = .ok a := by
  rcases h with h | h
  · rw [hx] at h; cases h
  · rw [← h, hx]

theorem trans (h : Upto x y) (h' : Upto y z) : Upto x z := by
  rcases h with h | h
  · exact .inl h
  · rw [h]; exact h'

theorem bind {f g : α → Py β} (h : Upto x y) (hf : ∀ a, Upto (f a) (g a)) : Upto (x >>= f) (y >>= g) := by
  rcases h with rfl | rfl
  · exact .inl rfl
  · cases x with
    | error e => exact .inr rfl
    | ok a => exact hf a

theorem ite {c : Prop} [Decidable c] {x y x' y' : Py α} (h : Upto x y) (h' : Upto x' y') : Upto (if c then x else x') (if c then y else y') := by
  split_ifs
  · exact h
  · exact h'

theorem foldlM {f g : β → α → Py β} (h : ∀ b a, Upto (f b a) (g b a)) : ∀ (l : List α) (b : β), Upto (l.foldlM f b) (l.foldlM g b)
  | [], _ => .inr rfl
  | a :: l, b => by
    rw [List.foldlM_cons, List.foldlM_cons]
    exact (h b a).bind (fun c => foldlM h l c)

end Upto

namespace Lam
variable {S S' : Lam Int → Py (Lam Int × Enc)} {P : Lam Int → Py LamClass} {slow : Int → Int → Bool}

theorem componentsWith_upto (hS : ∀ M, Upto (S M) (S' M)) (L : Lam Int) : Upto (L.componentsWith S) (L.componentsWith S') := by
  unfold componentsWith
  split
  · exact .rfl'
  · exact .rfl'
  · exact (hS L).bind (fun _ => .rfl')

theorem encodeTwistWith_upto (hS : ∀ M, Upto (S M) (S' M)) (c : Lam Int) (p : Int) : Upto (c.encodeTwistWith S P p) (c.encodeTwistWith S' P p) := by
  unfold encodeTwistWith
  refine .bind .rfl' (fun b => .ite .rfl' ?_)
  refine (hS c).bind (fun r => ?_)
  exact (componentsWith_upto hS _).bind (fun _ => .rfl')

theorem slopeWith_upto {R : Type} [CommRing R] [LinearOrder R] [Halvable R] (hS : ∀ M, Upto (S M) (S' M)) (c : Lam Int) (L : Lam R) : Upto (c.slopeWith S P L) (c.slopeWith S' P L) := by
  unfold slopeWith
  refine .bind .rfl' (fun b => .ite .rfl' ?_)
  exact (hS c).bind (fun _ => .rfl')

theorem intersectionWith_upto {R : Type} [CommRing R] [LinearOrder R] [Halvable R] (hS : ∀ M, Upto (S M) (S' M)) (c : Lam Int) (L : Lam R) : Upto (c.intersectionWith S L) (c.intersectionWith S' L) := by
  unfold intersectionWith
  refine .bind .rfl' (fun _ => ?_)
  exact (hS c).bind (fun _ => .rfl')

theorem accelerate_upto (hS : ∀ M, Upto (S M) (S' M)) (L : Lam Int) (e : Int) : Upto (accelerate S P L e) (accelerate S' P L e) := by
  unfold accelerate
  refine .bind .rfl' (fun _ => .bind .rfl' (fun _ => (slopeWith_upto hS _ _).bind (fun r => ?_)))
  split
  exact .ite ((encodeTwistWith_upto hS _ _).bind (fun _ => .rfl')) .rfl'

theorem chooseMove_upto (hS : ∀ M, Upto (S M) (S' M)) (z : Nat) (st : FlipState) (e c d : Int) (l r : Nat) (f : Enc) :
    Upto (chooseMove S P slow z st e c d l r f) (chooseMove S' P slow z st e c d l r f) := by
  unfold chooseMove
  refine .ite (.bind .rfl' (fun _ => .ite ?_ .rfl')) .rfl'
  rcases accelerate_upto (P := P) hS st.lam e with h | h
  · rw [h]; exact .inl rfl
  · rw [h]; exact .rfl'

theorem flipRounds_upto (hS : ∀ M, Upto (S M) (S' M)) (z : Nat) (ub : Int) : ∀ (n m : Nat), n ≤ m → ∀ st, Upto (flipRounds S P slow z ub n st) (flipRounds S' P slow z ub m st)
  | 0, _, _, _ => .inl rfl
  | n + 1, 0, h, _ => absurd h (by omega)
  | n + 1, m + 1, h, st => by
    unfold flipRounds
    refine .bind .rfl' (fun r => ?_)
    split
    refine .ite .rfl' ?_
    dsimp only
    refine .bind .rfl' (fun s => .bind .rfl' (fun m' => .bind .rfl' (fun flip => (chooseMove_upto hS _ _ _ _ _ _ _ _).bind (fun r => ?_))))
    exact .bind .rfl' (fun _ => .bind .rfl' (fun _ => .bind .rfl' (fun _ => flipRounds_upto hS z ub n m (by omega) _)))

theorem follow_upto (L : Lam Int) (start : Int) : ∀ (n m : Nat), n ≤ m → ∀ e b st, Upto (follow L start n e b st) (follow L start m e b st)
  | 0, _, _, _, _, _ => .inl rfl
  | n + 1, 0, h, _, _, _ => absurd h (by omega)
  | n + 1, m + 1, h, e, b, (u, q) => by
    unfold follow
    exact .bind .rfl' (fun _ => .bind .rfl' (fun _ => .bind .rfl' (fun _ => .ite .rfl' (follow_upto L start n m (by omega) _ _ _))))

theorem cutSequence_upto (L : Lam Int) {n m : Nat} (h : n ≤ m) : Upto (L.cutSequence n) (L.cutSequence m) := by
  unfold cutSequence
  exact (Upto.foldlM (fun st e => .bind .rfl' (fun _ => .ite .rfl' (follow_upto L e n m h _ _ _))) _ _).bind (fun _ => .rfl')

theorem cutAlong_upto (hS : ∀ M, Upto (S M) (S' M)) (l : List Int) (st : FlipState) : Upto (cutAlong S l st) (cutAlong S' l st) := by
  unfold cutAlong
  exact .ite .rfl' ((hS _).bind (fun _ => .rfl'))

theorem rounds_upto (hS : ∀ M, Upto (S M) (S' M)) (z : Nat) {k k' : Nat} (hk : k ≤ k') : ∀ (n m : Nat), n ≤ m → ∀ st, Upto (rounds S P slow z k n st) (rounds S' P slow z k' m st)
  | 0, _, _, _ => .inl rfl
  | n + 1, 0, h, _ => absurd h (by omega)
  | n + 1, m + 1, h, st => by
    unfold rounds
    refine .bind .rfl' (fun r => ?_)
    split
    dsimp only
    refine .ite .rfl' (.bind .rfl' (fun b => (flipRounds_upto hS _ _ _ _ hk _).bind (fun f => .bind .rfl' (fun _ => (cutSequence_upto _ hk).bind (fun s => (cutAlong_upto hS _ _).bind (fun _ => ?_))))))
    exact rounds_upto hS z hk n m (by omega) _

theorem shortenAll_upto (P : Lam Int → Py LamClass) (dflt : Int → Int → Bool) : ∀ (n m : Nat), n ≤ m → ∀ slow L, Upto (shortenAll P dflt n slow L) (shortenAll P dflt m slow L)
  | 0, _, _, _, _ => .inl rfl
  | n + 1, 0, h, _, _ => absurd h (by omega)
  | n + 1, m + 1, h, slow, L => by
    unfold shortenAll shortenStep
    have hS := fun M => shortenAll_upto P dflt n m (by omega) dflt M
    exact .bind .rfl' (fun _ => .bind .rfl' (fun _ => .bind .rfl' (fun _ => (rounds_upto hS _ (by omega) _ _ (by omega) _).bind (fun _ => .rfl'))))

theorem classAll_upto (dflt : Int → Int → Bool) {n m : Nat} (h : n ≤ m) (L : Lam Int) : Upto (classAll dflt n L) (classAll dflt m L) := by
  cases n with
  | zero => exact .inl rfl
  | succ n =>
    obtain ⟨m, rfl⟩ : ∃ k, m = k + 1 := ⟨m - 1, by omega⟩
    unfold classAll
    rw [shortenAll_irrel (classAll dflt n) (classAll dflt m)]
    exact (shortenAll_upto _ dflt n m (by omega) _ _).bind (fun _ => .rfl')

end Lam
end Curver
