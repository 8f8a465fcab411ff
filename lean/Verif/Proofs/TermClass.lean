import Verif.Proofs.TermAll
import Verif.Model.LamParts

/-!
# `shorten` never asks `promote`

The class of a sum of integral laminations is worked out from the classes of the terms, so `promote` is not called; hence `promote`, which calls `shorten`, returns as well.
-/

namespace Curver
open Triangulation

namespace Lam
variable (P P' : Lam Int → Py LamClass) {dflt slow : Int → Int → Bool} {L : Lam Int}

theorem disjointSumDict_irrel (T : Triangulation) (ls : List (Lam Int × Int)) : T.disjointSumDict P ls = T.disjointSumDict P' ls := by
  unfold disjointSumDict
  split_ifs
  · rfl
  · rfl
  · rfl
  · cases h : pyAllM (fun p : Lam Int × Int => p.1.isIntegral) (keepNonempty ls) with
    | error e => rfl
    | ok b =>
      have := pyAllM_isIntegral h
      subst this
      rfl

theorem peripheral_irrel : (peripheral P : Lam Int → _) = peripheral P' := by
  funext L; unfold peripheral; simp only [disjointSumDict_irrel P P']

theorem isPeripheral_irrel : (isPeripheral P : Lam Int → _) = isPeripheral P' := by
  funext L; unfold isPeripheral; rw [peripheral_irrel P P']

theorem nonPeripheral_irrel (L : Lam Int) : L.nonPeripheral P false = L.nonPeripheral P' false := by
  unfold nonPeripheral lamination; rw [peripheral_irrel P P']; rfl

theorem isShortCurve_irrel : (isShortCurve P : Lam Int → _) = isShortCurve P' := by
  funext L; unfold isShortCurve; rw [isPeripheral_irrel P P']

theorem parallelEdge_irrel : (parallelEdge P : Lam Int → _) = parallelEdge P' := by
  funext L; unfold parallelEdge; rw [isPeripheral_irrel P P', isShortCurve_irrel P P']

theorem isShortLam_irrel : isShortLam P = isShortLam P' := by
  funext L; unfold isShortLam; rw [nonPeripheral_irrel P P']

theorem isShort_irrel : isShort P = isShort P' := by
  funext L; unfold isShort; rw [isShortLam_irrel P P', isShortCurve_irrel P P']

theorem create_irrel : Twist.create P = Twist.create P' := by
  funext L p; unfold Twist.create; rw [isPeripheral_irrel P P', isShortCurve_irrel P P', parallelEdge_irrel P P']

theorem componentTwists_irrel (power : Int) : componentTwists P power = componentTwists P' power := by
  funext l
  induction l with
  | nil => rfl
  | cons p l ih => unfold componentTwists; rw [isPeripheral_irrel P P', create_irrel P P', ih]

theorem encodeTwistWith_irrel (S : Lam Int → Py (Lam Int × Enc)) : encodeTwistWith S P = encodeTwistWith S P' := by
  funext c p; unfold encodeTwistWith; rw [isPeripheral_irrel P P', componentTwists_irrel P P']

theorem slopeWith_irrel {R : Type} [CommRing R] [LinearOrder R] [Halvable R] (c : Lam Int) (S : Lam Int → Py (Lam Int × Enc)) (L : Lam R) : c.slopeWith S P L = c.slopeWith S P' L := by
  unfold slopeWith; rw [isPeripheral_irrel P P', parallelEdge_irrel P P']

theorem accelerate_irrel (S : Lam Int → Py (Lam Int × Enc)) : accelerate S P = accelerate S P' := by
  funext L e; unfold accelerate; simp only [slopeWith_irrel P P', encodeTwistWith_irrel P P']

theorem chooseMove_irrel (S : Lam Int → Py (Lam Int × Enc)) : chooseMove S P = chooseMove S P' := by
  funext slow z st e c d l r f; unfold chooseMove; rw [accelerate_irrel P P']

theorem flipRounds_irrel (S : Lam Int → Py (Lam Int × Enc)) (slow : Int → Int → Bool) (z : Nat) (ub : Int) : flipRounds S P slow z ub = flipRounds S P' slow z ub := by
  funext n
  induction n with
  | zero => rfl
  | succ n ih => funext st; unfold flipRounds; rw [chooseMove_irrel P P', ih]

theorem rounds_irrel (S : Lam Int → Py (Lam Int × Enc)) (slow : Int → Int → Bool) (z fuel : Nat) : rounds S P slow z fuel = rounds S P' slow z fuel := by
  funext n
  induction n with
  | zero => rfl
  | succ n ih => funext st; unfold rounds; simp only [flipRounds_irrel P P', ih]

theorem rebuild_irrel : rebuild P = rebuild P' := by
  funext T p a c; unfold rebuild; simp only [disjointSumDict_irrel P P']

theorem shortenStep_irrel (S : Lam Int → Py (Lam Int × Enc)) : shortenStep S P = shortenStep S P' := by
  funext slow fuel L; unfold shortenStep
  rw [peripheral_irrel P P', nonPeripheral_irrel P P', rounds_irrel P P', rebuild_irrel P P', isShort_irrel P P']

theorem shortenAll_irrel (dflt : Int → Int → Bool) (n : Nat) : shortenAll P dflt n = shortenAll P' dflt n := by
  induction n with
  | zero => rfl
  | succ n ih => funext slow L; unfold shortenAll; rw [ih, shortenStep_irrel P P']

theorem classAll_total (hd : ∀ w w', dflt w w' = false) (hL : L.Consistent) : ∃ c N, ∀ n, N ≤ n → classAll dflt n L = .ok c := by
  obtain ⟨⟨s, h⟩, N, k⟩ := shorten_returns (P := fun _ => .error .valueError) (dflt := dflt) hL hd
  refine ⟨s.cls, N + 1, ?_⟩
  intro n hn
  obtain ⟨n, rfl⟩ : ∃ m, n = m + 1 := ⟨n - 1, by omega⟩
  unfold classAll
  rw [shortenAll_irrel _ (fun _ => .error .valueError), k n (by omega)]
  rfl

end Lam
end Curver
