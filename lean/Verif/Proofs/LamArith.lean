import Verif.Model.LamArith
import Verif.Spec.Flip
import Verif.Proofs.LamFlip
import Mathlib.Data.List.MinMax
import Mathlib.Algebra.BigOperators.Group.List.Basic

namespace Curver
open Triangulation

variable {R : Type} [CommRing R] [LinearOrder R] [Halvable R] [IntTest R]

theorem pyAllM_ok_iff {α : Type _} {f : α → Py Bool} {l : List α} : pyAllM f l = .ok true ↔ ∀ x ∈ l, f x = .ok true := by
  induction l with
  | nil => simp [pyAllM]
  | cons a l ih =>
    simp only [pyAllM]
    rcases h : f a with err | b
    · simp [h]
    · cases b <;> simp [h, ih]

namespace Lam

theorem promote_ok {P : Lam R → Py LamClass} {L L' : Lam R} (h : L.promote P = .ok L') : L'.tri = L.tri ∧ L'.geometric = L.geometric := by
  unfold promote at h
  rcases hb : L.isIntegral with err | b
  · rw [hb] at h; simp at h
  · rw [hb, py_bind_ok] at h
    cases b
    · cases h; exact ⟨rfl, rfl⟩
    · simp only [if_true] at h
      rcases hp : P ⟨L.tri, L.geometric, .integral⟩ with err | c
      · rw [hp] at h; simp at h
      · rw [hp, py_bind_ok] at h; cases h; exact ⟨rfl, rfl⟩

end Lam

namespace Triangulation
variable {T : Triangulation} {P : Lam R → Py LamClass}

theorem lamination_ok {ws : List R} {b : Bool} {L : Lam R} (h : T.lamination P ws b = .ok L) : ws.length = T.zeta ∧ L.tri = T ∧ L.geometric = ws := by
  unfold lamination at h
  by_cases hl : ws.length = T.zeta
  · rw [hl] at h
    simp only [beq_self_eq_true, pyAssert, if_true, py_bind_ok] at h
    cases b
    · cases h; exact ⟨hl, rfl, rfl⟩
    · exact ⟨hl, Lam.promote_ok h⟩
  · rw [show (ws.length == T.zeta) = false by simpa using hl] at h
    simp [pyAssert] at h

/-- the result depends on the weights only -/
theorem lamination_eq {ws : List R} {L L' : Lam R} (h : T.lamination P ws = .ok L) (h' : T.lamination P ws = .ok L') : L = L' := by
  rw [h] at h'; cases h'; rfl

theorem length_weighted {ls : List (Lam R × R)} {n : Nat} (hne : ls ≠ []) (hn : ∀ p ∈ ls, p.1.geometric.length = n) : (weighted ls).length = n := by
  unfold weighted
  have : (ls.map (fun p => p.1.geometric.length)).min?.getD 0 = n := by
    have h1 : ls.map (fun p => p.1.geometric.length) = List.replicate ls.length n := by
      rw [List.eq_replicate_iff]
      refine ⟨by simp, ?_⟩
      intro x hx
      obtain ⟨p, hp, rfl⟩ := List.mem_map.1 hx
      exact hn p hp
    rw [h1]
    rcases ls with _ | ⟨a, l⟩
    · exact absurd rfl hne
    · rw [List.min?_replicate_of_pos (by simp)]
      rfl
  rw [this]; simp

theorem weighted_getElem? {ls : List (Lam R × R)} {n : Nat} (hne : ls ≠ []) (hn : ∀ p ∈ ls, p.1.geometric.length = n) {i : Nat} (hi : i < n) :
    (weighted ls)[i]? = some (ls.map (fun p => (p.1.geometric[i]?).getD 0 * p.2)).sum := by
  have h := length_weighted hne hn
  have h2 : (ls.map (fun p => p.1.geometric.length)).min?.getD 0 = n := by
    unfold weighted at h; simpa using h
  unfold weighted
  rw [h2]
  simp [hi]

/-- the entries that are dropped contribute nothing -/
theorem sum_keepNonempty (ls : List (Lam R × R)) (h0 : ∀ p ∈ ls, 0 ≤ p.2) (i : Nat) :
    ((keepNonempty ls).map (fun p => (p.1.geometric[i]?).getD 0 * p.2)).sum = (ls.map (fun p => (p.1.geometric[i]?).getD 0 * p.2)).sum := by
  induction ls with
  | nil => rfl
  | cons p ls ih =>
    have ih := ih (fun q hq => h0 q (by simp [hq]))
    unfold keepNonempty at ih ⊢
    by_cases h : (!p.1.isEmpty && decide (0 < p.2)) = true
    · rw [List.filter_cons, if_pos h]; simp [ih]
    · rw [List.filter_cons, if_neg h, ih, List.map_cons, List.sum_cons]
      have : (p.1.geometric[i]?).getD 0 * p.2 = 0 := by
        simp only [Bool.and_eq_true, Bool.not_eq_true', decide_eq_true_eq, not_and] at h
        by_cases he : p.1.isEmpty = true
        · unfold Lam.isEmpty at he
          rw [List.all_eq_true] at he
          rcases hx : p.1.geometric[i]? with _ | x
          · simp
          · have := he x (List.mem_of_getElem? hx)
            simp at this
            simp [this]
        · have h1 := h (by simpa using he)
          have h2 := h0 p (by simp)
          rw [le_antisymm (not_lt.1 h1) h2, mul_zero]
      rw [this, zero_add]

end Triangulation

theorem Lam.w_eq (L : Lam R) (e : Int) : L.w e = (L.geometric[(norm e).toNat]?).getD 0 := rfl

end Curver
