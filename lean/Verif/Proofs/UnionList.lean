import Verif.Proofs.UnionConn

/-!
# Lists of parts
-/

namespace Curver
open Triangulation
namespace Lam
variable {L M N X Y : Lam Int} {Xs Ys : List (Lam Int)}

/-- a part of the rest and the first part change places -/
theorem IsUnion.swap (hL : L.Consistent) (h1 : L.IsUnion X N) (h2 : N.IsUnion Y M) : ∃ K, L.IsUnion Y K ∧ K.IsUnion X M := by
  have w1 := h1.wf
  have w2 := h2.wf
  have hsum := fun x hx => h1.sum hL.1 (x := x) hx
  have hsum2 := fun x hx => h2.sum w1.2.1 (x := x) hx
  obtain ⟨red, r1, r2, r3⟩ := h1
  obtain ⟨blue, b1, b2, b3⟩ := h2
  have r3' := r3.not
  have r1' := r1.not
  have e1 := Colouring.extend hL r1' r3' b1
  have e2 := IsPart.extend r3' b2
  obtain ⟨K, hK, -⟩ := e1.exists_part hL.1 false .integral
  have hu : L.IsUnion Y K := ⟨_, e1, e2, hK⟩
  obtain ⟨M', hM'⟩ := r2.in_rest hL r1 e1 hK (fun x t _ _ hr => by unfold extend; beta_reduce; rw [hr]; rfl)
  refine ⟨K, hu, hM'.same hM'.wf.1 hM'.wf.2.1 .refl .refl ?_⟩
  have w3 := hM'.wf
  have w4 := hu.wf
  refine same_of_w w3.2.1 w2.2.1 (by rw [w3.2.2.2, w4.2.2.2, w2.2.2.2, w1.2.2.2]) ?_
  intro x hx
  rw [w3.2.2.2] at hx
  have s1 := hM'.sum w4.2.1 hx
  rw [w4.2.2.2] at hx
  have s2 := hu.sum hL.1 hx
  have s3 := hsum x hx
  have s4 := hsum2 x (by rw [w1.2.2.2]; exact hx)
  omega

theorem Unions.perm (h : Xs.Perm Ys) : ∀ {L : Lam Int}, L.Consistent → L.Unions Xs → L.Unions Ys := by
  induction h with
  | nil => exact fun _ h => h
  | cons X _ ih =>
    intro L hL hu
    cases hu with
    | cons h1 h2 => exact .cons h1 (ih (h1.consistent hL).2 h2)
  | swap X Y l =>
    intro L hL hu
    cases hu with
    | cons h1 h2 =>
      cases h2 with
      | cons h2 h3 =>
        obtain ⟨K, k1, k2⟩ := h1.swap hL h2
        exact .cons k1 (.cons k2 h3)
  | trans _ _ ih1 ih2 => exact fun hL h => ih2 hL (ih1 hL h)

theorem Unions.pull (hL : L.Consistent) (h : L.Unions Xs) (hX : X ∈ Xs) : ∃ N, L.IsUnion X N := by
  have := Unions.perm (List.perm_cons_erase hX) hL h
  cases this with
  | cons h1 h2 => exact ⟨_, h1⟩

theorem Unions.congr (h : L.Unions Xs) : ∀ {Ys}, L.Consistent → List.Forall₂ Same Xs Ys → L.Unions Ys := by
  induction h with
  | nil hb =>
    intro Ys _ h
    cases h
    exact .nil hb
  | cons hu hr ih =>
    intro Ys hL h
    cases h with
    | cons h1 h2 => exact .cons (hu.same hu.wf.1 hu.wf.2.1 .refl h1 .refl) (ih (hu.consistent hL).2 h2)

theorem forall₂_of_map (h : Xs.map Lam.geometric = Ys.map Lam.geometric) (hx : ∀ X ∈ Xs, X.tri = L.tri) (hy : ∀ Y ∈ Ys, Y.tri = L.tri) : List.Forall₂ Same Xs Ys := by
  induction Xs generalizing Ys with
  | nil =>
    cases Ys with
    | nil => exact .nil
    | cons Y Ys => simp at h
  | cons X Xs ih =>
    cases Ys with
    | nil => simp at h
    | cons Y Ys =>
      rw [List.map_cons, List.map_cons, List.cons.injEq] at h
      exact .cons ⟨by rw [hx X (by simp), hy Y (by simp)], h.1⟩ (ih h.2 (fun Z hZ => hx Z (by simp [hZ])) (fun Z hZ => hy Z (by simp [hZ])))

theorem perm_lift {α β : Type} {g : α → β} {l l' : List β} (h : l.Perm l') : ∀ Xs : List α, Xs.map g = l → ∃ Zs, Xs.Perm Zs ∧ Zs.map g = l' := by
  induction h with
  | nil => exact fun Xs h => ⟨Xs, .refl _, h⟩
  | cons b _ ih =>
    intro Xs h
    cases Xs with
    | nil => simp at h
    | cons X Xs =>
      rw [List.map_cons, List.cons.injEq] at h
      obtain ⟨Zs, z1, z2⟩ := ih Xs h.2
      exact ⟨X :: Zs, z1.cons X, by rw [List.map_cons, z2, h.1]⟩
  | swap b c l =>
    intro Xs h
    rcases Xs with _ | ⟨X, _ | ⟨Y, Xs⟩⟩
    · simp at h
    · simp at h
    · simp only [List.map_cons, List.cons.injEq] at h
      exact ⟨Y :: X :: Xs, .swap _ _ _, by simp [h]⟩
  | trans _ _ ih1 ih2 =>
    intro Xs h
    obtain ⟨Zs, z1, z2⟩ := ih1 Xs h
    obtain ⟨Ws, w1, w2⟩ := ih2 Zs z2
    exact ⟨Ws, z1.trans w1, w2⟩

/-- only the weights of the parts matter, and how often they occur -/
theorem Unions.of_perm (hL : L.Consistent) (h : L.Unions Xs) (hp : (Xs.map Lam.geometric).Perm (Ys.map Lam.geometric)) (hy : ∀ Y ∈ Ys, Y.tri = L.tri) : L.Unions Ys := by
  have hx : ∀ X ∈ Xs, X.tri = L.tri := fun X hX => (h.consistent hL X hX).2
  obtain ⟨Zs, z1, z2⟩ : ∃ Zs, Xs.Perm Zs ∧ Zs.map Lam.geometric = Ys.map Lam.geometric := by
    exact perm_lift hp Xs rfl
  exact (Unions.perm z1 hL h).congr hL (forall₂_of_map z2 (fun Z hZ => hx Z (z1.mem_iff.2 hZ)) hy)

/-- what is left of `L` without the parts in the list -/
inductive Peels : Lam Int → List (Lam Int) → Lam Int → Prop
  | nil (L : Lam Int) : Peels L [] L
  | cons {L X N : Lam Int} {Xs : List (Lam Int)} {M : Lam Int} : L.IsUnion X N → Peels N Xs M → Peels L (X :: Xs) M

theorem Peels.append {Xs Ys : List (Lam Int)} (h : L.Peels Xs M) : ∀ {N : Lam Int}, M.Peels Ys N → L.Peels (Xs ++ Ys) N := by
  induction h with
  | nil => exact fun h => h
  | cons h1 _ ih => exact fun h => .cons h1 (ih h)

theorem Peels.unions (h : L.Peels Xs M) : M.Unions Ys → L.Unions (Xs ++ Ys) := by
  induction h with
  | nil => exact fun h => h
  | cons h1 _ ih => exact fun h => .cons h1 (ih h)

theorem Peels.consistent (h : L.Peels Xs M) : L.Consistent → M.Consistent ∧ M.tri = L.tri := by
  induction h with
  | nil => exact fun h => ⟨h, rfl⟩
  | cons h1 _ ih =>
    intro hL
    obtain ⟨k1, k2⟩ := ih (h1.consistent hL).2
    exact ⟨k1, by rw [k2, h1.wf.2.2.2]⟩

/-- a connected part occurs at least as often as it can be taken away -/
theorem Peels.rest {n : Nat} : ∀ {L : Lam Int}, L.Peels (List.replicate n X) M → L.Consistent → X.Connected → ∀ {Ys}, L.Unions Ys → (∀ Y ∈ Ys, Y.Connected) →
    ∃ Zs, M.Unions Zs ∧ (∀ Z ∈ Zs, Z ∈ Ys) ∧ ∀ g, (Ys.map Lam.geometric).count g = (Zs.map Lam.geometric).count g + if g = X.geometric then n else 0 := by
  induction n with
  | zero =>
    intro L h hL hX Ys hu hc
    cases h
    exact ⟨Ys, hu, fun _ h => h, fun g => by simp⟩
  | succ n ih =>
    intro L h hL hX Ys hu hc
    rw [List.replicate_succ] at h
    cases h with
    | cons h1 h2 =>
      obtain ⟨Ys1, Y, Ys2, rfl, hs, hn⟩ := hu.find hL hc h1 hX
      obtain ⟨Zs, z1, z2, z3⟩ := ih h2 (h1.consistent hL).2 hX hn (fun Z hZ => hc Z (by simp only [List.mem_append, List.mem_cons] at hZ ⊢; tauto))
      refine ⟨Zs, z1, fun Z hZ => ?_, ?_⟩
      · have := z2 Z hZ
        simp only [List.mem_append, List.mem_cons] at this ⊢
        tauto
      · intro g
        have := z3 g
        rw [List.map_append, List.count_append] at this ⊢
        rw [List.map_cons, List.count_cons, ← hs.2]
        by_cases q : g = X.geometric
        · subst q
          simp only [beq_self_eq_true, if_true] at this ⊢
          omega
        · have q' : (X.geometric == g) = false := by simpa using fun h => q h.symm
          simp only [q, q', if_false] at this ⊢
          simpa using this

/-- exactly as often when it cannot be taken away again -/
theorem Peels.count {n : Nat} (h : L.Peels (List.replicate n X) M) (hL : L.Consistent) (hX : X.Connected) (hu : L.Unions Ys) (hc : ∀ Y ∈ Ys, Y.Connected) (ht : X.tri = L.tri)
    (hno : ∀ N, ¬ M.IsUnion X N) : (Ys.map Lam.geometric).count X.geometric = n := by
  obtain ⟨Zs, z1, z2, z3⟩ := h.rest hL hX hu hc
  rw [z3, if_pos rfl, List.count_eq_zero.2, Nat.zero_add]
  intro hm
  obtain ⟨Z, hZ, e⟩ := List.mem_map.1 hm
  have hM := h.consistent hL
  obtain ⟨N, hN⟩ := z1.pull hM.1 hZ
  refine hno N (hN.same hN.wf.1 hN.wf.2.1 .refl ⟨?_, e⟩ .refl)
  rw [hN.wf.2.2.1, hM.2, ht]

end Lam
end Curver
