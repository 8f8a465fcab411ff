import Verif.Proofs.Crossing
import Verif.Props.LamClass

/-!
# Laminations that are disjoint in pairs can be drawn together
-/

namespace Curver
open Triangulation

namespace Lam
variable {L M N S X Y Z C c s : Lam Int}

/-- what does not cross either of two disjoint laminations does not cross their union -/
theorem DisjointFrom.union (hS : S.Consistent) (hu : S.IsUnion N M) (h1 : X.DisjointFrom N) (h2 : X.DisjointFrom M) : X.DisjointFrom S := by
  have wu := hu.wf
  have hX : X.Consistent := by
    obtain ⟨Z, z1, z2⟩ := h1
    exact (z2.consistent z1).1
  have tX : X.tri = S.tri := h1.tri.trans wu.2.2.1
  obtain ⟨⟨s, g⟩, n, hn⟩ := Lam.shorten_returns (P := fun _ => .ok .curve) (dflt := fun _ _ => false) (slow := fun _ _ => false) hX (fun _ _ => rfl)
  have hsh := hn n le_rfl
  obtain ⟨l, ls, lt, hs, K, k1, hK, k2, k3⟩ := Lam.shorten_same hX hsh
  obtain ⟨-, D, d1, d2⟩ := (ended hX hsh).stripped.unions
  obtain ⟨⟨S', s1, s3⟩, s2⟩ := l.applyLam_total ⟨S, hS, tX.symm.trans ls.symm⟩
  dsimp only at s2
  obtain ⟨N', M', n1, m1, u1⟩ := hu.enc hS l s2
  have w1 := u1.wf
  obtain ⟨X1, x1, e1⟩ := h1.enc l (Enc.applyLam_source n1).symm n1
  obtain ⟨X2, x2, e2⟩ := h2.enc l (Enc.applyLam_source m1).symm m1
  cases k1.symm.trans x1
  cases k1.symm.trans x2
  have tS : S'.tri = s.tri := s3.trans lt
  have hd : s.DisjointFrom S' := d1.disjoint hs s1 tS (fun Y hY => by
    obtain ⟨R, hR⟩ := d1.pull hs hY
    exact ⟨d2 Y hY, (d2 Y hY).flag s1 u1 tS ((e1.same k2 .refl).right hR) ((e2.same k2 .refl).right hR)⟩)
  obtain ⟨i1, i2, i3, i4⟩ := l.undo hS.1 s2
  obtain ⟨X', a1, a2⟩ := (hd.same k2.symm .refl).enc l.inv' (Enc.applyLam_source i4).symm i4
  cases k3.symm.trans a1
  exact a2

/-- the flag condition -/
theorem exists_union_of_pairwise {T : Triangulation} (hT : T.Valid) : ∀ {Xs : List (Lam Int)}, (∀ X ∈ Xs, X.Consistent ∧ X.tri = T) → Xs.Pairwise DisjointFrom → ∃ U : Lam Int, U.tri = T ∧ U.Consistent ∧ U.Unions Xs
  | [], _, _ => by
    refine ⟨make T (fun _ => 0) .integral, rfl, consistent_iff.2 ⟨make_wellFormed hT _ _, fun a b c hg => ?_⟩, .nil (fun x hx => make_w _ (fun _ => rfl) hx)⟩
    have l := hT.comp.label_of_glues hg
    rw [make_w (T := T) _ (fun _ => rfl) l.1, make_w (T := T) _ (fun _ => rfl) l.2.1, make_w (T := T) _ (fun _ => rfl) l.2.2]
    unfold TriEven
    decide
  | X :: Xs, hX, hp => by
    rw [List.pairwise_cons] at hp
    obtain ⟨U, u1, u2, u3⟩ := exists_union_of_pairwise hT (fun Y hY => hX Y (by simp [hY])) hp.2
    have key : ∀ {Ys : List (Lam Int)} {V : Lam Int}, V.Unions Ys → V.Consistent → V.tri = T → (∀ Y ∈ Ys, X.DisjointFrom Y) → X.DisjointFrom V := by
      intro Ys V hV
      induction hV with
      | nil hb => exact fun cV tV _ => (hb.disjoint cV.1 (hX X (by simp)).1 (tV.trans (hX X (by simp)).2.symm)).symm
      | cons hu _ ih =>
        intro cV tV hY
        exact DisjointFrom.union cV hu (hY _ (by simp)) (ih (hu.consistent cV).2 (hu.wf.2.2.2.trans tV) (fun Y h => hY Y (by simp [h])))
    obtain ⟨W, w1, w2⟩ := key u3 u2 u1 hp.1
    exact ⟨W, w2.wf.2.2.2.symm.trans u1, w1, .cons w2 u3⟩

/-- conversely -/
theorem Unions.pairwise (h : L.Unions D) : L.Consistent → D.Pairwise DisjointFrom := by
  induction h with
  | nil => exact fun _ => .nil
  | @cons L X N Xs hu hN ih =>
    intro hL
    have hc := (hu.consistent hL).2
    refine .cons (fun Y hY => ?_) (ih hc)
    obtain ⟨Z, hZ⟩ := hN.pull hc hY
    exact DisjointFrom.left ⟨L, hL, hu⟩ hZ

theorem replicate_pairwise {ls : List (Lam Int × Int)} (h1 : ∀ p ∈ ls, p.1.Consistent) (h2 : ls.Pairwise (fun p q => p.1.DisjointFrom q.1)) :
    (ls.flatMap (fun p => List.replicate p.2.toNat p.1)).Pairwise DisjointFrom := by
  rw [List.pairwise_flatMap]
  refine ⟨fun p hp => ?_, h2.imp (fun {p q} h X hX Y hY => ?_)⟩
  · rw [List.pairwise_replicate]
    exact .inr (Lam.double (h1 p hp))
  · rw [List.mem_replicate] at hX hY
    rw [hX.2, hY.2]
    exact h

end Lam
end Curver
