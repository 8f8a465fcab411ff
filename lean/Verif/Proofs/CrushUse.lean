import Verif.Proofs.CrushEnc
import Verif.Props.Topology

/-!
# `Curve.crush` and its inverse
-/

namespace Curver
open Triangulation

namespace Lam
variable {L M N K c s : Lam Int} {a b e k t : Int} {X v : List Int} {P : Lam Int → Py LamClass}

/-- a mapping of a union with repeated parts -/
theorem Unions.map {h : Enc} {Xs Ys : List (Lam Int)} {L1 : Lam Int} (hu : L.Unions Xs) (hL : L.Consistent) (hh : h.Legal) (ha : h.applyLam L = .ok L1) (hm : List.Forall₂ (fun X Y => h.applyLam X = .ok Y) Xs Ys) : L1.Unions Ys := by
  obtain ⟨Zs, z1, z2⟩ := hu.enc hL hh ha
  rw [mapM_ok_iff.2 hm] at z1
  injection z1 with z1
  rw [z1]; exact z2

theorem forall₂_replicate {α β : Type _} {R : α → β → Prop} {x : α} {y : β} (h : R x y) : ∀ n : Nat, List.Forall₂ R (List.replicate n x) (List.replicate n y)
  | 0 => .nil
  | n + 1 => .cons h (forall₂_replicate h n)

theorem forall₂_append {α β : Type _} {R : α → β → Prop} {l1 l2 : List α} {m1 m2 : List β} (h1 : List.Forall₂ R l1 m1) (h2 : List.Forall₂ R l2 m2) : List.Forall₂ R (l1 ++ l2) (m1 ++ m2) := by
  induction h1 with
  | nil => exact h2
  | cons h _ ih => exact .cons h ih

namespace Crushes
variable {f : CrushEnc} {g1 g2 : Enc} {m : CrushMove}

/-- what is disjoint from the curve -/
theorem flat (h : Crushes P c f g1 g2 m s a b e X) (hd : L.DisjointFrom c) : ∃ L1 k, g1.applyLam L = .ok L1 ∧ L1.Flat a b e X k ∧ L1.tri = s.tri ∧ L.Consistent ∧ L.tri = c.tri := by
  obtain ⟨K0, k1, k2⟩ := h.acts
  obtain ⟨L1, l1, l2⟩ := hd.enc h.legal1 h.source1.symm k1
  obtain ⟨S, s1, s2⟩ := hd
  have hL := (s2.consistent s1).1
  have ht : L.tri = c.tri := s2.wf.2.2.1.trans s2.wf.2.2.2.symm
  obtain ⟨w1, w2, -⟩ := h.legal1.undo hL.1 l1
  have tL : L1.tri = s.tri := w2.trans h.target1
  have d : (L1.tri.curveFromCutSequence X : Lam Int).DisjointFrom L1 := by
    rw [tL]
    exact l2.symm.same (k2.trans h.crush.cut) .refl
  obtain ⟨k, hk⟩ := (lay_iff (by rw [tL]; exact h.crush.loop)).1 d
  exact ⟨L1, k, l1, hk, tL, hL, ht⟩

theorem mul_apply (h : Crushes P c f g1 g2 m s a b e X) (hP : ∀ L, ∃ c, P L = .ok c) (hd : L.DisjointFrom c) :
    ∃ L1 K1 K k t, g1.applyLam L = .ok L1 ∧ m.applyLam P L1 = .ok K1 ∧ g2.applyLam K1 = .ok K ∧ f.applyLam P L = .ok K ∧ L1.Thick a b e X k t ∧ CrushW L1 K1 m.target b X k t ∧
      (∃ x ∈ X, x ≠ b ∧ L1.lf x = k + t) ∧ L1.tri = s.tri ∧ L.Consistent ∧ K1.Consistent ∧ K.Consistent ∧ K.tri = f.target := by
  obtain ⟨L1, k, l1, l2, l3, l4, l5⟩ := h.flat hd
  obtain ⟨K1, t, k1, k2, k3, k4⟩ := h.crush.apply hP l2 l3
  have hc := (k3.corners k2 (by rw [l3]; exact h.crush.target)).1
  obtain ⟨⟨K, K'⟩, w⟩ := h.legal2.applyLam_total ⟨K1, hc, by rw [k3.tri, h.source2]⟩
  dsimp only at w
  refine ⟨L1, K1, K, k, t, l1, k1, w, h.apply l5 l1 k1 w, k2, k3, k4, l3, l4, hc, K'.1, ?_⟩
  rw [K'.2, h.eq]

theorem mul_lift (h : Crushes P c f g1 g2 m s a b e X) (hP : ∀ L, ∃ c, P L = .ok c) (hN : N.NoArcs) (ht : N.tri = f.target) :
    ∃ N1 M1 M, g2.inv'.applyLam N = .ok N1 ∧ g2.applyLam N1 = .ok N ∧ N1.NoArcs ∧ N1.tri = m.target ∧ m.liftLam P N1 = .ok M1 ∧ LiftW N1 M1 s.tri b e X ∧ M1.NoArcs ∧ g1.inv'.applyLam M1 = .ok M ∧ g1.applyLam M = .ok M1 ∧
      M.NoArcs ∧ M.tri = c.tri ∧ M.DisjointFrom c ∧ CrushEnc.applyLam P ⟨[.enc g2.inv', .lift m, .enc g1.inv'], f.target, f.source⟩ N = .ok M := by
  have i1 := h.legal1.inv'
  have i2 := h.legal2.inv'
  have ht' : N.tri = g2.inv'.source := by rw [ht, h.eq]; rfl
  obtain ⟨⟨N1, _⟩, n2⟩ := i2.applyLam_total ⟨N, (noArcs_iff.1 hN).1, ht'⟩
  dsimp only at n2
  obtain ⟨u1, u2, u3, u4⟩ := h.legal2.undo' hN.1 n2
  have hN1 := i2.noArcs hN n2
  have tN1 : N1.tri = m.target := u2.trans h.source2
  obtain ⟨M1, m1, m2⟩ := h.crush.lift hP hN1 tN1
  have hM1 := m2.noArcs hN1 h.crush.loop h.crush.target tN1
  obtain ⟨⟨M, _⟩, n3⟩ := i1.applyLam_total ⟨M1, (noArcs_iff.1 hM1).1, by rw [m2.tri, ← h.target1]; rfl⟩
  dsimp only at n3
  obtain ⟨r1, r2, r3, r4⟩ := h.legal1.undo' hM1.1 n3
  obtain ⟨K0, k1, k2⟩ := h.acts
  have back := (h.legal1.undo h.curve.1 k1).2.2.2
  have fl := (m2.flat (hN1.clear h.crush.loop h.crush.target tN1) h.crush.loop h.crush.target tN1).1.lay
  have d : M1.DisjointFrom K0 := by
    rw [m2.tri] at fl
    exact fl.symm.same .refl (h.crush.cut.symm.trans k2.symm)
  obtain ⟨M', d1, d2⟩ := d.enc i1 (by rw [k2.1, ← h.target1]; rfl) back
  rw [n3] at d1
  injection d1 with d1
  subst d1
  exact ⟨N1, M1, M, n2, u4, hN1, tN1, m1, m2, hM1, n3, r4, i1.noArcs hM1 n3, r2.trans h.source1, d2, h.apply_inv ht n2 m1 n3⟩

end Crushes
end Lam
end Curver
