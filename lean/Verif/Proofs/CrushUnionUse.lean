import Verif.Proofs.LiftUnion

/-!
# `Curve.crush` and its inverse on disjoint unions
-/

namespace Curver
open Triangulation

namespace Lam
variable {S L L1 L2 N N1 N2 c s : Lam Int} {a b e : Int} {X : List Int} {P : Lam Int → Py LamClass}

theorem IsUnion.noArcs2 (hu : N.IsUnion N1 N2) (hN : N.NoArcs) : N1.NoArcs ∧ N2.NoArcs := ⟨hu.noArcs hN, hu.symm.noArcs hN⟩

/-- a part of what is disjoint from `c` -/
theorem DisjointFrom.part (hd : S.DisjointFrom c) (hu : S.IsUnion L1 L2) : L1.DisjointFrom c ∧ L2.DisjointFrom c := by
  have key : ∀ {A B : Lam Int}, S.IsUnion A B → A.DisjointFrom c := by
    intro A B h
    obtain ⟨Z, z1, z2⟩ := hd.symm
    obtain ⟨Q, q1, q2⟩ := z2.assoc z1 h
    exact ⟨Q, (q1.consistent z1).1, q2.symm⟩
  exact ⟨key hu, key hu.symm⟩

namespace Crushes
variable {f : CrushEnc} {g1 g2 : Enc} {m : CrushMove}

theorem union (h : Crushes P c f g1 g2 m s a b e X) (hP : ∀ L, ∃ c, P L = .ok c) (hd : S.DisjointFrom c) (hu : S.IsUnion L1 L2) : ∃ K K1 K2, f.applyLam P S = .ok K ∧ f.applyLam P L1 = .ok K1 ∧ f.applyLam P L2 = .ok K2 ∧ K.IsUnion K1 K2 := by
  have hd' := hd.part hu
  obtain ⟨S1, K', K, k, t, l1, l2, l3, l4, l5, l6, l7, l8, l9, l10, l11, l12⟩ := h.mul_apply hP hd
  obtain ⟨A1, A', A, ka, ta, p1, p2, p3, p4, p5, p6, p7, p8, p9, p10, p11, p12⟩ := h.mul_apply hP hd'.1
  obtain ⟨B1, B', B, kb, tb, q1, q2, q3, q4, q5, q6, q7, q8, q9, q10, q11, q12⟩ := h.mul_apply hP hd'.2
  refine ⟨K, A, B, l4, p4, q4, ?_⟩
  obtain ⟨X1, Y1, x1, x2, x3⟩ := hu.enc l9 h.legal1 l1
  rw [p1] at x1; injection x1 with x1
  rw [q1] at x2; injection x2 with x2
  subst x1; subst x2
  have u := l6.union l5 (by rw [l8]; exact h.crush.target) l7 x3 p5 p7 p6 q5 q7 q6
  obtain ⟨X2, Y2, y1, y2, y3⟩ := u.enc l10 h.legal2 l3
  rw [p3] at y1; injection y1 with y1
  rw [q3] at y2; injection y2 with y2
  subst y1; subst y2
  exact y3

theorem lift_union (h : Crushes P c f g1 g2 m s a b e X) (hP : ∀ L, ∃ c, P L = .ok c) (hN : N.NoArcs) (ht : N.tri = f.target) (hu : N.IsUnion N1 N2) :
    ∃ M M1 M2, CrushEnc.applyLam P ⟨[.enc g2.inv', .lift m, .enc g1.inv'], f.target, f.source⟩ N = .ok M ∧ CrushEnc.applyLam P ⟨[.enc g2.inv', .lift m, .enc g1.inv'], f.target, f.source⟩ N1 = .ok M1 ∧
      CrushEnc.applyLam P ⟨[.enc g2.inv', .lift m, .enc g1.inv'], f.target, f.source⟩ N2 = .ok M2 ∧ M.IsUnion M1 M2 := by
  have hA := hu.noArcs2 hN
  have w := hu.wf
  obtain ⟨N', M', M, m1, m2, m3, m4, m5, m6, m7, m8, m9, m10, m11, m12, m13⟩ := h.mul_lift hP hN ht
  obtain ⟨A', B', B, p1, p2, p3, p4, p5, p6, p7, p8, p9, p10, p11, p12, p13⟩ := h.mul_lift hP hA.1 (w.2.2.1.trans ht)
  obtain ⟨C', D', D, q1, q2, q3, q4, q5, q6, q7, q8, q9, q10, q11, q12, q13⟩ := h.mul_lift hP hA.2 (w.2.2.2.trans ht)
  refine ⟨M, B, D, m13, p13, q13, ?_⟩
  obtain ⟨X1, Y1, x1, x2, x3⟩ := hu.enc (noArcs_iff.1 hN).1 h.legal2.inv' m1
  rw [p1] at x1; injection x1 with x1
  rw [q1] at x2; injection x2 with x2
  subst x1; subst x2
  have u := m6.union m3 h.crush.loop h.crush.target m4 x3 p6 p3 q6 q3
  obtain ⟨X2, Y2, y1, y2, y3⟩ := u.enc (noArcs_iff.1 m7).1 h.legal1.inv' m8
  rw [p8] at y1; injection y1 with y1
  rw [q8] at y2; injection y2 with y2
  subst y1; subst y2
  exact y3

end Crushes
end Lam
end Curver
