import Verif.Proofs.Boundary3
import Verif.Props.MultiArc

/-!
# C80: `MultiArc.boundary`
-/

namespace Curver
open Triangulation

namespace Lam
variable {P : Lam Int → Py LamClass} {dflt : Int → Int → Bool} {fuel : Nat} {L B : Lam Int}

/-- what `boundary` does, once it returned -/
theorem arcBoundary_spec (hL : L.Consistent) (hA : L.OnlyHasArcs) (h : L.arcBoundary P dflt fuel = .ok B) :
    ∃ (s : Lam Int) (g : Enc) (K K' : Lam Int), L.shortenAll P dflt fuel dflt = .ok (s, g) ∧ g.Legal ∧ s.Consistent ∧ (∀ x, s.tri.IsLabel x → s.w x ≤ 0) ∧
      g.applyLam L = .ok K ∧ Same K s ∧ g.inv'.applyLam K = .ok L ∧ K'.NoArcs ∧ K'.IsOutline s ∧ K'.DisjointFrom s ∧ (∀ M : Lam Int, M.NoArcs → M.DisjointFrom s → K'.DisjointFrom M) ∧
      g.inv'.applyLam K' = .ok B ∧ g.applyLam B = .ok K' ∧ g.source = L.tri := by
  unfold arcBoundary at h
  rw [py_bind_eq_ok] at h
  obtain ⟨⟨s, g⟩, h1, h⟩ := h
  simp only [py_bind_eq_ok] at h
  obtain ⟨u, u1, V, u2, ws, u3, K', u4, i, u5, u6⟩ := h
  obtain ⟨l, ls, lt, hs, K, k1, hK, k2, k3⟩ := Lam.shorten_same hL h1
  have hle := hA.short hL h1
  obtain ⟨V', ws', v1, v2, -, v3⟩ := outline_exists hs hle
  rw [u1, py_bind_ok, u2] at v1
  injection v1 with v1
  subst v1
  rw [u3] at v2
  injection v2 with v2
  subst v2
  obtain ⟨-, w2, w3⟩ := lamination_ok u4
  obtain ⟨a1, a2, a3, a4, -⟩ := v3 K' w2 w3
  rw [Enc.inverse_eq l] at u5
  injection u5 with u5
  have u6 : g.inv'.applyLam K' = .ok B := by subst u5; exact u6
  exact ⟨s, g, K, K', h1, l, hs, hle, k1, k2, k3, a1, a2, a3, a4, u6, (l.undo' a1.1 u6).2.2.2, ls⟩

end Lam

section
variable (P P' : Lam Int → Py LamClass) (dflt dflt' : Int → Int → Bool) (fuel fuel' : Nat) (L : Lam Int) (hL : L.Consistent) (hA : L.OnlyHasArcs)
include hL hA

/-- C80: `a.boundary()` of a multiarc consists of closed curves that do not cross `a`, and no closed curve that does not cross `a` crosses it. -/
theorem C80_disjoint (B : Lam Int) (h : L.arcBoundary P dflt fuel = .ok B) :
    B.tri = L.tri ∧ B.NoArcs ∧ B.DisjointFrom L ∧ ∀ M : Lam Int, M.NoArcs → M.DisjointFrom L → B.DisjointFrom M := by
  obtain ⟨s, g, K, K', h1, l, hs, hle, k1, k2, k3, a1, a2, a3, a4, a5, a6, a7⟩ := Lam.arcBoundary_spec hL hA h
  have hB := l.inv'.noArcs a1 a5
  have hd : B.DisjointFrom L := by
    obtain ⟨B', b1, b2⟩ := (a3.same .refl k2.symm).enc l.inv' (l.undo hL.1 k1).2.1 k3
    rw [a5] at b1
    injection b1 with b1
    subst b1
    exact b2
  refine ⟨hd.tri, hB, hd, fun M hM hd' => ?_⟩
  obtain ⟨M', m1, m2⟩ := hd'.enc l a7.symm k1
  have m3 := a4 M' (l.noArcs hM m1) (m2.same .refl k2)
  have m4 := (l.undo hM.1 m1).2.2.2
  obtain ⟨B', b1, b2⟩ := m3.enc l.inv' (m2.tri.trans (l.undo hL.1 k1).2.1) m4
  rw [a5] at b1
  injection b1 with b1
  subst b1
  exact b2

/-- C80: `a.boundary()` is the boundary of a neighbourhood of `a`: after some mapping that makes `a` run along edges, an edge that is not in the neighbourhood (up to discs) meets it once near each
end that lies on `a`, and the other edges do not meet it. -/
theorem C80_outline (B : Lam Int) (h : L.arcBoundary P dflt fuel = .ok B) :
    ∃ (g : Enc) (s K : Lam Int), g.Legal ∧ g.applyLam L = .ok s ∧ (∀ x, s.tri.IsLabel x → s.w x ≤ 0) ∧ g.applyLam B = .ok K ∧ K.IsOutline s := by
  obtain ⟨s, g, K, K', h1, l, hs, hle, k1, k2, k3, a1, a2, a3, a4, a5, a6, a7⟩ := Lam.arcBoundary_spec hL hA h
  have e1 : K.tri = s.tri := k2.1
  have e2 : ∀ x, K.w x = s.w x := fun x => by unfold Lam.w; rw [k2.2]
  have e3 : ∀ x, K.Sheltered x ↔ s.Sheltered x := fun x => ⟨fun h M hM hd => h M hM (hd.same .refl k2.symm), fun h M hM hd => h M hM (hd.same .refl k2)⟩
  have e4 : K.EndsAt = s.EndsAt := by funext x; unfold Lam.EndsAt; simp only [e1, e2]
  refine ⟨g, K, K', l, k1, fun x hx => by rw [e2]; exact hle x (by rw [← e1]; exact hx), a6, a2.tri.trans e1.symm, fun x hx hsh => a2.sheltered x (by rw [← e1]; exact hx) ((e3 x).1 hsh),
    fun x hx hsh => ?_⟩
  rw [a2.outside x (by rw [← e1]; exact hx) (fun q => hsh ((e3 x).2 q)), e4]

/-- C80: without acceleration, `a.boundary()` returns; the loops that `boundary` itself contains always end. -/
theorem C80_returns (hd : ∀ w w', dflt w w' = false) (hP : ∀ K, ∃ c, P K = .ok c) : ∃ B, Returns (fun n => L.arcBoundary P dflt n) B := by
  obtain ⟨⟨s, g⟩, N, hN⟩ := Lam.shorten_returns (P := P) (dflt := dflt) hL hd
  have h1 := hN N le_rfl
  obtain ⟨l, ls, lt, hs, K, k1, hK, k2, k3⟩ := Lam.shorten_same hL h1
  have hle := hA.short hL h1
  obtain ⟨V, ws, v1, v2, v3, v4⟩ := Lam.outline_exists hs hle
  rw [py_bind_eq_ok] at v1
  obtain ⟨u, u1, u2⟩ := v1
  obtain ⟨a1, a2, -⟩ := v4 ⟨s.tri, ws, .lamination⟩ rfl rfl
  obtain ⟨b, hb⟩ := Lam.isIntegral_ok (Lam.noArcs_iff.1 a1).1
  obtain ⟨c, hc⟩ := hP ⟨s.tri, ws, .integral⟩
  obtain ⟨K', k4⟩ : ∃ K', s.tri.lamination P ws = .ok K' := by
    unfold Triangulation.lamination Lam.promote
    rw [(pyAssert_ok_iff (u := ())).2 (by rw [v3]; exact beq_self_eq_true _), py_bind_ok, if_pos rfl, hb, py_bind_ok]
    cases b
    · exact ⟨_, rfl⟩
    · rw [if_pos rfl, hc]; exact ⟨_, rfl⟩
  obtain ⟨-, w2, w3⟩ := lamination_ok k4
  obtain ⟨a1, -⟩ := v4 K' w2 w3
  obtain ⟨⟨B, b1⟩, b2⟩ := l.inv'.applyLam_total ⟨K', (Lam.noArcs_iff.1 a1).1, w2.trans lt.symm⟩
  dsimp only at b2
  refine ⟨B, N, fun n hn => ?_⟩
  show L.arcBoundary P dflt n = _
  unfold Lam.arcBoundary
  rw [hN n hn, py_bind_ok]
  dsimp only
  rw [u1, py_bind_ok, u2, py_bind_ok, v2, py_bind_ok, k4, py_bind_ok, Enc.inverse_eq l, py_bind_ok]
  exact b2

end

/-- C80: the boundary of an edge of the torus is a pair of parallel curves, and also that of an arc that crosses an edge once; the complement of two edges is a disc.  On the sphere with four
punctures, the boundary of an edge is one curve, and that of two edges at a vertex goes round the fourth puncture. -/
example : (⟨torus, [-1, 0, 0], .arc⟩ : Lam Int).arcBoundary anyClass neverSlow 20 = .ok ⟨torus, [0, 2, 2], .curve⟩ ∧
    (⟨torus, [-1, -1, 0], .multiarc⟩ : Lam Int).arcBoundary anyClass neverSlow 20 = .ok ⟨torus, [0, 0, 0], .curve⟩ ∧
    (⟨torus, [1, 0, 0], .arc⟩ : Lam Int).arcBoundary anyClass neverSlow 20 = .ok ⟨torus, [4, 2, 2], .curve⟩ ∧
    (⟨sphere4, [-1, 0, 0, 0, 0, 0], .arc⟩ : Lam Int).arcBoundary anyClass neverSlow 20 = .ok ⟨sphere4, [0, 1, 1, 1, 1, 0], .curve⟩ ∧
    (⟨sphere4, [-1, -1, 0, 0, 0, 0], .multiarc⟩ : Lam Int).arcBoundary anyClass neverSlow 20 = .ok ⟨sphere4, [0, 0, 0, 1, 1, 1], .curve⟩ := by decide +kernel

end Curver
