import Verif.Proofs.Scale
import Verif.Proofs.ShortenLaws
import Verif.Model.LamArith
import Verif.Props.Encoding
import Verif.Props.Flips

/-!
# C62: mappings and multiples
-/

namespace Curver
open Triangulation
variable {R : Type} [CommRing R] [LinearOrder R] [IsStrictOrderedRing R] [Halvable R]

/-- C62: `h(n * L) == n * h(L)`. -/
theorem C62_multiple [IntTest R] (P : Lam R → Py LamClass) (h : Enc) (hh : h.Legal) (L L' : Lam R) (hL : L.WellFormed) (ha : h.applyLam L = .ok L') (n : Int)
    (M N : Lam R) (hM : L.mul P n = .ok M) (hN : L'.mul P n = .ok N) : ∃ K, h.applyLam M = .ok K ∧ K.eqv N = true := by
  have key : ∀ (X Y : Lam R), X.mul P n = .ok Y → 0 ≤ n ∧ Y.tri = X.tri ∧ Y.geometric = (X.scale (n : R)).geometric := by
    intro X Y hY
    unfold Lam.mul at hY
    simp only [py_bind_eq_ok, pyAssert_ok_iff, decide_eq_true_eq] at hY
    obtain ⟨-, h0, hY⟩ := hY
    refine ⟨h0, ?_⟩
    have hlam : ∀ g, X.tri.lamination P g = .ok Y → Y.tri = X.tri ∧ Y.geometric = g := by
      intro g hg
      unfold lamination at hg
      simp only [py_bind_eq_ok, if_true] at hg
      obtain ⟨-, -, hg⟩ := hg
      unfold Lam.promote at hg
      rw [py_bind_eq_ok] at hg
      obtain ⟨b, -, hg⟩ := hg
      split at hg
      · simp only [py_bind_eq_ok] at hg
        obtain ⟨c, -, hg⟩ := hg
        cases hg
        exact ⟨rfl, rfl⟩
      · cases hg
        exact ⟨rfl, rfl⟩
    cases hc : X.cls <;> rw [hc] at hY <;> dsimp only at hY <;> repeat' split at hY
    all_goals first
      | (cases hY; exact ⟨rfl, rfl⟩)
      | exact hlam _ hY
  obtain ⟨h0, m1, m2⟩ := key L M hM
  obtain ⟨-, n1, n2⟩ := key L' N hN
  have h0' : (0 : R) ≤ (n : R) := by exact_mod_cast h0
  have hs := hh.scale h0' hL ha
  exact ⟨_, Enc.applyLam_cls hs (N := M) m1 m2, Lam.eqv_spec.2 ⟨n1.symm, n2.symm⟩⟩

/-- C62: for every number `k ≥ 0`, the mapping multiplies: `h` of the lamination with the weights of `L` times `k` has the weights of `h(L)` times `k`. -/
theorem C62_scaling (h : Enc) (hh : h.Legal) (L L' : Lam R) (hL : L.WellFormed) (ha : h.applyLam L = .ok L') (k : R) (hk : 0 ≤ k) :
    h.applyLam ⟨L.tri, L.geometric.map (fun x => k * x), L.cls⟩ = .ok ⟨L'.tri, L'.geometric.map (fun x => k * x), L'.cls⟩ :=
  hh.scale hk hL ha

/-- C62: the empty lamination goes to the empty lamination. -/
theorem C62_empty (h : Enc) (hh : h.Legal) : h.applyLam (h.source.emptyLamination : Lam R) = .ok h.target.emptyLamination := by
  have hT := hh.path.valid_source
  have hC : (h.source.emptyLamination : Lam R).Consistent := by
    refine (Lam.isMult_links (M := (h.source.emptyLamination : Lam R)) (m := fun _ => 0) ⟨hT, by simp [emptyLamination]⟩ (fun _ _ => le_rfl) (fun _ _ _ _ => rfl) ?_).1
    intro e he
    simp only [Lam.w, emptyLamination, add_zero]
    by_cases hi : (norm e).toNat < h.source.zeta
    · rw [List.getElem?_replicate, if_pos hi]; rfl
    · rw [List.getElem?_replicate, if_neg hi]; rfl
  obtain ⟨⟨K, k1, k2⟩, k3⟩ := hh.applyLam_total ⟨h.source.emptyLamination, hC, rfl⟩
  dsimp only at k3
  have hcls : K.cls = .integral := (hh.undo hC.1 k3).2.2.1
  have h0 := hh.scale le_rfl hC.1 k3
  have e : (h.source.emptyLamination : Lam R).scale 0 = h.source.emptyLamination := by
    simp [Lam.scale, emptyLamination]
  rw [e, k3] at h0
  have h1 : K = K.scale 0 := Except.ok.inj h0
  rw [k3]
  congr 1
  rw [h1]
  simp only [Lam.scale, emptyLamination, hcls, k2, Lam.mk.injEq, true_and, and_true]
  have hlen := k1.1.2
  rw [k2] at hlen
  rw [← hlen]
  simp

/-! ## Examples -/

/-- a twist on the torus and the curve it is applied to -/
example : ∃ L' M N : Lam Int, torusTwist.applyLam torusCurve = .ok L' ∧ torusCurve.mul (fun _ => .ok .multicurve) 3 = .ok M ∧
    L'.mul (fun _ => .ok .multicurve) 3 = .ok N ∧ N.geometric ≠ M.geometric := by
  exact ⟨⟨torus, [1, 3, 2], .curve⟩, ⟨torus, [3, 3, 6], .multicurve⟩, ⟨torus, [3, 9, 6], .multicurve⟩, by decide +kernel, by decide +kernel, by decide +kernel, by decide⟩

end Curver
