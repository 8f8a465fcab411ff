import Verif.Proofs.UnionMap
import Verif.Model.LamArith
import Verif.Props.Encoding
import Verif.Props.Flips

/-!
# C64, C65: disjoint unions of laminations
-/

namespace Curver
open Triangulation

/-! ## C64 -/

/-- C64: mappings take disjoint unions to disjoint unions: if the strands of `L` are those of `X` together with those of `Y`, then `h(X)` and `h(Y)` are computed without an error and the strands
of `h(L)` are those of `h(X)` together with those of `h(Y)`. -/
theorem C64_union (h : Enc) (hh : h.Legal) (L X Y : Lam Int) (hL : L.Consistent) (hu : L.IsUnion X Y) (L' : Lam Int) (ha : h.applyLam L = .ok L') :
    ∃ X' Y', h.applyLam X = .ok X' ∧ h.applyLam Y = .ok Y' ∧ L'.IsUnion X' Y' :=
  hu.enc hL hh ha

/-- C64: `h` acts on each edge weight of a disjoint union additively. -/
theorem C64_weights (h : Enc) (hh : h.Legal) (L X Y : Lam Int) (hL : L.Consistent) (hu : L.IsUnion X Y) (L' : Lam Int) (ha : h.applyLam L = .ok L') :
    ∃ X' Y', h.applyLam X = .ok X' ∧ h.applyLam Y = .ok Y' ∧ ∀ x, h.target.IsLabel x → L'.w x = X'.w x + Y'.w x := by
  obtain ⟨X', Y', h1, h2, h3⟩ := hu.enc hL hh ha
  have hu := hh.undo hL.1 ha
  exact ⟨X', Y', h1, h2, fun x hx => h3.sum hu.1 (by rw [hu.2.1]; exact hx)⟩

/-- C64: the sum of the parts is the lamination, and so `h(X + Y) == h(X) + h(Y)` for disjoint laminations. -/
theorem C64_sum (P : Lam Int → Py LamClass) (h : Enc) (hh : h.Legal) (L X Y : Lam Int) (hL : L.Consistent) (hu : L.IsUnion X Y) (hs : L.tri = h.source) :
    (∀ M, X.add P Y = .ok M → M.eqv L = true) ∧
    ∀ M X' Y' M' N, X.add P Y = .ok M → h.applyLam X = .ok X' → h.applyLam Y = .ok Y' → X'.add P Y' = .ok M' → h.applyLam M = .ok N → N.eqv M' = true := by
  have key : ∀ (A B C M : Lam Int), C.WellFormed → C.IsUnion A B → A.add P B = .ok M → M.eqv C = true := by
    intro A B C M hC hAB hM
    have w := hAB.wf
    unfold Lam.add at hM
    split at hM
    · cases hM
    · have hlam : ∀ g, A.tri.lamination P g = .ok M → M.tri = A.tri ∧ M.geometric = g := by
        intro g hg
        unfold lamination at hg
        simp only [py_bind_eq_ok, if_true] at hg
        obtain ⟨-, -, hg⟩ := hg
        unfold Lam.promote at hg
        rw [py_bind_eq_ok] at hg
        obtain ⟨b, -, hg⟩ := hg
        split at hg
        · simp only [py_bind_eq_ok] at hg
          obtain ⟨c, -, hg⟩ := hg
          cases hg
          exact ⟨rfl, rfl⟩
        · cases hg
          exact ⟨rfl, rfl⟩
      obtain ⟨m1, m2⟩ := hlam _ hM
      have e : Lam.Same (⟨M.tri, M.geometric, M.cls⟩ : Lam Int) C := by
        have wA := w.1.2
        have wB := w.2.1.2
        refine Lam.same_of_w ⟨by rw [m1]; exact w.1.1, ?_⟩ hC (by rw [m1, w.2.2.1]) ?_
        · rw [m1, m2, List.length_zipWith, wA, wB, w.2.2.1, w.2.2.2, Nat.min_self]
        · intro x hx
          have hx' : C.tri.IsLabel x := by rw [← w.2.2.1, ← m1]; exact hx
          rw [hAB.sum hC hx']
          unfold Lam.w
          have i := idx_lt hx'
          have iA : (norm x).toNat < A.geometric.length := by rw [wA, w.2.2.1]; exact i
          have iB : (norm x).toNat < B.geometric.length := by rw [wB, w.2.2.2]; exact i
          dsimp only
          rw [m2, List.getElem?_zipWith, List.getElem?_eq_getElem iA, List.getElem?_eq_getElem iB]
          rfl
      exact Lam.eqv_spec.2 ⟨e.1, e.2⟩
  refine ⟨fun M => key X Y L M hL.1 hu, ?_⟩
  intro M X' Y' M' N hM hX hY hM' hN
  have k1 := Lam.eqv_spec.1 (key X Y L M hL.1 hu hM)
  obtain ⟨⟨L', l1, l2⟩, hL'⟩ := hh.applyLam_total ⟨L, hL, hs⟩
  dsimp only at hL'
  obtain ⟨X1, Y1, h1, h2, h3⟩ := hu.enc hL hh hL'
  rw [hX] at h1
  rw [hY] at h2
  cases h1
  cases h2
  have k2 := Lam.eqv_spec.1 (key X' Y' L' M' l1.1 h3 hM')
  have k3 := Enc.applyLam_cls hL' (N := M) k1.1 k1.2
  rw [hN] at k3
  have k4 := Except.ok.inj k3
  rw [k4]
  exact Lam.eqv_spec.2 ⟨k2.1.symm, k2.2.symm⟩

/-! ## C65 -/

/-- C65: a lamination is in at most one way the disjoint union of connected laminations: two such lists contain the same laminations the same number of times. -/
theorem C65_unique (L : Lam Int) (hL : L.Consistent) (Xs Ys : List (Lam Int)) (hX : L.Unions Xs) (hY : L.Unions Ys) (cX : ∀ X ∈ Xs, X.Connected) (cY : ∀ Y ∈ Ys, Y.Connected) :
    (Xs.map Lam.geometric).Perm (Ys.map Lam.geometric) :=
  hX.unique hL hY cX cY

/-- C65: mappings take the connected parts of `L` to the connected parts of `h(L)`. -/
theorem C65_mapping (h : Enc) (hh : h.Legal) (L : Lam Int) (hL : L.Consistent) (Xs : List (Lam Int)) (hX : L.Unions Xs) (cX : ∀ X ∈ Xs, X.Connected) (L' : Lam Int)
    (ha : h.applyLam L = .ok L') : ∃ Xs', Xs.mapM h.applyLam = .ok Xs' ∧ L'.Unions Xs' ∧ ∀ X ∈ Xs', X.Connected := by
  obtain ⟨Ys, h1, h2⟩ := hX.enc hL hh ha
  refine ⟨Ys, h1, h2, ?_⟩
  intro Y hY
  obtain ⟨X, x1, x2⟩ := mapM_mem_right h1 hY
  exact (cX X x1).enc (hX.consistent hL X x1).1 hh x2

/-- C65: a lamination is connected if and only if its image is. -/
theorem C65_connected (h : Enc) (hh : h.Legal) (L : Lam Int) (hL : L.Consistent) (L' : Lam Int) (ha : h.applyLam L = .ok L') : L.Connected ↔ L'.Connected := by
  refine ⟨fun hc => hc.enc hL hh ha, fun hc => ?_⟩
  exact hc.enc (hL.enc hh ha) hh.inv' (hh.undo hL.1 ha).2.2.2

/-! ## Examples -/

/-- the curve `torusCurve` together with the curve around the puncture -/
def torusBoth : Lam Int := ⟨torus, [3, 3, 4], .multicurve⟩

/-- the curve around the puncture -/
def torusAround : Lam Int := ⟨torus, [2, 2, 2], .multicurve⟩

theorem torusBoth_union : torusBoth.IsUnion torusCurve torusAround := by
  refine ⟨fun x t => t != 0 && t + 1 != (torusBoth.w x).natAbs, ⟨?_, ?_⟩, ⟨⟨torus_valid, by decide⟩, rfl, ?_⟩, ⟨torus_valid, by decide⟩, rfl, ?_⟩
  · intro x t hx ht
    rw [Lam.w_inv, Bool.eq_iff_iff]
    simp only [Bool.and_eq_true, bne_iff_ne, ne_eq]
    omega
  · intro a b c t h
    rcases h with h | h | h <;> simp [torusBoth, torus] at h <;> rcases h with ⟨rfl, rfl, rfl⟩ | ⟨rfl, rfl, rfl⟩ <;> intro h1 h2 h3 <;>
      simp [torusBoth, Lam.w, norm, inv] at h1 h2 h3 ⊢ <;> (have : t ≤ 1 := by omega) <;> interval_cases t <;> first | decide | omega
  · rintro x ⟨h1, h2⟩
    simp [torusBoth, torus, zeta] at h1 h2
    interval_cases x <;> decide
  · rintro x ⟨h1, h2⟩
    simp [torusBoth, torus, zeta] at h1 h2
    interval_cases x <;> decide

theorem torusBoth_consistent : torusBoth.Consistent := by
  rw [Lam.consistent_iff]
  refine ⟨⟨torus_valid, by decide⟩, ?_⟩
  intro a b c h
  rcases h with h | h | h <;> simp [torusBoth, torus] at h <;>
    rcases h with ⟨rfl, rfl, rfl⟩ | ⟨rfl, rfl, rfl⟩ <;> intro _ _ _ <;> decide

/-- the hypotheses of C64 -/
example : torusTwist.Legal ∧ torusBoth.Consistent ∧ torusBoth.IsUnion torusCurve torusAround ∧ torusTwist.applyLam torusBoth = .ok ⟨torus, [3, 5, 4], .multicurve⟩ :=
  ⟨torusTwist_spec.2.1, torusBoth_consistent, torusBoth_union, by decide +kernel⟩

end Curver
