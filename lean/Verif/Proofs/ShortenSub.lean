import Verif.Proofs.RoomChain
import Verif.Proofs.ShortArc

/-!
# The components that `shorten` takes away in one round
-/

namespace Curver
open Triangulation

theorem mapM_mem_left {α β : Type _} {g : α → Py β} {l : List α} {r : List β} (h : l.mapM g = .ok r) {x : α} (hx : x ∈ l) : ∃ y ∈ r, g x = .ok y := by
  rw [mapM_ok_iff] at h
  induction h with
  | nil => cases hx
  | cons h1 _ ih =>
    rcases List.mem_cons.1 hx with rfl | hx
    · exact ⟨_, by simp, h1⟩
    · obtain ⟨y, hy, h2⟩ := ih hx
      exact ⟨y, by simp [hy], h2⟩

theorem mapM_mem_right {α β : Type _} {g : α → Py β} {l : List α} {r : List β} (h : l.mapM g = .ok r) {y : β} (hy : y ∈ r) : ∃ x ∈ l, g x = .ok y := by
  rw [mapM_ok_iff] at h
  induction h with
  | nil => cases hy
  | cons h1 _ ih =>
    rcases List.mem_cons.1 hy with rfl | hy
    · exact ⟨_, by simp, h1⟩
    · obtain ⟨x, hx, h2⟩ := ih hy
      exact ⟨x, by simp [hx], h2⟩

namespace Lam
variable {L : Lam Int} {f β η : Int} {X : List Int} {k : Int}

theorem leftWeight_dual (hw : L.WellFormed) {a b c n : Int} (hg : L.tri.Glues a b c) (h : L.leftWeight a = .ok n) :
    n + n = dual2 (max (L.w b) 0) (max (L.w c) 0) (max (L.w a) 0) := by
  rw [leftWeight_eq hw hg, dualWeight_eq hw hg.rot, half_ok_iff] at h
  rw [h, dual2_max]

/-- room in a corner, by its weight -/
theorem cr_iff {A B C n t : Int} (hA : 0 ≤ A) (hB : 0 ≤ B) (hC : 0 ≤ C) (h : n + n = dual2 B C A) (ht : 0 < t) : Cr A B C t ↔ t ≤ n := by
  unfold dual2 at h
  rw [max_eq_left hA, max_eq_left hB, max_eq_left hC] at h
  dsimp only at h
  unfold Cr
  omega

theorem dual2_off {A B n : Int} (hA : 0 ≤ A) (hB : 0 ≤ B) (h : n + n = dual2 A B 0) : n ≤ 0 ∧ (n = 0 → A ≤ B) := by
  unfold dual2 at h
  rw [max_eq_left hA, max_eq_left hB, max_self] at h
  dsimp only at h
  omega

theorem dual2_off' {A B n : Int} (hA : 0 ≤ A) (hB : 0 ≤ B) (h : n + n = dual2 A 0 B) : n = 0 → A ≤ B := by
  unfold dual2 at h
  rw [max_eq_left hA, max_eq_left hB, max_self] at h
  dsimp only at h
  omega

/-- what `parallel_components` finds at an edge that the lamination does not meet -/
theorem parallelCurve_room (hw : L.WellFormed) (hf : L.tri.IsLabel f) (h0 : L.w f ≤ 0) {K : Lam Int} (h : L.parallelCurve f = .ok (some (K, k))) :
    0 < k ∧ ∃ β η X v, Around L.tri f X v ∧ K = L.tri.curveFromCutSequence X ∧ Room L.tri L.w f β η X k ∧ ∀ β' η' X' k', Room L.tri L.w f β' η' X' k' → k' ≤ k := by
  have hc := hw.1.comp
  obtain ⟨hk, X, v, hA, hX, hK, m, m1, m2, m3, m4⟩ := parallelCurve_some hc hf h
  obtain ⟨β, η, hl⟩ := hA.loop hw.1 hf hX
  refine ⟨hk, β, η, X, v, hA, hK, ?_⟩
  have hoff : max (L.w f) 0 = 0 := max_eq_right h0
  have d1 := leftWeight_dual hw hl.glues m3
  rw [hoff] at d1
  have hb : X.getLast? = some β := by
    rw [hl.sweep.eq_concat hc hl.glues hl.ne_nil]; simp
  have m5 := m4 β hb
  have d2 := leftWeight_dual hw hl.glues.rot m5
  rw [hoff] at d2
  have e1 := dual2_off (le_max_right _ _) (le_max_right _ _) d1
  -- nothing goes round the vertex
  have hm : m = 0 := by
    unfold aroundWeight at m1
    rw [py_bind_eq_ok] at m1
    obtain ⟨ws, w1, w2⟩ := m1
    have hne : ws ≠ [] := by
      rintro rfl
      have := mapM_ok_iff.1 w1
      cases this
    obtain ⟨m', q1, q2, q3, -⟩ := maximin_zero (R := Int) hne
    rw [w2] at q1
    injection q1 with q1
    subst q1
    have : m ≤ max m 0 := by
      rw [mapM_ok_iff] at w1
      cases w1 with
      | cons hh _ =>
        rw [m3] at hh
        injection hh with hh
        subst hh
        exact q3 _ (by simp)
    omega
  subst hm
  have bal : max (L.w β) 0 = max (L.w η) 0 := le_antisymm (e1.2 rfl) (dual2_off' (le_max_right _ _) (le_max_right _ _) d2 rfl)
  -- the corners
  have tw : (∀ x ∈ X.dropLast, ∃ n, L.leftWeight x = .ok n ∧ k ≤ n) ∧ ∃ x ∈ X.dropLast, L.leftWeight x = .ok k := by
    unfold twistingWeight middle at m2
    rw [List.drop_succ_cons, List.drop_zero, py_bind_eq_ok] at m2
    obtain ⟨ws, w1, w2⟩ := m2
    have hid : ws.map (fun w => w - 0) = ws := by simp
    rw [hid] at w2
    have hne : ws ≠ [] := by
      rintro rfl
      have := (mapM_ok_iff.1 w1).length_eq
      rw [List.length_dropLast, List.length_nil] at this
      omega
    obtain ⟨m', q1, q2, q3, q4⟩ := maximin_zero (R := Int) hne
    rw [w2] at q1
    injection q1 with q1
    subst q1
    constructor
    · intro x hx
      obtain ⟨n, hn, hn'⟩ := mapM_mem_left w1 hx
      have := q3 n hn
      exact ⟨n, hn', by omega⟩
    · obtain ⟨n, hn, hn'⟩ := q4
      obtain ⟨x, hx, hx'⟩ := mapM_mem_right w1 hn
      exact ⟨x, hx, by rw [hx']; congr 1; omega⟩
  have corner : ∀ x y z, L.tri.Glues x y z → x ∈ X → x ≠ β → Cr (max (L.w x) 0) (max (L.w y) 0) (max (L.w z) 0) k := by
    intro x y z hg hx hxb
    obtain ⟨n, n1, n2⟩ := tw.1 x (hl.mem_dropLast.2 ⟨hx, hxb⟩)
    exact (cr_iff (le_max_right _ _) (le_max_right _ _) (le_max_right _ _) (leftWeight_dual hw hg n1) hk).2 n2
  constructor
  · refine ⟨hl, h0, bal, ?_⟩
    intro x y z hg
    by_cases hmu : Triangulation.mu f β η X x = 0
    · rw [hmu, mul_zero]; exact .inl rfl
    obtain ⟨x1, x2, x3⟩ := hl.of_mu hmu
    by_cases hη : x = η
    · subst hη
      obtain ⟨rfl, rfl⟩ := hc.glues_unique hg hl.glues.rot.rot
      rw [hl.mu_eta]
      have lz := (hc.label_of_glues hg).2.2
      obtain ⟨y', z', hg'⟩ := hc.exists_glues (isLabel_inv.2 lz)
      have q : y' ∈ X ∧ y' ≠ z := by
        rcases hl.pred hg' (by rw [inv_inv]; exact hl.b_mem) with q | q
        · exfalso
          subst q
          exact hl.eta_ne.1 (hc.glues_unique hg'.rot hl.glues).2
        · exact q
      have c1 := corner _ _ _ hg'.rot q.1 q.2
      rw [w_inv] at c1
      by_cases hin : x ∈ X
      · have i2 := hl.succ hg hin x2
        have c2 := corner _ _ _ hg' i2 (inv_ne _)
        rw [w_inv] at c2
        rw [List.count_eq_one_of_mem hl.nodup hin]
        unfold Cr at c1 c2 ⊢
        have : k * (1 + ((1 : Nat) : Int)) = 2 * k := by ring
        rw [this]
        omega
      · rw [List.count_eq_zero.2 hin]
        have : k * (1 + ((0 : Nat) : Int)) = k := by ring
        rw [this]
        unfold Cr at c1 ⊢
        omega
    · have hx := x3.resolve_left hη
      rw [hl.mu_one hx x2 hη, mul_one]
      exact corner _ _ _ hg hx x2
  · intro β' η' X' k' hr
    by_contra hk'
    obtain ⟨x, hx, hx'⟩ := tw.2
    obtain ⟨rfl, rfl⟩ := hc.glues_unique hr.loop.glues hl.glues
    have hX' : X' = X := hr.loop.sweep.unique hl.sweep
    subst hX'
    obtain ⟨h1, h2⟩ := hl.mem_dropLast.1 hx
    obtain ⟨y, z, hg⟩ := hc.exists_glues (hl.sweep.labels hc x h1)
    have r := hr.room _ _ _ hg
    have hm1 := hl.mu_pos h1 h2
    have : k' ≤ k' * Triangulation.mu f β' η' X' x := by nlinarith
    have := (cr_iff (le_max_right _ _) (le_max_right _ _) (le_max_right _ _) (leftWeight_dual hw hg hx') (by omega)).1 r
    omega

end Lam
end Curver
