import Verif.Proofs.Action

/-!
# Mappings commute with multiplication by a number that is not negative
-/

namespace Curver
open Triangulation

variable {R : Type} [CommRing R] [LinearOrder R] [IsStrictOrderedRing R]

theorem FlipCase.scale {a b c d e x k : R} (hk : 0 ≤ k) (h : FlipCase a b c d e x) : FlipCase (k * a) (k * b) (k * c) (k * d) (k * e) (k * x) := by
  have m : ∀ {u v : R}, u ≤ v → k * u ≤ k * v := fun h => mul_le_mul_of_nonneg_left h hk
  have m2 : ∀ {u v : R}, u = v → k * u = k * v := fun h => by rw [h]
  cases h with
  | aab h1 h2 h3 h => have := m h1; have := m2 h; exact .aab (by linarith) (m h2) (m h3) (by linarith)
  | acd h1 h2 h3 h => have := m h1; have := m2 h; exact .acd (by linarith) (m h2) (m h3) (by linarith)
  | dad h1 h2 h3 h => have := m h1; have := m2 h; exact .dad (by linarith) (m h2) (m h3) (by linarith)
  | dbc h1 h2 h3 h => have := m h1; have := m2 h; exact .dbc (by linarith) (m h2) (m h3) (by linarith)
  | nad h1 h2 h3 h => have := m h1; have := m h2; have := m h3; have := m2 h; exact .nad (by linarith) (by linarith) (by linarith) (by linarith)
  | nbc h1 h2 h3 h => have := m h1; have := m h2; have := m h3; have := m2 h; exact .nbc (by linarith) (by linarith) (by linarith) (by linarith)
  | nab h1 h2 h3 h => have := m h1; have := m h2; have := m h3; have := m2 h; exact .nab (by linarith) (by linarith) (by linarith) (by linarith)
  | ncd h1 h2 h3 h => have := m h1; have := m h2; have := m h3; have := m2 h; exact .ncd (by linarith) (by linarith) (by linarith) (by linarith)
  | xac h1 h2 h3 h4 h5 h6 h7 h =>
    have := m h1; have := m h2; have := m h3; have := m h4; have := m h5; have := m h6; have := m h7; have := m2 h
    exact .xac (by linarith) (by linarith) (by linarith) (by linarith) (by linarith) (by linarith) (by linarith) (by linarith)
  | xbd h1 h2 h3 h4 h5 h6 h7 h =>
    have := m h1; have := m h2; have := m h3; have := m h4; have := m h5; have := m h6; have := m h7; have := m2 h
    exact .xbd (by linarith) (by linarith) (by linarith) (by linarith) (by linarith) (by linarith) (by linarith) (by linarith)
  | pac h1 h2 h3 h4 h => have := m h1; have := m h2; have := m2 h; exact .pac (by linarith) (by linarith) (m h3) (m h4) (by linarith)
  | pbd h1 h2 h3 h4 h => have := m h1; have := m h2; have := m2 h; exact .pbd (by linarith) (by linarith) (m h3) (m h4) (by linarith)
  | mac h1 h2 h3 h => have := m h1; have := m2 h; exact .mac (by linarith) (m h2) (m h3) (by linarith)
  | mbd h1 h2 h3 h => have := m h1; have := m2 h; exact .mbd (by linarith) (m h2) (m h3) (by linarith)

variable [Halvable R]

namespace Lam
variable {L L' : Lam R} {k : R} {es : List Int}

/-- `k` times the lamination -/
def scale (k : R) (L : Lam R) : Lam R := ⟨L.tri, L.geometric.map (fun x => k * x), L.cls⟩

omit [LinearOrder R] [IsStrictOrderedRing R] in
theorem scale_w (x : Int) : (scale k L).w x = k * L.w x := by
  unfold scale w
  rw [List.getElem?_map]
  cases L.geometric[(norm x).toNat]? <;> simp

omit [LinearOrder R] [IsStrictOrderedRing R] in
theorem scale_wf (hL : L.WellFormed) : (scale k L).WellFormed := ⟨hL.1, by simp [scale, hL.2]⟩

theorem FlipsTo.scale (hk : 0 ≤ k) (h : FlipsTo es L L') : FlipsTo es (scale k L) (scale k L') := by
  refine ⟨h.cls, by simp [Lam.scale, h.length], ?_, ?_⟩
  · intro u hu he
    rw [scale_w, scale_w, h.kept u hu he]
  · intro e he a b c d h1 h2
    have := h.new e he a b c d h1 h2
    have mx : ∀ x : R, max (k * x) 0 = k * max x 0 := by
      intro x
      rw [mul_max_of_nonneg _ _ hk, mul_zero]
    have nn : ∀ x : R, 0 ≤ max x 0 := fun x => le_max_right _ _
    rw [scale_w, scale_w, scale_w, scale_w, scale_w, scale_w, mx, mx, mx, mx]
    rw [flipWeight_ok_iff (nn _) (nn _) (nn _) (nn _)] at this
    rw [flipWeight_ok_iff (mul_nonneg hk (nn _)) (mul_nonneg hk (nn _)) (mul_nonneg hk (nn _)) (mul_nonneg hk (nn _))]
    exact this.scale hk

end Lam

theorem LMove.Legal.scale {m : LMove} {L L' : Lam R} {k : R} (hk : 0 ≤ k) (h : m.Legal) (hL : L.WellFormed) (ht : L.tri = m.move.source) (ha : m.move.applyLam L = .ok L') :
    m.move.applyLam (L.scale k) = .ok (L'.scale k) := by
  cases h.shape with
  | flip S T e hS he hm =>
    replace ht : L.tri = S := ht
    subst ht
    obtain ⟨rfl, h4⟩ := (ef_applyLam_iff hL he).1 ha
    exact (ef_applyLam_iff (L := L.scale k) (Lam.scale_wf hL) he).2 ⟨rfl, h4.scale hk⟩
  | multiflip S T es hS he hm =>
    replace ht : L.tri = S := ht
    subst ht
    obtain ⟨rfl, h4⟩ := (mf_applyLam_iff hL he).1 ha
    exact (mf_applyLam_iff (L := L.scale k) (Lam.scale_wf hL) he).2 ⟨rfl, h4.scale hk⟩
  | isometry S T f g i i' hS hT hf hg hi hi' hgf hfg =>
    replace ht : L.tri = S := ht.trans hi.source
    subst ht
    obtain ⟨rfl, h2⟩ := (hi.applyLam_iff hf hL rfl).1 ha
    refine (hi.applyLam_iff hf (L := L.scale k) (Lam.scale_wf hL) rfl).2 ⟨rfl, h2.1, by simp [Lam.scale, h2.2.1], ?_⟩
    intro e he
    rw [Lam.scale_w, Lam.scale_w, h2.2.2 e he]

theorem performLam_scale {k : R} (hk : 0 ≤ k) {S T : Triangulation} {ms : List LMove} (hp : Path S ms T) {L L' : Lam R} (hL : L.WellFormed) (ht : L.tri = S)
    (ha : performLam ms L = .ok L') : performLam ms (L.scale k) = .ok (L'.scale k) := by
  induction hp generalizing L with
  | nil T hT => cases ha; rfl
  | cons m ms T hm hp ih =>
    simp only [Curver.performLam, py_bind_eq_ok] at ha ⊢
    obtain ⟨L1, h1, h2⟩ := ha
    obtain ⟨w1, w2, -, -⟩ := hm.applyLam hL ht h1
    exact ⟨_, hm.scale hk hL ht h1, ih w2 w1 h2⟩

theorem Enc.Legal.scale {h : Enc} {k : R} (hk : 0 ≤ k) (hh : h.Legal) {L L' : Lam R} (hL : L.WellFormed) (ha : h.applyLam L = .ok L') : h.applyLam (L.scale k) = .ok (L'.scale k) := by
  rw [applyLam_eq] at ha ⊢
  split at ha
  · rename_i hs
    rw [if_pos (show h.source = (L.scale k).tri from hs)]
    exact performLam_scale hk hh.path hL hs.symm ha
  · cases ha

end Curver
