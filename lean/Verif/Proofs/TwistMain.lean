import Verif.Proofs.TwistPower

/-!
# What the constructor of twists gives
-/

namespace Curver
open Triangulation

namespace Twist

/-- what the constructor establishes -/
structure Made (P : Lam Int → Py LamClass) (t : Twist) (a b e : Int) (X v : List Int) (K : Lam Int) : Prop where
  short : Lam.ShortAt t.curve a b e X v K
  cls : t.curve.cls = .curve
  per : t.curve.isPeripheral P = .ok false
  par : t.curve.parallelEdge P = .ok a
  nz : t.power ≠ 0
  isBuilt : Twist.build t.curve a = .ok t.encoding
  built : ∃ ms S F G m, Loop.Data t.curve.tri a b e X ms S F G m ∧ Loop.Twists t.curve.tri ms m t.encoding
  sgn : t.powerSign = if t.power > 0 then 1 else -1
  signed : if t.power > 0 then t.signedEncoding = t.encoding else t.encoding.inverse = .ok t.signedEncoding

theorem create_made {P : Lam Int → Py LamClass} {c : Lam Int} {p : Int} {t : Twist} {a b e : Int} {X v : List Int} {K : Lam Int} (hc : c.NoArcs)
    (ha : c.parallelEdge P = .ok a) (hs : Lam.ShortAt c a b e X v K) (h : create P c p = .ok t) : t.curve = c ∧ t.power = p ∧ Made P t a b e X v K := by
  unfold create at h
  simp only [py_bind_eq_ok, pyAssert_ok_iff] at h
  obtain ⟨_, h1, s, h2, _, h3, q, h4, _, h5, _, h6, a', h7, k, h8, h9⟩ := h
  cases ha.symm.trans h7
  obtain ⟨hper, _⟩ := Lam.parallelEdge_spec hc h7
  obtain ⟨n, n1, n2⟩ := hs.loop.numFlips rfl hs.cut
  obtain ⟨k', ms, S, F, G, m, b1, b2, b3⟩ := hs.loop.build rfl n1 n2
  cases h8.symm.trans b1
  by_cases hp : p > 0
  · rw [if_pos hp, py_bind_ok] at h9
    injection h9 with h9
    subst h9
    refine ⟨rfl, rfl, hs, by simpa using h1, hper, h7, by simpa using h6, b1, ⟨ms, S, F, G, m, b2, b3⟩, rfl, ?_⟩
    dsimp only
    rw [if_pos hp]
  · rw [if_neg hp, py_bind_eq_ok] at h9
    obtain ⟨g, h9, h10⟩ := h9
    injection h10 with h10
    subst h10
    refine ⟨rfl, rfl, hs, by simpa using h1, hper, h7, by simpa using h6, b1, ⟨ms, S, F, G, m, b2, b3⟩, rfl, ?_⟩
    dsimp only
    rwa [if_neg hp]

theorem create_spec {P : Lam Int → Py LamClass} {c : Lam Int} {p : Int} {t : Twist} (hc : c.NoArcs) (h : create P c p = .ok t) :
    t.curve = c ∧ t.power = p ∧ ∃ a b e X v K, Made P t a b e X v K := by
  have h' := h
  unfold create at h'
  simp only [py_bind_eq_ok, pyAssert_ok_iff] at h'
  obtain ⟨_, h1, s, h2, _, h3, q, h4, _, h5, _, h6, a, h7, k, h8, h9⟩ := h'
  obtain ⟨hper, b, e, X, v, K, hs⟩ := Lam.parallelEdge_spec hc h7
  obtain ⟨r1, r2, r3⟩ := create_made hc h7 hs h
  exact ⟨r1, r2, a, b, e, X, v, K, r3⟩

theorem create_ok {P : Lam Int → Py LamClass} {c : Lam Int} {p a : Int} (hc : c.NoArcs) (hcls : c.cls = .curve) (ha : c.parallelEdge P = .ok a) (hp : p ≠ 0) :
    ∃ t, create P c p = .ok t := by
  obtain ⟨hper, b, e, X, v, K, hs⟩ := Lam.parallelEdge_spec hc ha
  obtain ⟨n, n1, n2⟩ := hs.loop.numFlips rfl hs.cut
  obtain ⟨k, ms, S, F, G, m, b1, b2, b3⟩ := hs.loop.build rfl n1 n2
  obtain ⟨g, g1, _⟩ := C15_inverse (R := Int) k b3.legal
  have hshort : c.isShortCurve P = .ok true := by
    unfold Lam.isShortCurve
    rw [hper, py_bind_ok, if_neg (by simp), hs.comps, py_bind_ok]; rfl
  unfold create
  rw [hcls, hshort, hper, ha]
  simp only [py_bind_ok, b1, g1, hp, pyAssert, decide_true, if_true, Bool.not_false, ne_eq, not_false_eq_true]
  split
  · exact ⟨_, rfl⟩
  · exact ⟨_, rfl⟩

namespace Made
variable {P : Lam Int → Py LamClass} {t : Twist} {a b e : Int} {X v : List Int} {K : Lam Int}
variable {R : Type} [CommRing R] [LinearOrder R] [IsStrictOrderedRing R] [Halvable R]

theorem action (h : Made P t a b e X v K) : ∃ σ : Equiv.Perm (LamOn R t.curve.tri), PowersOf t.encoding σ ∧ Loop.Action t.curve.tri a b e X σ := by
  obtain ⟨ms, S, F, G, m, hD, hk⟩ := h.built
  exact h.short.loop.action hD hk

/-- twisting quickly is the power of the bijection -/
theorem applyLam [FloorDiv' R] (h : Made P t a b e X v K) {σ : Equiv.Perm (LamOn R t.curve.tri)} (h1 : PowersOf t.encoding σ) (h2 : Loop.Action t.curve.tri a b e X σ)
    {L : LamOn R t.curve.tri} (hL : L.1.NoArcs) : t.applyLam P L.1 = .ok ((σ ^ t.power) L).1 := by
  have hnz := h.nz
  have hsg := h.sgn
  have hse := h.signed
  by_cases hp : t.power > 0
  · rw [if_pos hp] at hsg hse
    obtain ⟨n, hn⟩ := Int.eq_ofNat_of_zero_le hp.le
    have := applyLam_eq h.short h.cls h.per h.par h2 (ρ := σ) (by rw [hse]; exact h1.one) hsg (n := n) (by omega) (by rw [one_mul]; exact hn) (.inl ⟨rfl, rfl⟩) hL
    rw [this, hn, zpow_natCast]
  · rw [if_neg hp] at hsg hse
    obtain ⟨n, hn⟩ := Int.eq_ofNat_of_zero_le (a := -t.power) (by omega)
    obtain ⟨g, g1, g2⟩ := h1.inv
    rw [g1] at hse
    injection hse with hse
    have := applyLam_eq h.short h.cls h.per h.par h2 (ρ := σ⁻¹) (by rw [← hse]; exact g2) hsg (n := n) (by omega) (by omega) (.inr ⟨rfl, rfl⟩) hL
    rw [this, show t.power = -(n : Int) by omega, zpow_neg, zpow_natCast, inv_pow]

omit [IsStrictOrderedRing R] in
theorem flipMapping (_ : Made P t a b e X v K) {σ : Equiv.Perm (LamOn R t.curve.tri)} (h1 : PowersOf t.encoding σ) :
    ∃ g, t.flipMapping = .ok g ∧ ∀ L : LamOn R t.curve.tri, g.applyLam L.1 = .ok ((σ ^ t.power) L).1 := h1.pow t.power

end Made
end Twist
end Curver
