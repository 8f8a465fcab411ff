import Verif.Proofs.TwistShort

/-!
# Powers of twists
-/

namespace Curver
open Triangulation

section
variable {R : Type} [CommRing R] [LinearOrder R] [IsStrictOrderedRing R] [Halvable R]

theorem taut_of_path {S ms S'} (hp : Path S ms S') : ∀ {L K : Lam R}, L.Consistent → L.Taut → L.tri = S → performLam ms L = .ok K → K.Consistent ∧ K.Taut := by
  induction hp with
  | nil S hS => intro L K hC hT _ hp; cases hp; exact ⟨hC, hT⟩
  | cons m ms S' hm hs ih =>
    intro L K hC hT ht hp
    simp only [performLam, py_bind_eq_ok] at hp
    obtain ⟨L1, a1, a2⟩ := hp
    obtain ⟨L2, b1, b2, b3, b4⟩ := hm.applyLam_total hC ht
    cases a1.symm.trans b1
    exact ih b3 (hm.taut hC.1 hT ht a1) b2 a2

theorem Enc.Legal.noArcs {h : Enc} (hh : h.Legal) {L K : Lam R} (hL : L.NoArcs) (ha : h.applyLam L = .ok K) : K.NoArcs := by
  rw [Enc.applyLam_eq] at ha
  split at ha
  · rename_i ht
    obtain ⟨hC, hT⟩ := Lam.noArcs_iff.1 hL
    exact Lam.noArcs_iff.2 (taut_of_path hh.path hC hT ht.symm ha)
  · cases ha

namespace Triangulation
variable {T : Triangulation} {a b e : Int} {X : List Int}

/-- the powers of the encoding are the powers of a bijection -/
structure PowersOf (k : Enc) (σ : Equiv.Perm (LamOn R T)) : Prop where
  one : ∀ L, k.applyLam L.1 = .ok (σ L).1
  inv : ∃ g, k.inverse = .ok g ∧ ∀ L, g.applyLam L.1 = .ok (σ⁻¹ L).1
  pow : ∀ j : Int, ∃ p, k.pow j = .ok p ∧ ∀ L, p.applyLam L.1 = .ok ((σ ^ j) L).1

theorem Loop.action (h : Loop T a b e X) {ms S F G m k} (hD : Loop.Data T a b e X ms S F G m) (hk : Loop.Twists T ms m k) :
    ∃ σ : Equiv.Perm (LamOn R T), PowersOf k σ ∧ Loop.Action T a b e X σ := by
  have hs := hk.source
  obtain ⟨σ, h1, h2⟩ := C16_powers (R := R) k hk.legal hk.kind
  subst hs
  obtain ⟨g, g1, g2, _, _, _, g3, _⟩ := C15_inverse (R := R) k hk.legal
  have hg : ∀ L : LamOn R k.source, g.applyLam L.1 = .ok (σ⁻¹ L).1 := by
    intro L
    have := h1 (σ⁻¹ L)
    rw [Loop.perm_apply_inv] at this
    exact g3 _ _ (σ⁻¹ L).2.1.1 this
  refine ⟨σ, ⟨h1, ⟨g, g1, hg⟩, fun j => ?_⟩, ?_, ?_, ?_⟩
  · obtain ⟨p, p1, _, _, _, _, p2, _⟩ := h2 j
    exact ⟨p, p1, p2⟩
  · intro L
    constructor
    · intro hn
      have := g2.noArcs hn (hg (σ L))
      rwa [Loop.perm_inv_apply] at this
    · intro hn
      exact hk.legal.noArcs hn (h1 L)
  · intro L
    exact (hk.legal.undo L.2.1.1 (h1 L)).2.2.1
  · intro L hL
    obtain ⟨L', k1, _, _, _, k2⟩ := h.run hD hk hL L.2.2
    cases k1.symm.trans (h1 L)
    exact k2

namespace Loop
variable {σ : Equiv.Perm (LamOn R T)} {L : LamOn R T} {μ : R}

/-- moving away for ever -/
def Far (X : List Int) (ρ : Equiv.Perm (LamOn R T)) (ι : R) (M : LamOn R T) : Prop := ∀ j : Nat, Shifts X M (j * ι) ((ρ ^ j) M)

theorem far_pos (h : Loop T a b e X) (hσ : Loop.Action T a b e X σ) (hL : L.1.NoArcs) (hm : IsMin a X L μ) (ha : T.cor L a = μ) : Far X σ (L.1.w a - μ) L :=
  fun j => h.away hσ j L hL hm ha

theorem far_neg (h : Loop T a b e X) (hσ : Loop.Action T a b e X σ) (hL : L.1.NoArcs) (hm : IsMin a X L μ) (hb : T.cor L b = μ) : Far X σ⁻¹ (L.1.w a - μ) L :=
  fun j => h.back_away hσ j hL hm hb

theorem disjoint (h : Loop T a b e X) (hσ : Loop.Action T a b e X σ) (hL : L.1.NoArcs) (hm : IsMin a X L μ) (h0 : L.1.w a - μ = 0) : σ L = L := by
  have := h.away hσ 1 L hL hm (h.zero_of_disjoint hm h0)
  rw [h0, mul_zero, pow_one] at this
  exact this.unique (Shifts.zero L)

/-- if some corner of the sweep is small then there is one which is not the corner of `e` -/
theorem small (h : Loop T a b e X) (hm : IsMin a X L μ) {s : R} (hs : 0 ≤ s) (hd : ∃ x ∈ X.dropLast, T.cor L x < μ + 2 * (s + (L.1.w a - μ))) :
    ∃ x ∈ X.dropLast, x ≠ e ∧ T.cor L x < μ + 2 * (s + (L.1.w a - μ)) := by
  by_contra hn
  push Not at hn
  obtain ⟨x, hx, hlt⟩ := hd
  by_cases hxe : x = e
  · subst hxe
    have h1 := h.cor_e_ge (L := L) (μ := μ) (h.mem_dropLast.1 hx).1 (τ := 2 * (s + (L.1.w a - μ))) hn
    have h2 := (h.cor_ab L).1
    have h3 := hm.1 b (by simp [h.b_mem])
    have h4 := h.iota_nonneg hm
    linarith
  · exact absurd hlt (not_lt.2 (hn x hx hxe))

theorem b_of (h : Loop T a b e X) (hm : IsMin a X L μ) (ha : T.cor L a ≠ μ) (hd : ∀ x ∈ X.dropLast, μ < T.cor L x) : T.cor L b = μ := by
  obtain ⟨y, hy, k⟩ := hm.2
  rcases List.mem_cons.1 hy with rfl | hy
  · exact absurd k ha
  · by_cases hyb : y = b
    · rw [← hyb, k]
    · exact absurd k (hd y (h.mem_dropLast.2 ⟨hy, hyb⟩)).ne'

variable {τ : R} {φ s : Nat}

/-- heading for the dangerous region with positive power -/
theorem pos_toward (h : Loop T a b e X) (hσ : Loop.Action T a b e X σ) (hL : L.1.NoArcs) (hm : IsMin a X L μ) (hi : 0 < L.1.w a - μ)
    (h0 : 0 ≤ τ) (hd : ∀ x ∈ X.dropLast, μ + 2 * τ ≤ T.cor L x) (hd' : ∃ x ∈ X.dropLast, T.cor L x = μ + 2 * τ)
    (hf : (φ : R) * (L.1.w a - μ) ≤ τ) (hf' : τ < ((φ : R) + 1) * (L.1.w a - μ)) (hne : ¬ (0 < τ ∧ T.cor L a = μ)) (hs : s ≤ φ) :
    Shifts X L (-(s * (L.1.w a - μ))) ((σ ^ s) L) ∧ (s = φ → Far X σ (L.1.w a - μ) ((σ ^ 3) ((σ ^ s) L))) := by
  have hsf : (s : R) * (L.1.w a - μ) ≤ φ * (L.1.w a - μ) := mul_le_mul_of_nonneg_right (by exact_mod_cast hs) hi.le
  have hsh : Shifts X L (-(s * (L.1.w a - μ))) ((σ ^ s) L) := by
    rcases h0.lt_or_eq with hp | hp
    · have ha : T.cor L a ≠ μ := fun k => hne ⟨hp, k⟩
      have hb := h.b_of hm ha (fun x hx => by have := hd x hx; linarith)
      refine h.toward hσ s L hL hm hb (fun x hx _ => ?_)
      have := hd x hx
      linarith
    · have : (s : R) * (L.1.w a - μ) ≤ 0 := by linarith
      have hs0 : s = 0 := by
        by_contra hn
        have : (0 : R) < s := by exact_mod_cast Nat.pos_of_ne_zero hn
        nlinarith
      subst hs0
      simpa using Shifts.zero L
  refine ⟨hsh, fun hsφ => ?_⟩
  subst hsφ
  obtain ⟨m1, m2, m3⟩ := h.min_pow hσ s L hL hm
  have hcross : T.cor (σ (σ ((σ ^ s) L))) a = μ := by
    refine h.cross hσ m1 m2 ?_
    obtain ⟨x, hx, hxt⟩ := hd'
    obtain ⟨y, hy, hye, hlt⟩ := h.small hm (s := (s : R) * (L.1.w a - μ)) (mul_nonneg (Nat.cast_nonneg s) hi.le) ⟨x, hx, by rw [hxt]; linarith⟩
    refine ⟨y, hy, hye, ?_⟩
    rw [h.shift_mem hsh hy hye, m3]
    linarith
  obtain ⟨n1, n2, n3⟩ := h.min_pow hσ 2 _ m1 m2
  have e2 : (σ ^ 2) ((σ ^ s) L) = σ (σ ((σ ^ s) L)) := rfl
  rw [e2] at n1 n2 n3
  have e3 : (σ ^ 3) ((σ ^ s) L) = σ (σ (σ ((σ ^ s) L))) := rfl
  rw [e3]
  have := h.far_pos hσ ((hσ.noArcs _).2 n1) (h.min_step hσ n1 n2) (h.low_a hσ n1 n2 hcross)
  rwa [h.wa_step hσ n1, n3, m3] at this

theorem pos_away (h : Loop T a b e X) (hσ : Loop.Action T a b e X σ) (hL : L.1.NoArcs) (hm : IsMin a X L μ) (ha : T.cor L a = μ) :
    Far X σ (L.1.w a - μ) ((σ ^ 3) L) := by
  have hsh := h.away hσ 3 L hL hm ha
  obtain ⟨m1, m2, m3⟩ := h.min_pow hσ 3 L hL hm
  have := h.far_pos hσ m1 m2 (by rw [h.shift_a hsh, ha])
  rwa [m3] at this

theorem neg_away (h : Loop T a b e X) (hσ : Loop.Action T a b e X σ) (hL : L.1.NoArcs) (hm : IsMin a X L μ)
    (hd : ¬ (T.cor L a = μ ∧ ∀ x ∈ X.dropLast, μ + 2 * (L.1.w a - μ) ≤ T.cor L x)) : Far X σ⁻¹ (L.1.w a - μ) ((σ⁻¹ ^ 3) L) := by
  obtain ⟨m1, m2, m3⟩ := h.min_back_pow hσ 3 L hL hm
  have := h.far_neg hσ m1 m2 (h.back_cross hσ hL hm hd (by omega))
  rwa [m3] at this

theorem neg_toward (h : Loop T a b e X) (hσ : Loop.Action T a b e X σ) (hL : L.1.NoArcs) (hm : IsMin a X L μ) (hi : 0 < L.1.w a - μ)
    (hd : ∀ x ∈ X.dropLast, μ + 2 * τ ≤ T.cor L x) (hd' : ∃ x ∈ X.dropLast, T.cor L x = μ + 2 * τ)
    (hf : (φ : R) * (L.1.w a - μ) ≤ τ) (hf' : τ < ((φ : R) + 1) * (L.1.w a - μ)) (ha : T.cor L a = μ) (hs : s ≤ φ) :
    Shifts X L (-(s * (L.1.w a - μ))) ((σ⁻¹ ^ s) L) ∧ (s = φ → Far X σ⁻¹ (L.1.w a - μ) ((σ⁻¹ ^ 3) ((σ⁻¹ ^ s) L))) := by
  have hsf : (s : R) * (L.1.w a - μ) ≤ φ * (L.1.w a - μ) := mul_le_mul_of_nonneg_right (by exact_mod_cast hs) hi.le
  have hsh := h.back_toward hσ s hL hm ha (fun x hx => by have := hd x hx; linarith)
  refine ⟨hsh, fun hsφ => ?_⟩
  subst hsφ
  obtain ⟨m1, m2, m3⟩ := h.min_back_pow hσ s L hL hm
  have := h.neg_away hσ m1 m2 (by
    rintro ⟨_, k⟩
    obtain ⟨x, hx, hxt⟩ := hd'
    have k1 := k x hx
    have k2 := h.shift_ge hsh.symm (by rw [neg_neg]; exact mul_nonneg (Nat.cast_nonneg s) hi.le) hx
    rw [m3] at k1
    linarith)
  rwa [m3] at this

end Loop
end Triangulation
end
end Curver
