import Verif.Proofs.TwistHom

/-!
# Consequences
-/

namespace Curver
open Triangulation

namespace Twist.Made
variable {P : Lam Int → Py LamClass} {t : Twist} {a b e : Int} {X v : List Int} {K : Lam Int}
variable {R : Type} [CommRing R] [LinearOrder R] [IsStrictOrderedRing R] [Halvable R]

/-- another power of the same twist -/
theorem other (h : Made P t a b e X v K) {p : Int} (hp : p ≠ 0) : ∃ t', create P t.curve p = .ok t' ∧ t'.curve = t.curve ∧ t'.power = p ∧ t'.encoding = t.encoding ∧ Made P t' a b e X v K := by
  obtain ⟨t', h'⟩ := create_ok (p := p) h.short.noArcs h.cls h.par hp
  obtain ⟨r1, r2, r3⟩ := create_made h.short.noArcs h.par h.short h'
  have := r3.isBuilt
  rw [r1, h.isBuilt] at this
  injection this with this
  exact ⟨t', h', r1, r2, this.symm, r3⟩

theorem min_zpow (h : Loop t.curve.tri a b e X) {σ : Equiv.Perm (LamOn R t.curve.tri)} (hσ : Loop.Action t.curve.tri a b e X σ) (n : Int) (L : LamOn R t.curve.tri) {μ : R}
    (hL : L.1.NoArcs) (hm : Loop.IsMin a X L μ) : ((σ ^ n) L).1.NoArcs ∧ Loop.IsMin a X ((σ ^ n) L) μ ∧ ((σ ^ n) L).1.w a = L.1.w a := by
  rcases le_or_gt 0 n with hn | hn
  · obtain ⟨k, rfl⟩ := Int.eq_ofNat_of_zero_le hn
    have := h.min_pow hσ k L hL hm
    rwa [← zpow_natCast] at this
  · obtain ⟨k, hk⟩ := Int.eq_ofNat_of_zero_le (a := -n) (by omega)
    have := h.min_back_pow hσ k L hL hm
    have e1 : (σ⁻¹ ^ k : Equiv.Perm _) = σ ^ n := by
      rw [show n = -(k : Int) by omega, zpow_neg, zpow_natCast, inv_pow]
    rwa [e1] at this

theorem slope_pos [FloorDiv' R] (h : Made P t a b e X v K) {L : LamOn R t.curve.tri} (hL : L.1.NoArcs) {num den : R} (hs : t.curve.slope P L.1 = .ok (num, den)) :
    0 < den ∧ t.curve.intersection P L.1 = .ok den ∧ ∃ μ, Loop.IsMin a X L μ ∧ den = L.1.w a - μ ∧
      (0 < num → t.curve.tri.cor L a = μ) ∧ (num < 0 → t.curve.tri.cor L b = μ) := by
  obtain ⟨μ, hm⟩ := Loop.exists_min a X L
  have hnn := h.short.loop.iota_nonneg hm
  by_cases hi : L.1.w a - μ = 0
  · exfalso
    obtain ⟨i, i1, hsh⟩ := h.short.short h.cls P
    obtain ⟨i', i1', _, _, _, _, i6, _⟩ := h.short.wf.1.idEncoding_spec
    cases i1.symm.trans i1'
    obtain ⟨m, m1, m2, m3⟩ := h.short.loop.aroundWeight hL hm
    unfold Lam.slope Lam.slopeWith at hs
    rw [h.per, py_bind_ok, if_neg (by simp)] at hs
    beta_reduce at hs
    rw [hsh, py_bind_ok] at hs
    dsimp only at hs
    rw [i6 R L.1 L.2.1.1 L.2.2, py_bind_ok, h.par, py_bind_ok, h.short.around.around L.2.2, py_bind_ok, m1, py_bind_ok, h.short.loop.outWeight hL, py_bind_ok,
      h.short.loop.wt0 hL, py_bind_ok] at hs
    have hz : L.1.w a - 2 * m + 0 = 0 := by rw [m2, add_zero]; exact hi
    rw [if_pos hz] at hs
    cases hs
  · obtain ⟨τ, τ0, τ1, τ2, s, hsc, hslope⟩ := h.short.slope h.cls h.per h.par hL hm hi
    rw [hs] at hslope
    injection hslope with hslope
    injection hslope with e1 e2
    refine ⟨?_, ?_, μ, hm, e2, ?_, ?_⟩
    · rw [e2]; exact lt_of_le_of_ne hnn (Ne.symm hi)
    · rw [h.short.intersection h.cls P hL hm, e2]
    · intro hp
      rcases hsc with ⟨k1, k2⟩ | ⟨k1, k2⟩
      · exact k2
      · rw [k1] at e1; linarith
    · intro hp
      rcases hsc with ⟨k1, k2⟩ | ⟨k1, k2⟩
      · rw [k1] at e1; linarith
      · refine h.short.loop.b_of hm k2 ?_
        intro x hx
        have := τ1 x hx
        rw [k1] at e1
        linarith

/-- the corner of `e`, seen from `b` -/
theorem cor_e_ge' (h : Loop t.curve.tri a b e X) (he : e ∈ X) {L : LamOn R t.curve.tri} {μ τ : R} (hd : ∀ x ∈ X.dropLast, μ + τ ≤ t.curve.tri.cor L x) :
    2 * μ + 2 * τ - t.curve.tri.cor L b ≤ t.curve.tri.cor L e := by
  have hc := h.valid.comp
  have hib : inv b ∈ X := h.e_mem_iff.1 he
  have lb : t.curve.tri.IsLabel (inv b) := h.sweep.labels hc _ hib
  obtain ⟨y, z, hg⟩ := hc.exists_glues lb
  have hl := hc.label_of_glues hg
  have hs : t.curve.tri.spin y = b := by rw [Sweep.spin_eq hc hg.rot, inv_inv]
  have hy : y ∈ X.dropLast := by
    rcases (h.mem_spin hl.2.1).1 (hs ▸ h.b_mem) with k | k
    · exfalso
      subst k
      obtain ⟨_, k2⟩ := hc.glues_unique hg.rot h.glues
      exact h.fan.base.left_inv_b.ne k2
    · exact h.mem_dropLast.2 k
  have h1 := h.cor_pair L hg
  have h2 := h.cor_pair L h.glues.rot
  rw [Lam.w_inv] at h1
  have h3 := hd _ (h.mem_dropLast.2 ⟨hib, inv_ne b⟩)
  have h4 := hd y hy
  linarith

/-- slopes grow by one with each twist, outside the middle -/
theorem slope_shift (h : Made P t a b e X v K) {L M : LamOn R t.curve.tri} (hL : L.1.NoArcs) (hM : M.1.NoArcs) {μ : R} (hm : Loop.IsMin a X L μ) (hm' : Loop.IsMin a X M μ)
    {num den u : R} (hs : t.curve.slope P L.1 = .ok (num, den)) (hden : den = L.1.w a - μ) (hd : 0 < den) (hsh : Shifts X L u M)
    (hcase : (0 < num ∧ 0 ≤ num + u) ∨ (num < 0 ∧ num ≤ u)) :
    t.curve.slope P M.1 = .ok (if 0 < num then num + u else num - u, den) := by
  have hwa := h.short.loop.shift_wa hsh
  have hca := h.short.loop.shift_a hsh
  obtain ⟨τ, τ0, τ1, ⟨x0, τ2, τ3⟩, s, hsc, hslope⟩ := h.short.slope h.cls h.per h.par hL hm (by rw [← hden]; exact hd.ne')
  obtain ⟨τ', τ0', τ1', ⟨x1, τ2', τ3'⟩, s', hsc', hslope'⟩ := h.short.slope h.cls h.per h.par hM hm' (by rw [hwa, ← hden]; exact hd.ne')
  rw [hs] at hslope
  injection hslope with hslope
  injection hslope with e1 e2
  -- the sign
  have hsg : (0 < num ∧ s = 1 ∧ s' = 1 ∧ t.curve.tri.cor L a = μ) ∨ (num < 0 ∧ s = -1 ∧ s' = -1 ∧ t.curve.tri.cor L b = μ) := by
    rcases hcase with ⟨hp, _⟩ | ⟨hp, _⟩
    · left
      rcases hsc with k | ⟨k1, k2⟩
      · refine ⟨hp, k.1, ?_, k.2⟩
        rcases hsc' with k' | ⟨_, k2⟩
        · exact k'.1
        · rw [hca, k.2] at k2; exact absurd rfl k2
      · rw [k1] at e1; exfalso; linarith
    · right
      rcases hsc with k | ⟨k1, k2⟩
      · rw [k.1] at e1; exfalso; linarith
      · refine ⟨hp, k1, ?_, ?_⟩
        · rcases hsc' with k' | k'
          · rw [hca] at k'; exact absurd k'.2 k2
          · exact k'.1
        · refine h.short.loop.b_of hm k2 (fun x hx => ?_)
          have := τ1 x hx
          rw [k1] at e1
          linarith
  have hτ : 0 < τ ∧ 0 ≤ τ + u := by
    rcases hsg with ⟨k1, k2, _, _⟩ | ⟨k1, k2, _, _⟩
    · rw [k2] at e1
      rcases hcase with ⟨c1, c2⟩ | ⟨c1, c2⟩
      · constructor <;> linarith
      · exfalso; linarith
    · rw [k2] at e1
      rcases hcase with ⟨c1, c2⟩ | ⟨c1, c2⟩
      · exfalso; linarith
      · constructor <;> linarith
  have hee : e ∈ X → μ + 4 * τ ≤ t.curve.tri.cor L e := by
    intro he
    rcases hsg with ⟨_, _, _, k⟩ | ⟨_, _, _, k⟩
    · have := h.short.loop.cor_e_ge (L := L) (μ := μ) (τ := 2 * τ) he (fun x hx' _ => τ1 x hx')
      linarith
    · have := cor_e_ge' h.short.loop (L := L) (μ := μ) (τ := 2 * τ) he (fun x hx' => τ1 x hx')
      linarith
  have hx0 : x0 ≠ e := by
    intro hx
    have he : e ∈ X := by rw [← hx]; exact (h.short.loop.mem_dropLast.1 τ2).1
    have := hee he
    rw [← hx, τ3] at this
    linarith
  have k1 := h.short.loop.shift_mem hsh τ2 hx0
  have k2 := τ1' x0 τ2
  have k3 : μ + 2 * (τ + u) ≤ t.curve.tri.cor M x1 := by
    by_cases hx : x1 = e
    · have he : e ∈ X := by rw [← hx]; exact (h.short.loop.mem_dropLast.1 τ2').1
      have := hee he
      rw [hx, h.short.loop.shift_e hsh, List.count_eq_one_of_mem h.short.loop.nodup he]
      push_cast
      linarith
    · rw [h.short.loop.shift_mem hsh τ2' hx]
      have := τ1 x1 τ2'
      linarith
  have hfin : τ' = τ + u := by linarith
  rw [hslope', hwa, ← hden, hfin]
  congr 2
  rcases hsg with ⟨c1, c2, c3, _⟩ | ⟨c1, c2, c3, _⟩
  · rw [if_pos c1, c3, e1, c2]; ring
  · rw [if_neg (not_lt.2 c1.le), c3, e1, c2]; ring

end Twist.Made
end Curver
