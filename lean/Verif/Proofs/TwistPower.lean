import Verif.Proofs.TwistAct

/-!
# `Twist.apply_lamination` computes the power of the twist
-/

namespace Curver
open Triangulation

section
variable {R : Type} [CommRing R] [LinearOrder R] [IsStrictOrderedRing R] [Halvable R]

namespace Lam
variable {c : Lam Int} {a b e : Int} {X v : List Int} {K : Lam Int} {L : LamOn R c.tri} {μ : R}

theorem ShortAt.intersection (h : ShortAt c a b e X v K) (hcls : c.cls = .curve) (P : Lam Int → Py LamClass) (hL : L.1.NoArcs) (hm : Loop.IsMin a X L μ) :
    c.intersection P L.1 = .ok (L.1.w a - μ) := by
  obtain ⟨i, i1, hs⟩ := h.short hcls P
  obtain ⟨i', i1', _, _, _, _, i6, _⟩ := h.wf.1.idEncoding_spec
  cases i1.symm.trans i1'
  unfold Lam.intersection
  rw [L.2.2]
  simp only [beq_self_eq_true, pyAssert, if_true, py_bind_ok, hs, i6 R L.1 L.2.1.1 L.2.2, h.peripheralComponents, h.comps, List.mapM_cons, List.mapM_nil,
    h.cls]
  rw [show (decide (LamClass.curve = LamClass.arc)) = false from rfl, h.loop.crossings h.around hL hm]
  simp

theorem ShortAt.slope (h : ShortAt c a b e X v K) (hcls : c.cls = .curve) {P : Lam Int → Py LamClass} (hper : c.isPeripheral P = .ok false)
    (hpar : c.parallelEdge P = .ok a) (hL : L.1.NoArcs) (hm : Loop.IsMin a X L μ) (hi : L.1.w a - μ ≠ 0) :
    ∃ τ, 0 ≤ τ ∧ (∀ x ∈ X.dropLast, μ + 2 * τ ≤ c.tri.cor L x) ∧ (∃ x ∈ X.dropLast, c.tri.cor L x = μ + 2 * τ) ∧
      ∃ s : R, ((s = 1 ∧ c.tri.cor L a = μ) ∨ (s = -1 ∧ c.tri.cor L a ≠ μ)) ∧ c.slope P L.1 = .ok (s * τ, L.1.w a - μ) := by
  obtain ⟨i, i1, hs⟩ := h.short hcls P
  obtain ⟨i', i1', _, _, _, _, i6, _⟩ := h.wf.1.idEncoding_spec
  cases i1.symm.trans i1'
  obtain ⟨m, m1, m2, m3⟩ := h.loop.aroundWeight hL hm
  obtain ⟨τ, t1, t2, t3, t4⟩ := h.loop.twistingWeight hL hm m2
  refine ⟨τ, t2, t3, t4, ?_⟩
  obtain ⟨l1, l2, l3⟩ := h.loop.lf_cor hL h.loop.sweep.label
  obtain ⟨r, r1, r2⟩ := hL.rightWeight (x := a) (by rw [L.2.2]; exact h.loop.sweep.label)
  have hden : L.1.w a - 2 * m + 0 = L.1.w a - μ := by rw [m2]; ring
  have hcor := hm.1 a (by simp)
  refine ⟨if L.1.lf a - m > 0 ∨ r < 0 then -1 else 1, ?_, ?_⟩
  · by_cases hc : c.tri.cor L a = μ
    · left
      refine ⟨if_neg ?_, hc⟩
      rintro (k | k)
      · linarith
      · linarith
    · right
      refine ⟨if_pos (.inl ?_), hc⟩
      have := lt_of_le_of_ne hcor (Ne.symm hc)
      linarith
  · unfold Lam.slope Lam.slopeWith
    rw [hper, py_bind_ok, if_neg (by simp)]
    beta_reduce
    rw [hs, py_bind_ok]
    dsimp only
    rw [i6 R L.1 L.2.1.1 L.2.2, py_bind_ok, hpar, py_bind_ok, h.around.around L.2.2, py_bind_ok, m1, py_bind_ok, h.loop.outWeight hL, py_bind_ok,
      h.loop.wt0 hL, py_bind_ok]
    show (if L.1.w a - 2 * m + 0 = 0 then _ else _) = _
    rw [hden, if_neg hi, t1, py_bind_ok, l1, py_bind_ok, r1, py_bind_ok]
    rfl

end Lam

namespace Twist
variable {t : Twist} {a b e : Int} {X v : List Int} {K : Lam Int} {L M : LamOn R t.curve.tri} {σ ρ : Equiv.Perm (LamOn R t.curve.tri)} {sg : Int}

theorem slowly_ok (hρ : ∀ L : LamOn R t.curve.tri, t.signedEncoding.applyLam L.1 = .ok (ρ L).1) (hs : t.powerSign = sg) (hs0 : sg = 1 ∨ sg = -1) :
    ∀ (n : Nat) (L : LamOn R t.curve.tri) (r : Nat), t.slowly n L.1 (sg * r) = .ok (((ρ ^ (min n r)) L).1, sg * ((r - min n r : Nat) : Int))
  | 0, L, r => by simp [slowly]
  | n + 1, L, 0 => by
    rw [slowly, if_neg (by simp)]
    rw [slowly_ok hρ hs hs0 n L 0]
    simp
  | n + 1, L, r + 1 => by
    rw [slowly, if_pos (by rcases hs0 with h | h <;> rw [h] <;> omega), hρ, py_bind_ok, hs]
    rw [show sg * ((r + 1 : Nat) : Int) - sg = sg * (r : Int) by push_cast; ring, slowly_ok hρ hs hs0 n (ρ L) r]
    rw [show min (n + 1) (r + 1) = min n r + 1 by omega, pow_succ, Equiv.Perm.mul_apply, show r + 1 - (min n r + 1) = r - min n r by omega]

theorem shift_ok (h : Lam.ShortAt t.curve a b e X v K) {u : R} (hs : Shifts X L u M) : t.shift L.1 u = M.1 := by
  have hl : L.1.geometric.length = t.curve.tri.zeta := by have := L.2.1.1.2; rwa [L.2.2] at this
  have hlc : t.curve.geometric.length = t.curve.tri.zeta := h.wf.2
  have hwf : (t.shift L.1 u).WellFormed := ⟨h.wf.1, by simp [shift, hl, hlc]⟩
  refine Lam.ext_w (L := t.shift L.1 u) (L' := M.1) ?_ ?_ ?_ ?_ ?_
  · exact M.2.2.symm
  · exact hs.1.symm
  · exact hwf.2
  · exact M.2.1.1.2
  · intro x hx
    have hx' : t.curve.tri.IsLabel x := hx
    rw [hs.2 x hx', ← h.w hx']
    have hi := idx_lt hx'
    unfold Lam.w shift
    dsimp only
    rw [List.getElem?_zipWith, List.getElem?_eq_getElem (by omega), List.getElem?_eq_getElem (by omega)]
    rfl

variable [FloorDiv' R]

/-- twisting quickly gives the power of the twist -/
theorem applyLam_eq (h : Lam.ShortAt t.curve a b e X v K) (hcls : t.curve.cls = .curve) {P : Lam Int → Py LamClass} (hper : t.curve.isPeripheral P = .ok false)
    (hpar : t.curve.parallelEdge P = .ok a) (hσ : Loop.Action t.curve.tri a b e X σ)
    (hρ : ∀ L : LamOn R t.curve.tri, t.signedEncoding.applyLam L.1 = .ok (ρ L).1) (hs : t.powerSign = sg) {n : Nat} (hn : 0 < n) (hp : t.power = sg * n)
    (hcase : (sg = 1 ∧ ρ = σ) ∨ (sg = -1 ∧ ρ = σ⁻¹)) (hL : L.1.NoArcs) : t.applyLam P L.1 = .ok ((ρ ^ n) L).1 := by
  have hs0 : sg = 1 ∨ sg = -1 := hcase.imp (fun k => k.1) (fun k => k.1)
  have habs : |t.power| = n := by
    rw [hp]; rcases hs0 with k | k <;> rw [k] <;> simp
  unfold applyLam
  by_cases h1 : |t.power| = 1
  · rw [if_pos h1, hρ]
    have : n = 1 := by omega
    rw [this, pow_one]
  rw [if_neg h1]
  obtain ⟨μ, hm⟩ := Loop.exists_min a X L
  rw [h.intersection hcls P hL hm, py_bind_ok]
  by_cases hi : L.1.w a - μ = 0
  · rw [if_pos hi]
    have hfix := h.loop.disjoint hσ hL hm hi
    have hρL : ρ L = L := by
      rcases hcase with ⟨_, rfl⟩ | ⟨_, rfl⟩
      · exact hfix
      · conv_lhs => rw [← hfix]
        exact Loop.perm_inv_apply σ L
    have : ∀ j : Nat, (ρ ^ j) L = L := by
      intro j
      induction j with
      | zero => rfl
      | succ j ih => rw [pow_succ, Equiv.Perm.mul_apply, hρL, ih]
    rw [this]; rfl
  rw [if_neg hi]
  obtain ⟨τ, τ0, τ1, τ2, s, hsc, hslope⟩ := h.slope hcls hper hpar hL hm hi
  rw [hslope, py_bind_ok]
  dsimp only
  have hi0 : 0 < L.1.w a - μ := lt_of_le_of_ne (h.loop.iota_nonneg hm) (Ne.symm hi)
  have hsabs : |s * τ| = τ := by
    rcases hsc with ⟨k, _⟩ | ⟨k, _⟩ <;> rw [k]
    · rw [one_mul, abs_of_nonneg τ0]
    · rw [neg_one_mul, abs_neg, abs_of_nonneg τ0]
  rw [hsabs]
  -- the number of steps
  have f1 := FloorDiv'.floorDiv_le τ (L.1.w a - μ) hi0
  have f2 := FloorDiv'.lt_floorDiv τ (L.1.w a - μ) hi0
  have f3 : 0 ≤ FloorDiv'.floorDiv τ (L.1.w a - μ) := by
    by_contra hneg
    have : ((FloorDiv'.floorDiv τ (L.1.w a - μ) : Int) : R) + 1 ≤ 0 := by exact_mod_cast (show FloorDiv'.floorDiv τ (L.1.w a - μ) + 1 ≤ 0 by omega)
    nlinarith
  obtain ⟨φ, hφ⟩ := Int.eq_ofNat_of_zero_le f3
  rw [hφ] at f1 f2 ⊢
  rw [Int.cast_natCast] at f1 f2
  rw [habs]
  have hmin : (min (n : Int) (φ : Int)) = ((min n φ : Nat) : Int) := by simp
  rw [hmin]
  -- the end: after the steps
  have final : ∀ (u r : Nat) (N : LamOn R t.curve.tri), N = (ρ ^ u) L → u + r = n → (4 ≤ r → Loop.Far X ρ (L.1.w a - μ) ((ρ ^ 3) N)) →
      (t.slowly 3 N.1 (sg * r) >>= fun (p : Lam R × Int) => if p.2 ≠ 0 then pure (t.shift p.1 (((|p.2| : Int) : R) * (L.1.w a - μ))) else pure p.1 : Py (Lam R)) = .ok ((ρ ^ n) L).1 := by
    intro u r N hN hur hfar
    rw [slowly_ok hρ hs hs0 3 N r, py_bind_ok]
    dsimp only
    by_cases hr : r ≤ 3
    · rw [show min 3 r = r by omega, Nat.sub_self, Nat.cast_zero, mul_zero, if_neg (by simp), hN]
      rw [← Equiv.Perm.mul_apply, ← pow_add, show r + u = n by omega]; rfl
    · rw [show min 3 r = 3 by omega, if_pos (by rcases hs0 with k | k <;> rw [k] <;> omega)]
      have e1 : |sg * ((r - 3 : Nat) : Int)| = ((r - 3 : Nat) : Int) := by rcases hs0 with k | k <;> rw [k] <;> simp
      rw [e1, Int.cast_natCast, shift_ok h (hfar (by omega) (r - 3)), hN]
      rw [← Equiv.Perm.mul_apply, ← Equiv.Perm.mul_apply, ← pow_add, ← pow_add, show r - 3 + 3 + u = n by omega]; rfl
  -- the sign of the slope
  have hnum : (s * τ > 0) ↔ (0 < τ ∧ t.curve.tri.cor L a = μ) := by
    rcases hsc with ⟨k, k'⟩ | ⟨k, k'⟩ <;> rw [k]
    · rw [one_mul]; exact ⟨fun hh => ⟨hh, k'⟩, fun hh => hh.1⟩
    · rw [neg_one_mul]
      exact ⟨fun hh => absurd hh (by simp [τ0]), fun hh => absurd hh.2 k'⟩
  have toward : ∀ (ss : Int), ss = -sg → (Shifts X L (-(((min n φ : Nat) : R) * (L.1.w a - μ))) ((ρ ^ (min n φ)) L)) →
      (min n φ = φ → Loop.Far X ρ (L.1.w a - μ) ((ρ ^ 3) ((ρ ^ (min n φ)) L))) →
      (match (if t.power * ss < 0 then (t.shift L.1 (-((((min n φ : Nat) : Int) : R) * (L.1.w a - μ))), t.power + ss * ((min n φ : Nat) : Int)) else (L.1, t.power)) with
      | (L', power) => (t.slowly 3 L' power >>= fun (p : Lam R × Int) => if p.2 ≠ 0 then pure (t.shift p.1 (((|p.2| : Int) : R) * (L.1.w a - μ))) else pure p.1 : Py (Lam R))) = .ok ((ρ ^ n) L).1 := by
    intro ss hss hsh hfar
    rw [if_pos (by rw [hp, hss]; rcases hs0 with k | k <;> rw [k] <;> omega)]
    dsimp only
    rw [Int.cast_natCast, shift_ok h hsh, hp, hss, show sg * (n : Int) + -sg * ((min n φ : Nat) : Int) = sg * ((n - min n φ : Nat) : Int) by
      rw [Nat.cast_sub (min_le_left _ _)]; ring]
    exact final (min n φ) (n - min n φ) _ rfl (by omega) (fun hr => hfar (by omega))
  have away : ∀ (ss : Int), ss = sg → Loop.Far X ρ (L.1.w a - μ) ((ρ ^ 3) L) →
      (match (if t.power * ss < 0 then (t.shift L.1 (-((((min n φ : Nat) : Int) : R) * (L.1.w a - μ))), t.power + ss * ((min n φ : Nat) : Int)) else (L.1, t.power)) with
      | (L', power) => (t.slowly 3 L' power >>= fun (p : Lam R × Int) => if p.2 ≠ 0 then pure (t.shift p.1 (((|p.2| : Int) : R) * (L.1.w a - μ))) else pure p.1 : Py (Lam R))) = .ok ((ρ ^ n) L).1 := by
    intro ss hss hfar
    rw [if_neg (by rw [hp, hss]; rcases hs0 with k | k <;> rw [k] <;> omega)]
    dsimp only
    rw [hp]
    exact final 0 n L rfl (by omega) (fun _ => hfar)
  by_cases hx : 0 < τ ∧ t.curve.tri.cor L a = μ
  · rw [if_pos (hnum.2 hx)]
    rcases hcase with ⟨k1, k2⟩ | ⟨k1, k2⟩
    · refine away 1 k1.symm ?_
      rw [k2]
      exact h.loop.pos_away hσ hL hm hx.2
    · obtain ⟨n1, n2⟩ := h.loop.neg_toward hσ hL hm hi0 τ1 τ2 f1 f2 hx.2 (min_le_right n φ)
      rw [← k2] at n1 n2
      exact toward 1 (by rw [k1]; rfl) n1 n2
  · rw [if_neg (fun k => hx (hnum.1 k))]
    rcases hcase with ⟨k1, k2⟩ | ⟨k1, k2⟩
    · obtain ⟨n1, n2⟩ := h.loop.pos_toward hσ hL hm hi0 τ0 τ1 τ2 f1 f2 hx (min_le_right n φ)
      rw [← k2] at n1 n2
      exact toward (-1) (by rw [k1]) n1 n2
    · refine away (-1) k1.symm ?_
      rw [k2]
      refine h.loop.neg_away hσ hL hm ?_
      rintro ⟨k3, k4⟩
      obtain ⟨x, hx1, hx2⟩ := τ2
      have := k4 x hx1
      exact hx ⟨by linarith, k3⟩

end Twist
end
end Curver
