import Verif.Proofs.TwistFacts

/-!
# C52-C55: Dehn twists (curver/kernel/twist.py)

`c : Lam Int` with `c.NoArcs` is a lamination made of closed curves only; `c.parallelEdge P = .ok a` says that `c.parallel()` returns the edge `a`, in
particular that `c.is_short()` and not `c.is_peripheral()`.  The weights of the laminations that are twisted are in any ordered ring with halving and
integer parts (`int` and `Fraction`).
-/

namespace Curver
open Triangulation

section
variable {R : Type} [CommRing R] [LinearOrder R] [IsStrictOrderedRing R] [Halvable R] [FloorDiv' R]

omit [IsStrictOrderedRing R] [FloorDiv' R] in
theorem Lam.NoArcs.on {T : Triangulation} [IsStrictOrderedRing R] {L : Lam R} (h : L.NoArcs) (ht : L.tri = T) : ∃ K : LamOn R T, K.1 = L :=
  ⟨⟨L, (Lam.noArcs_iff.1 h).1, ht⟩, rfl⟩

/-! ## C52 -/

/-- C52: `Twist(c, p)` is defined for every non-peripheral short curve `c` and every `p != 0`, and its encoding is a mapping class of the triangulation of `c`. -/
theorem C52_created (P : Lam Int → Py LamClass) (c : Lam Int) (p a : Int) (hc : c.NoArcs) (hcls : c.cls = .curve) (ha : c.parallelEdge P = .ok a) (hp : p ≠ 0) :
    ∃ t, Twist.create P c p = .ok t ∧ t.curve = c ∧ t.power = p ∧ t.encoding.Legal ∧ t.encoding.kind = .mappingClass ∧ t.encoding.source = c.tri ∧
      t.encoding.target = c.tri := by
  obtain ⟨t, ht⟩ := Twist.create_ok (p := p) hc hcls ha hp
  obtain ⟨r1, r2, a', b, e, X, v, K, hm⟩ := Twist.create_spec hc ht
  obtain ⟨ms, S, F, G, m, hD, hk⟩ := hm.built
  rw [r1] at hk
  exact ⟨t, ht, r1, r2, hk.legal, hk.kind, hk.source, hk.target⟩

/-- C52: `Twist(c, 0)` is refused. -/
theorem C52_zero_power (P : Lam Int → Py LamClass) (c : Lam Int) : ∀ t, Twist.create P c 0 ≠ .ok t := by
  intro t h
  unfold Twist.create at h
  simp only [py_bind_eq_ok, pyAssert_ok_iff] at h
  obtain ⟨_, h1, s, h2, _, h3, q, h4, _, h5, _, h6, _⟩ := h
  simp at h6

/-- C52: the number of flips, `c.weight() - c.dual_weight(a)`, is right (twist.py:25-28 leaves this unproved): each of the flips is possible, and afterwards there is an
isometry back to the original triangulation that fixes `a`. -/
theorem C52_number_of_flips (P : Lam Int → Py LamClass) (c : Lam Int) (a : Int) (hc : c.NoArcs) (ha : c.parallelEdge P = .ok a) :
    ∃ n id f, c.dualWeight a = .ok n ∧ 0 ≤ c.weight - n ∧ c.tri.idEncoding = .ok id ∧ Twist.flips a (c.weight - n).toNat id = .ok f ∧ f.source = c.tri ∧
      ∃ G, f.target.IsIsometry c.tri G ∧ G a = a := by
  obtain ⟨hper, b, e, X, v, K, hs⟩ := Lam.parallelEdge_spec hc ha
  obtain ⟨n, n1, n2⟩ := hs.loop.numFlips rfl hs.cut
  obtain ⟨ms, S, F, G, m, hD, hm⟩ := hs.loop.exists_data
  obtain ⟨p, p1, p2, p3, p4, p5, p6, p7⟩ := hs.loop.valid.idEncoding_spec
  obtain ⟨f, t1, t2, t3, t4, t5, t6, t7⟩ := hD.turns.flips p2 p5 (by rw [p3]; simp)
  have hG : S.IsIsometry c.tri G := hD.back.choose_spec.2.2.2.2
  refine ⟨n, p, f, n1, by omega, p1, by rw [n2, Int.toNat_natCast]; exact t1, t4.trans p4, G, by rw [t5]; exact hG, ?_⟩
  have := hD.gf a hs.loop.sweep.label
  rwa [hD.turns.last.fa] at this

/-! ## C53 -/

/-- C53: applying the twist to a lamination without arcs, whatever the power, gives what the power of the flips and isometry gives. -/
theorem C53_accelerated (P : Lam Int → Py LamClass) (c : Lam Int) (p : Int) (t : Twist) (hc : c.NoArcs) (ht : Twist.create P c p = .ok t) :
    ∃ g, t.flipMapping = .ok g ∧ ∀ L : Lam R, L.NoArcs → L.tri = c.tri → ∃ M, t.applyLam P L = .ok M ∧ g.applyLam L = .ok M ∧ M.NoArcs ∧ M.tri = c.tri ∧ M.cls = L.cls := by
  obtain ⟨r1, r2, a, b, e, X, v, K, hm⟩ := Twist.create_spec hc ht
  obtain ⟨σ, h1, h2⟩ := hm.action (R := R)
  obtain ⟨g, g1, g2⟩ := hm.flipMapping h1
  refine ⟨g, g1, ?_⟩
  intro L hL hLt
  rw [← r1] at hLt ⊢
  obtain ⟨L', rfl⟩ := hL.on hLt
  obtain ⟨μ, hμ⟩ := Loop.exists_min a X L'
  have hz := Twist.Made.min_zpow hm.short.loop h2 t.power L' hL hμ
  refine ⟨_, hm.applyLam h1 h2 hL, g2 L', hz.1, ((σ ^ t.power) L').2.2, ?_⟩
  have hcls : ∀ (n : Nat) (L : LamOn R t.curve.tri), ((σ ^ n) L).1.cls = L.1.cls := by
    intro n
    induction n with
    | zero => intro L; rfl
    | succ n ih => intro L; rw [pow_succ, Equiv.Perm.mul_apply, ih, h2.cls]
  rcases le_or_gt 0 t.power with hn | hn
  · obtain ⟨k, hk⟩ := Int.eq_ofNat_of_zero_le hn
    rw [hk, zpow_natCast]; exact hcls k L'
  · obtain ⟨k, hk⟩ := Int.eq_ofNat_of_zero_le (a := -t.power) (by omega)
    have e1 := hcls k ((σ ^ t.power) L')
    rw [← e1, ← zpow_natCast, ← Equiv.Perm.mul_apply, ← zpow_add, show (k : Int) + t.power = 0 by omega]; rfl

/-! ## C54 -/

/-- C54: a lamination that does not meet the curve is fixed. -/
theorem C54_disjoint (P : Lam Int → Py LamClass) (c : Lam Int) (p : Int) (t : Twist) (hc : c.NoArcs) (ht : Twist.create P c p = .ok t) (L : Lam R) (hL : L.NoArcs)
    (hLt : L.tri = c.tri) (h0 : c.intersection P L = .ok 0) : t.applyLam P L = .ok L := by
  obtain ⟨r1, r2, a, b, e, X, v, K, hm⟩ := Twist.create_spec hc ht
  obtain ⟨σ, h1, h2⟩ := hm.action (R := R)
  rw [← r1] at hLt h0
  obtain ⟨L', rfl⟩ := hL.on hLt
  obtain ⟨μ, hμ⟩ := Loop.exists_min a X L'
  rw [hm.short.intersection hm.cls P hL hμ] at h0
  have hfix := hm.short.loop.disjoint h2 hL hμ (by injection h0)
  rw [hm.applyLam h1 h2 hL]
  congr 2
  have := Function.IsFixedPt.perm_zpow (e := σ) (x := L') hfix t.power
  exact this

/-- C54: the curve itself is fixed. -/
theorem C54_fixes_curve (P : Lam Int → Py LamClass) (c : Lam Int) (p : Int) (t : Twist) (hc : c.NoArcs) (ht : Twist.create P c p = .ok t) :
    c.intersection P c = .ok 0 ∧ t.applyLam P c = .ok c := by
  have key : c.intersection P c = .ok 0 := by
    obtain ⟨r1, r2, a, b, e, X, v, K, hm⟩ := Twist.create_spec hc ht
    subst r1
    obtain ⟨L', hL'⟩ := hc.on (T := t.curve.tri) rfl
    have hL : L'.1.NoArcs := by rw [hL']; exact hc
    obtain ⟨μ, hμ⟩ := Loop.exists_min a X L'
    have hi := hm.short.intersection hm.cls P hL hμ
    have hl := hm.short.loop.valid.comp.label_of_glues hm.short.loop.glues
    have ha : t.curve.tri.cor L' a = 0 := by
      rw [cor_eq hm.short.loop.valid.comp L' hm.short.loop.glues, hL', hm.short.w hl.1, hm.short.w hl.2.1, hm.short.w hl.2.2, hm.short.loop.cn_a, hm.short.loop.cn_b,
        hm.short.loop.cn_e]; omega
    have h1 := hμ.1 a (by simp)
    have h2 : 0 ≤ μ := by
      obtain ⟨y, hy, k⟩ := hμ.2
      rw [← k]
      refine cor_nonneg hm.short.loop.valid.comp hL ?_
      rcases List.mem_cons.1 hy with rfl | hy
      · exact hl.1
      · exact hm.short.loop.sweep.labels hm.short.loop.valid.comp y hy
    rw [hL'] at hi
    rw [hi, hm.short.w hl.1, hm.short.loop.cn_a]
    congr 1; omega
  exact ⟨key, C54_disjoint P c p t hc ht c hc rfl key⟩

/-- C54: the twist keeps the intersection number with the curve. -/
theorem C54_intersection (P : Lam Int → Py LamClass) (c : Lam Int) (p : Int) (t : Twist) (hc : c.NoArcs) (ht : Twist.create P c p = .ok t) (L M : Lam R) (hL : L.NoArcs)
    (hLt : L.tri = c.tri) (hM : t.applyLam P L = .ok M) : ∃ n, c.intersection P L = .ok n ∧ c.intersection P M = .ok n ∧ 0 ≤ n := by
  obtain ⟨r1, r2, a, b, e, X, v, K, hm⟩ := Twist.create_spec hc ht
  obtain ⟨σ, h1, h2⟩ := hm.action (R := R)
  rw [← r1] at hLt ⊢
  obtain ⟨L', rfl⟩ := hL.on hLt
  obtain ⟨μ, hμ⟩ := Loop.exists_min a X L'
  have hz := Twist.Made.min_zpow hm.short.loop h2 t.power L' hL hμ
  cases (hm.applyLam h1 h2 hL).symm.trans hM
  refine ⟨_, hm.short.intersection hm.cls P hL hμ, ?_, hm.short.loop.iota_nonneg hμ⟩
  rw [hm.short.intersection hm.cls P hz.1 hz.2.1, hz.2.2]

/-- C54: twists about the same curve compose by adding the powers. -/
theorem C54_compose (P : Lam Int → Py LamClass) (c : Lam Int) (p q : Int) (t u : Twist) (hc : c.NoArcs) (ht : Twist.create P c p = .ok t) (hu : Twist.create P c q = .ok u)
    (L : Lam R) (hL : L.NoArcs) (hLt : L.tri = c.tri) :
    ∃ M N, t.applyLam P L = .ok M ∧ u.applyLam P M = .ok N ∧ (p + q = 0 → N = L) ∧ ∀ w, Twist.create P c (p + q) = .ok w → w.applyLam P L = .ok N := by
  obtain ⟨r1, r2, a, b, e, X, v, K, hm⟩ := Twist.create_spec hc ht
  obtain ⟨s1, s2, hmu⟩ := Twist.create_made (by rw [r1]; exact hc) hm.par hm.short (by rw [r1]; exact hu)
  obtain ⟨σ, h1, h2⟩ := hm.action (R := R)
  have henc : ∀ w : Twist, w.curve = t.curve → Twist.Made P w a b e X v K → w.encoding = t.encoding := by
    intro w hw hmw
    have := hmw.isBuilt
    rw [hw, hm.isBuilt] at this
    injection this with this
    exact this.symm
  rw [← r1] at hLt
  obtain ⟨L', rfl⟩ := hL.on hLt
  obtain ⟨μ, hμ⟩ := Loop.exists_min a X L'
  have hz := Twist.Made.min_zpow hm.short.loop h2 t.power L' hL hμ
  have act : ∀ w : Twist, w.curve = t.curve → Twist.Made P w a b e X v K → ∀ L : LamOn R t.curve.tri, L.1.NoArcs → w.applyLam P L.1 = .ok ((σ ^ w.power) L).1 := by
    intro w hw hmw
    have he := henc w hw hmw
    cases w with
    | mk curve power encoding powerSign signedEncoding =>
      dsimp only at hw he
      subst hw; subst he
      intro L hL
      exact hmw.applyLam h1 h2 hL
  have e1 := act t rfl hm L' hL
  have e2 := act u s1 hmu _ hz.1
  refine ⟨_, _, e1, e2, ?_, ?_⟩
  · intro h0
    rw [← Equiv.Perm.mul_apply, ← zpow_add, r2, s2, show q + p = 0 by omega]; rfl
  · intro w hw
    obtain ⟨w1, w2, hmw⟩ := Twist.create_made (by rw [r1]; exact hc) hm.par hm.short (by rw [r1]; exact hw)
    rw [act w w1 hmw L' hL, ← Equiv.Perm.mul_apply, ← zpow_add, r2, s2, w2, add_comm]

/-- C54: the inverse of the twist is the twist by the opposite power, and undoes it. -/
theorem C54_inverse (P : Lam Int → Py LamClass) (c : Lam Int) (p : Int) (t : Twist) (hc : c.NoArcs) (ht : Twist.create P c p = .ok t) :
    ∃ u, t.inverse P = .ok u ∧ u.curve = c ∧ u.power = -p ∧ ∀ L : Lam R, L.NoArcs → L.tri = c.tri → ∃ M, t.applyLam P L = .ok M ∧ u.applyLam P M = .ok L := by
  obtain ⟨r1, r2, a, b, e, X, v, K, hm⟩ := Twist.create_spec hc ht
  obtain ⟨u, u1, u2, u3, _, _⟩ := hm.other (p := -t.power) (by have := hm.nz; omega)
  refine ⟨u, u1, u2.trans r1, by rw [u3, r2], ?_⟩
  intro L hL hLt
  rw [r1, r2] at u1
  obtain ⟨M, N, m1, m2, m3, _⟩ := C54_compose P c p (-p) t u hc ht u1 L hL hLt
  exact ⟨M, m1, by rw [m2, m3 (by omega)]⟩

/-- C54: twisting away from the curve.  If the lamination already turns in the direction of the twist (its slope has the sign of the power) then twisting adds
`|power| * intersection` copies of the curve. -/
theorem C54_away (P : Lam Int → Py LamClass) (c : Lam Int) (p : Int) (t : Twist) (hc : c.NoArcs) (ht : Twist.create P c p = .ok t) (L : Lam R) (hL : L.NoArcs)
    (hLt : L.tri = c.tri) (num den : R) (hs : c.slope P L = .ok (num, den)) (hdir : (0 < p ∧ 0 < num) ∨ (p < 0 ∧ num < 0)) :
    c.intersection P L = .ok den ∧ ∃ M, t.applyLam P L = .ok M ∧ M.tri = c.tri ∧ ∀ x, c.tri.IsLabel x → M.w x = L.w x + (((|p| : Int) : R) * den) * ((c.w x : Int) : R) := by
  obtain ⟨r1, r2, a, b, e, X, v, K, hm⟩ := Twist.create_spec hc ht
  obtain ⟨σ, h1, h2⟩ := hm.action (R := R)
  subst r1
  obtain ⟨L', rfl⟩ := hL.on hLt
  obtain ⟨hd, hi, μ, hμ, hden, hpos, hneg⟩ := hm.slope_pos hL hs
  refine ⟨hi, _, hm.applyLam h1 h2 hL, ((σ ^ t.power) L').2.2, ?_⟩
  intro x hx
  rw [hm.short.w hx, hden]
  rcases hdir with ⟨hp, hn⟩ | ⟨hp, hn⟩
  · obtain ⟨k, hk⟩ := Int.eq_ofNat_of_zero_le hp.le
    have := (hm.short.loop.far_pos h2 hL hμ (hpos hn) k).2 x hx
    rw [r2, hk, zpow_natCast, this]
    simp
  · obtain ⟨k, hk⟩ := Int.eq_ofNat_of_zero_le (a := -p) (by omega)
    have := (hm.short.loop.far_neg h2 hL hμ (hneg hn) k).2 x hx
    have hpk : p = -(k : Int) := by omega
    rw [r2, hpk, zpow_neg, zpow_natCast, ← inv_pow, this]
    simp

/-- C54: twisting `p` times adds `p` to the slope, unless this takes the slope through zero.  (In particular one twist adds one when the slope is not between -1 and 1, as
curve.py:136-137 says.) -/
theorem C54_slope (P : Lam Int → Py LamClass) (c : Lam Int) (p : Int) (t : Twist) (hc : c.NoArcs) (ht : Twist.create P c p = .ok t) (L M : Lam R) (hL : L.NoArcs)
    (hLt : L.tri = c.tri) (num den : R) (hs : c.slope P L = .ok (num, den)) (hn : (0 < num ∧ 0 ≤ num + (p : R) * den) ∨ (num < 0 ∧ num + (p : R) * den ≤ 0))
    (hM : t.applyLam P L = .ok M) : c.slope P M = .ok (num + (p : R) * den, den) := by
  obtain ⟨r1, r2, a, b, e, X, v, K, hm⟩ := Twist.create_spec hc ht
  obtain ⟨σ, h1, h2⟩ := hm.action (R := R)
  subst r1
  obtain ⟨L', rfl⟩ := hL.on hLt
  obtain ⟨hd, hi, μ, hμ, hden, hpos, hneg⟩ := hm.slope_pos hL hs
  have hz := Twist.Made.min_zpow hm.short.loop h2 t.power L' hL hμ
  cases (hm.applyLam h1 h2 hL).symm.trans hM
  obtain ⟨τ, τ0, τ1, τ2, s, hsc, hslope⟩ := hm.short.slope hm.cls hm.per hm.par hL hμ (by rw [← hden]; exact hd.ne')
  rw [hs] at hslope
  injection hslope with hslope
  injection hslope with e1 e2
  have key : ∃ k : Nat, (p = (k : Int)) ∨ p = -(k : Int) := ⟨p.natAbs, by omega⟩
  have zneg : ∀ k : Nat, (σ⁻¹ ^ k : Equiv.Perm _) = σ ^ (-(k : Int)) := fun k => by rw [zpow_neg, zpow_natCast, inv_pow]
  obtain ⟨k, hk⟩ := key
  have hkd : (0 : R) ≤ (k : R) * den := mul_nonneg (Nat.cast_nonneg k) hd.le
  rcases hn with ⟨n1, n2⟩ | ⟨n1, n2⟩
  · have hτ : τ = num := by
      rcases hsc with ⟨q, _⟩ | ⟨q, _⟩ <;> rw [q] at e1 <;> linarith
    have hsh : Shifts X L' ((p : R) * den) ((σ ^ t.power) L') := by
      rcases hk with hk | hk
      · have := hm.short.loop.far_pos h2 hL hμ (hpos n1) k
        rw [← zpow_natCast, ← hden] at this
        rw [r2, hk]; push_cast; exact this
      · have hpk : (p : R) = -(k : R) := by rw [hk]; push_cast; rfl
        rw [hpk] at n2
        have hb := hm.short.loop.back_toward h2 k hL hμ (hpos n1) (fun x hx => by
          have := τ1 x hx
          rw [← hden]
          linarith)
        rw [zneg, ← hden] at hb
        rw [r2, hpk, neg_mul, hk]; exact hb
    have := hm.slope_shift hL hz.1 hμ hz.2.1 hs hden hd hsh (.inl ⟨n1, n2⟩)
    rw [this, if_pos n1]
  · have hτ : τ = -num := by
      rcases hsc with ⟨q, _⟩ | ⟨q, _⟩ <;> rw [q] at e1 <;> linarith
    have hsh : Shifts X L' (-((p : R) * den)) ((σ ^ t.power) L') := by
      rcases hk with hk | hk
      · have hpk : (p : R) = (k : R) := by rw [hk]; push_cast; rfl
        rw [hpk] at n2
        have hb := hm.short.loop.toward h2 k L' hL hμ (hneg n1) (fun x hx _ => by
          have := τ1 x hx
          rw [← hden]
          linarith)
        rw [← zpow_natCast, ← hden] at hb
        rw [r2, hpk, hk]; exact hb
      · have := hm.short.loop.far_neg h2 hL hμ (hneg n1) k
        rw [zneg, ← hden] at this
        have hpk : (p : R) = -(k : R) := by rw [hk]; push_cast; rfl
        rw [r2, hpk, neg_mul, _root_.neg_neg, hk]; exact this
    have := hm.slope_shift hL hz.1 hμ hz.2.1 hs hden hd hsh (.inr ⟨n1, by linarith⟩)
    rw [this, if_neg (not_lt.2 n1.le), sub_neg_eq_add]

end

/-! ## C55 -/

/-- C55: on homology the twist gives what the power of the flips and isometry gives. -/
theorem C55_homology (P : Lam Int → Py LamClass) (c : Lam Int) (p : Int) (t : Twist) (hc : c.NoArcs) (ht : Twist.create P c p = .ok t) :
    ∃ g, t.flipMapping = .ok g ∧ ∀ x : Hom, x.WellFormed → x.tri = c.tri → ∃ y z, t.applyHom P x = .ok y ∧ g.applyHom x = .ok z ∧ y.Homologous z := by
  obtain ⟨r1, r2, a, b, e, X, v, K, hm⟩ := Twist.create_spec hc ht
  obtain ⟨g, g1, g2⟩ := hm.hom
  refine ⟨g, g1, ?_⟩
  intro x hx hxt
  rw [← r1] at hxt
  obtain ⟨z, z1, z2⟩ := g2 ⟨x, hx, hxt⟩
  refine ⟨_, z, hm.applyHom ⟨x, hx, hxt⟩, z1, ?_⟩
  have h2 := (hm.short.loop.added t.power ⟨x, hx, hxt⟩).2
  refine ⟨z2.1.symm, ?_⟩
  have := z2.2.neg
  rw [z2.1] at this
  exact this.congr (fun u _ => by ring)

/-! ## Examples -/

/-- the curve on the torus disjoint from the edge 0 -/
def torusShort : Lam Int := ⟨torus, [0, 1, 1], .curve⟩

/-- promotion does not matter for the examples -/
def anyClass : Lam Int → Py LamClass := fun _ => .ok .curve

theorem torusShort_noArcs : torusShort.NoArcs := by
  rw [Lam.noArcs_iff, Lam.consistent_iff]
  refine ⟨⟨⟨torus_valid, by decide⟩, ?_⟩, ?_⟩
  · intro a b c h
    rcases h with h | h | h <;> simp [torusShort, torus] at h <;>
      rcases h with ⟨rfl, rfl, rfl⟩ | ⟨rfl, rfl, rfl⟩ <;> intro _ _ _ <;> decide
  · intro a b c h
    rcases h with h | h | h <;> simp [torusShort, torus] at h <;>
      rcases h with ⟨rfl, rfl, rfl⟩ | ⟨rfl, rfl, rfl⟩ <;> decide

theorem torusShort_parallel : torusShort.parallelEdge anyClass = .ok 0 := by decide +kernel

/-- a sphere with four punctures, cut by a loop into two pairs of punctures; one triangle is folded -/
def sphereLoop : Triangulation := ⟨[⟨-6, -3, -5⟩, ⟨-4, 5, 4⟩, ⟨-2, -1, 1⟩, ⟨0, 2, 3⟩]⟩

/-- the curve parallel to the loop -/
def sphereShort : Lam Int := ⟨sphereLoop, [0, 0, 1, 1, 1, 0], .curve⟩

theorem sphereShort_noArcs : sphereShort.NoArcs := by
  rw [Lam.noArcs_iff, Lam.consistent_iff]
  refine ⟨⟨⟨⟨by decide, by decide, by decide⟩, by decide⟩, ?_⟩, ?_⟩
  · intro a b c h
    rcases h with h | h | h <;> simp [sphereShort, sphereLoop] at h <;>
      rcases h with ⟨rfl, rfl, rfl⟩ | ⟨rfl, rfl, rfl⟩ | ⟨rfl, rfl, rfl⟩ | ⟨rfl, rfl, rfl⟩ <;> intro _ _ _ <;> decide
  · intro a b c h
    rcases h with h | h | h <;> simp [sphereShort, sphereLoop] at h <;>
      rcases h with ⟨rfl, rfl, rfl⟩ | ⟨rfl, rfl, rfl⟩ | ⟨rfl, rfl, rfl⟩ | ⟨rfl, rfl, rfl⟩ <;> decide

theorem sphereShort_parallel : sphereShort.parallelEdge anyClass = .ok 0 := by decide +kernel

/-- the hypotheses of C52 to C55 are met -/
example : ∃ t, Twist.create anyClass torusShort (-5) = .ok t :=
  let ⟨t, h, _⟩ := C52_created anyClass torusShort (-5) 0 torusShort_noArcs rfl torusShort_parallel (by decide)
  ⟨t, h⟩

example : ∃ t, Twist.create anyClass sphereShort 7 = .ok t :=
  let ⟨t, h, _⟩ := C52_created anyClass sphereShort 7 0 sphereShort_noArcs rfl sphereShort_parallel (by decide)
  ⟨t, h⟩

/-- a curve that meets `torusShort` once, with slope 3, and one with slope -4 -/
example : torusShort.slope anyClass (⟨torus, [1, 4, 3], .curve⟩ : Lam Int) = .ok (3, 1) ∧ torusShort.slope anyClass (⟨torus, [1, 4, 5], .curve⟩ : Lam Int) = .ok (-4, 1) := by
  decide +kernel

example : (do let t ← Twist.create anyClass torusShort 5; t.applyLam anyClass (⟨torus, [1, 0, 1], .curve⟩ : Lam Int)) = .ok ⟨torus, [1, 5, 4], .curve⟩ := by decide +kernel

example : (do let t ← Twist.create anyClass torusShort 5; t.applyHom anyClass ⟨torus, [1, 4, 5]⟩) = .ok ⟨torus, [-4, 4, 5]⟩ := by decide +kernel

end Curver
