import Verif.Proofs.FlipWeight

/-!
# Parts of a lamination, in a square

The points in which the lamination meets an edge are numbered from one end; `f t` is how many of the first `t` of them belong to the part.  When the lamination has arcs
parallel to the edge instead, these are numbered.
-/

namespace Curver

/-- an edge with `u` points, `v` of them in the part, counted from either end -/
structure Side (u v : Int) (f g : Int → Int) : Prop where
  nonneg : 0 ≤ u
  zero : f 0 = 0
  total : f u = v
  mono : ∀ s t, 0 ≤ s → s ≤ t → t ≤ u → f s ≤ f t ∧ f t - f s ≤ t - s
  back : ∀ t, 0 ≤ t → t ≤ u → g t = v - f (u - t)

namespace Side
variable {u v u' v' : Int} {f g f' g' : Int → Int}

theorem symm (h : Side u v f g) : Side u v g f := by
  have hu := h.nonneg
  refine ⟨hu, ?_, ?_, ?_, ?_⟩
  · rw [h.back 0 le_rfl hu, sub_zero, h.total, sub_self]
  · rw [h.back u hu le_rfl, sub_self, h.zero, sub_zero]
  · intro s t hs hst ht
    rw [h.back s hs (by omega), h.back t (by omega) ht]
    have := h.mono (u - t) (u - s) (by omega) (by omega) (by omega)
    omega
  · intro t ht hu'
    rw [h.back (u - t) (by omega) (by omega)]
    have : u - (u - t) = t := by omega
    rw [this]; omega

theorem bounds (h : Side u v f g) {t : Int} (h0 : 0 ≤ t) (ht : t ≤ u) : 0 ≤ f t ∧ f t ≤ t ∧ f t ≤ v ∧ v - f t ≤ u - t := by
  have h1 := h.mono 0 t le_rfl h0 ht
  have h2 := h.mono t u h0 ht le_rfl
  rw [h.zero] at h1
  rw [h.total] at h2
  omega

/-- the first `m` points of one edge followed by the first `n` points of another one -/
theorem glue (h : Side u v f g) (h' : Side u' v' f' g') {m n : Int} (hm : 0 ≤ m) (hm' : m ≤ u) (hn : 0 ≤ n) (hn' : n ≤ u') :
    ∃ φ ψ, Side (m + n) (f m + f' n) φ ψ ∧ (∀ t, t ≤ m → φ t = f t) ∧ (∀ t, t ≤ n → ψ t = f' t) := by
  let φ : Int → Int := fun t => if t ≤ m then f t else f m + f' n - f' (m + n - t)
  have f1 : ∀ t, t ≤ m → φ t = f t := fun t ht => if_pos ht
  have f2 : ∀ t, m ≤ t → φ t = f m + f' n - f' (m + n - t) := by
    intro t ht
    by_cases q : t ≤ m
    · have q' : t = m := le_antisymm q ht
      rw [f1 t q, q', show m + n - m = n by omega]
      omega
    · exact if_neg q
  refine ⟨φ, fun t => f m + f' n - φ (m + n - t), ⟨by omega, ?_, ?_, ?_, fun t _ _ => rfl⟩, f1, ?_⟩
  · rw [f1 0 hm, h.zero]
  · rw [f2 _ (by omega), sub_self, h'.zero, sub_zero]
  · intro s t hs hst ht
    rcases le_total t m with q | q
    · rw [f1 s (by omega), f1 t q]
      exact h.mono s t hs hst (by omega)
    · rw [f2 t q]
      rcases le_total s m with q' | q'
      · rw [f1 s q']
        have x1 := h.mono s m hs q' (by omega)
        have x2 := h'.mono (m + n - t) n (by omega) (by omega) (by omega)
        omega
      · rw [f2 s q']
        have x2 := h'.mono (m + n - t) (m + n - s) (by omega) (by omega) (by omega)
        omega
  · intro t ht
    change f m + f' n - φ (m + n - t) = f' t
    rw [f2 _ (by omega), show m + n - (m + n - t) = t by omega]
    omega

/-- some consecutive points -/
theorem slice (h : Side u v f g) {m n : Int} (hm : 0 ≤ m) (hn : 0 ≤ n) (hmn : m + n ≤ u) : ∃ φ ψ, Side n (f (m + n) - f m) φ ψ := by
  refine ⟨fun t => f (m + t) - f m, fun t => f (m + n) - f m - (f (m + (n - t)) - f m), hn, by simp, rfl, ?_, fun t _ _ => rfl⟩
  intro s t hs hst ht
  have := h.mono (m + s) (m + t) (by omega) (by omega) (by omega)
  omega

end Side

/-- the numbers of strands around the corners of a triangle with sides `x`, `y`, `z`: `p` between `z` and `x`, `q` between `x` and `y`, `r` between `y` and `z` -/
structure Corners (x y z p q r : Int) : Prop where
  np : 0 ≤ p
  nq : 0 ≤ q
  nr : 0 ≤ r
  fit : (x = p + q ∧ y = q + r ∧ z = r + p) ∨ (y + z ≤ x ∧ p = z ∧ q = y ∧ r = 0) ∨ (z + x ≤ y ∧ q = x ∧ r = z ∧ p = 0) ∨ (x + y ≤ z ∧ r = y ∧ p = x ∧ q = 0)

theorem Corners.mirror {x y z p q r : Int} (h : Corners x y z p q r) : Corners x z y q p r := by
  obtain ⟨h1, h2, h3, h4⟩ := h
  exact ⟨h2, h1, h3, by omega⟩

/-- the square with the diagonal `e` from `P` to `Q` and the sides `a` from `Q` to `R`, `b` from `R` to `P`, `c` from `P` to `S`, `d` from `S` to `Q` -/
structure Square (a b c d e p1 q1 r1 p2 q2 s2 A B C D E : Int) (aQ aR bR bP cP cS dS dQ eP eQ : Int → Int) : Prop where
  c1 : Corners (max e 0) a b p1 q1 r1
  c2 : Corners (max e 0) c d q2 p2 s2
  sa : Side a A aQ aR
  sb : Side b B bR bP
  sc : Side c C cP cS
  sd : Side d D dS dQ
  se : Side |e| |E| eP eQ
  pos : 0 ≤ e → 0 ≤ E
  neg : e ≤ 0 → E ≤ 0
  P1 : ∀ t, 0 ≤ t → t ≤ p1 → eP t = bP t
  Q1 : ∀ t, 0 ≤ t → t ≤ q1 → aQ t = eQ t
  R1 : ∀ t, 0 ≤ t → t ≤ r1 → bR t = aR t
  P2 : ∀ t, 0 ≤ t → t ≤ p2 → cP t = eP t
  Q2 : ∀ t, 0 ≤ t → t ≤ q2 → eQ t = dQ t
  S2 : ∀ t, 0 ≤ t → t ≤ s2 → dS t = cS t

/-- the square after the flip: `x` goes from `R` to `S` -/
structure Flipped (a b c d e x A B C D E : Int) (aQ aR bR bP cP cS dS dQ : Int → Int) (X : Int) (f g : Int → Int) : Prop where
  side : Side |x| |X| f g
  pos : 0 ≤ x → 0 ≤ X
  neg : x ≤ 0 → X ≤ 0
  R1 : ∀ t, 0 ≤ t → t ≤ max x 0 → t ≤ a → 2 * t ≤ max x 0 + a - d → f t = aR t
  S1 : ∀ t, 0 ≤ t → t ≤ d → t ≤ max x 0 → 2 * t ≤ d + max x 0 - a → dS t = g t
  Q1 : ∀ t, 0 ≤ t → t ≤ a → t ≤ d → 2 * t ≤ a + d - max x 0 → aQ t = dQ t
  S2 : ∀ t, 0 ≤ t → t ≤ max x 0 → t ≤ c → 2 * t ≤ max x 0 + c - b → g t = cS t
  R2 : ∀ t, 0 ≤ t → t ≤ b → t ≤ max x 0 → 2 * t ≤ b + max x 0 - c → bR t = f t
  P2 : ∀ t, 0 ≤ t → t ≤ c → t ≤ b → 2 * t ≤ c + b - max x 0 → cP t = bP t
  flip : FlipCase A B C D E X
  rest : FlipCase (a - A) (b - B) (c - C) (d - D) (e - E) (x - X)

variable {a b c d e x p1 q1 r1 p2 q2 s2 A B C D E X : Int} {aQ aR bR bP cP cS dS dQ eP eQ f g : Int → Int}

/-- the square in the mirror -/
theorem Square.mirror (h : Square a b c d e p1 q1 r1 p2 q2 s2 A B C D E aQ aR bR bP cP cS dS dQ eP eQ) :
    Square b a d c e q1 p1 r1 q2 p2 s2 B A D C E bP bR aR aQ dQ dS cS cP eQ eP := by
  obtain ⟨c1, c2, ha, hb, hc, hd', he, hpos, hneg, P1, Q1, R1, P2, Q2, S2⟩ := h
  exact ⟨c1.mirror, c2.mirror, hb.symm, ha.symm, hd'.symm, hc.symm, he.symm, hpos, hneg, fun t h0 ht => (Q1 t h0 ht).symm, fun t h0 ht => (P1 t h0 ht).symm,
    fun t h0 ht => (R1 t h0 ht).symm, fun t h0 ht => (Q2 t h0 ht).symm, fun t h0 ht => (P2 t h0 ht).symm, fun t h0 ht => (S2 t h0 ht).symm⟩

theorem FlipCase.mirror (h : FlipCase a b c d e x) : FlipCase b a d c e x := by
  cases h with
  | aab h1 h2 h3 h => exact .aab (by omega) (by omega) (by omega) (by omega)
  | acd h1 h2 h3 h => exact .acd (by omega) (by omega) (by omega) (by omega)
  | dad h1 h2 h3 h => exact .dbc (by omega) (by omega) (by omega) (by omega)
  | dbc h1 h2 h3 h => exact .dad (by omega) (by omega) (by omega) (by omega)
  | nad h1 h2 h3 h => exact .nbc (by omega) (by omega) (by omega) (by omega)
  | nbc h1 h2 h3 h => exact .nad (by omega) (by omega) (by omega) (by omega)
  | nab h1 h2 h3 h => exact .nab (by omega) (by omega) (by omega) (by omega)
  | ncd h1 h2 h3 h => exact .ncd (by omega) (by omega) (by omega) (by omega)
  | xac h1 h2 h3 h4 h5 h6 h7 h => exact .xbd (by omega) (by omega) (by omega) (by omega) (by omega) (by omega) (by omega) (by omega)
  | xbd h1 h2 h3 h4 h5 h6 h7 h => exact .xac (by omega) (by omega) (by omega) (by omega) (by omega) (by omega) (by omega) (by omega)
  | pac h1 h2 h3 h4 h => exact .pbd (by omega) (by omega) (by omega) (by omega) (by omega)
  | pbd h1 h2 h3 h4 h => exact .pac (by omega) (by omega) (by omega) (by omega) (by omega)
  | mac h1 h2 h3 h => exact .mbd (by omega) (by omega) (by omega) (by omega)
  | mbd h1 h2 h3 h => exact .mac (by omega) (by omega) (by omega) (by omega)

theorem Flipped.mirror (h : Flipped b a d c e x B A D C E bP bR aR aQ dQ dS cS cP X f g) : Flipped a b c d e x A B C D E aQ aR bR bP cP cS dS dQ X f g :=
  ⟨h.side, h.pos, h.neg, fun t h0 h1 h2 h3 => (h.R2 t h0 h2 h1 (by omega)).symm, fun t h0 h1 h2 h3 => (h.S2 t h0 h2 h1 (by omega)).symm,
    fun t h0 h1 h2 h3 => (h.P2 t h0 h2 h1 (by omega)).symm, fun t h0 h1 h2 h3 => (h.S1 t h0 h2 h1 (by omega)).symm,
    fun t h0 h1 h2 h3 => (h.R1 t h0 h2 h1 (by omega)).symm, fun t h0 h1 h2 h3 => (h.Q1 t h0 h2 h1 (by omega)).symm, h.flip.mirror, h.rest.mirror⟩

/-- the square upside down -/
theorem Square.rot (h : Square a b c d e p1 q1 r1 p2 q2 s2 A B C D E aQ aR bR bP cP cS dS dQ eP eQ) :
    Square c d a b e q2 p2 s2 q1 p1 r1 C D A B E cP cS dS dQ aQ aR bR bP eQ eP := by
  obtain ⟨c1, c2, ha, hb, hc, hd', he, hpos, hneg, P1, Q1, R1, P2, Q2, S2⟩ := h
  exact ⟨c2, c1, hc, hd', ha, hb, he.symm, hpos, hneg, Q2, P2, S2, Q1, P1, R1⟩

theorem Flipped.rot (h : Flipped c d a b e x C D A B E cP cS dS dQ aQ aR bR bP X f g) : Flipped a b c d e x A B C D E aQ aR bR bP cP cS dS dQ X g f :=
  ⟨h.side.symm, h.pos, h.neg, h.S2, h.R2, h.P2, h.R1, h.S1, h.Q1, h.flip.rot, h.rest.rot⟩

/-- the strands around the corners that are in the part, next to all of them -/
structure Counts (x y z p q r X Y Z P Q R : Int) : Prop where
  np : 0 ≤ P ∧ P ≤ p
  nq : 0 ≤ Q ∧ Q ≤ q
  nr : 0 ≤ R ∧ R ≤ r
  fit : (x = p + q ∧ y = q + r ∧ z = r + p ∧ X = P + Q ∧ Y = Q + R ∧ Z = R + P) ∨
    (y + z ≤ x ∧ p = z ∧ q = y ∧ r = 0 ∧ P = Z ∧ Q = Y ∧ R = 0 ∧ Y + Z ≤ X ∧ X - Y - Z ≤ x - y - z) ∨
    (z + x ≤ y ∧ q = x ∧ r = z ∧ p = 0 ∧ Q = X ∧ R = Z ∧ P = 0 ∧ Z + X ≤ Y ∧ Y - Z - X ≤ y - z - x) ∨
    (x + y ≤ z ∧ r = y ∧ p = x ∧ q = 0 ∧ R = Y ∧ P = X ∧ Q = 0 ∧ X + Y ≤ Z ∧ Z - X - Y ≤ z - x - y)

/-- one side is long -/
theorem counts_long {x y z X Y Z : Int} {xp xq yq yr zr zp : Int → Int} (hx : Side x X xp xq) (hy : Side y Y yq yr) (hz : Side z Z zr zp)
    (hp : ∀ t, 0 ≤ t → t ≤ z → xp t = zp t) (hq : ∀ t, 0 ≤ t → t ≤ y → yq t = xq t) (h : y + z ≤ x) : xp z = Z ∧ yq y = Y ∧ Y + Z ≤ X ∧ X - Y - Z ≤ x - y - z := by
  have hy0 := hy.nonneg
  have hz0 := hz.nonneg
  have e1 := hp z hz0 le_rfl
  have e2 := hq y hy0 le_rfl
  have e3 := hx.mono z (x - y) hz0 (by omega) (by omega)
  have e4 := hx.back y hy0 (by omega)
  have e5 := hy.total
  have e6 := hz.symm.total
  omega

theorem Corners.counts {x y z p q r X Y Z : Int} {xp xq yq yr zr zp : Int → Int} (h : Corners x y z p q r) (hx : Side x X xp xq) (hy : Side y Y yq yr) (hz : Side z Z zr zp)
    (hp : ∀ t, 0 ≤ t → t ≤ p → xp t = zp t) (hq : ∀ t, 0 ≤ t → t ≤ q → yq t = xq t) (hr : ∀ t, 0 ≤ t → t ≤ r → zr t = yr t) :
    Counts x y z p q r X Y Z (xp p) (yq q) (zr r) := by
  have x0 := hx.nonneg
  have y0 := hy.nonneg
  have z0 := hz.nonneg
  obtain ⟨h1, h2, h3, h4⟩ := h
  have b1 := hx.bounds h1 (by omega)
  have b2 := hy.bounds h2 (by omega)
  have b3 := hz.bounds h3 (by omega)
  refine ⟨⟨b1.1, b1.2.1⟩, ⟨b2.1, b2.2.1⟩, ⟨b3.1, b3.2.1⟩, ?_⟩
  rcases h4 with h4 | ⟨h4, rfl, rfl, rfl⟩ | ⟨h4, rfl, rfl, rfl⟩ | ⟨h4, rfl, rfl, rfl⟩
  · have e1 := hx.back q h2 (by omega)
    have e2 := hy.back r h3 (by omega)
    have e3 := hz.back p h1 (by omega)
    rw [show x - q = p by omega] at e1
    rw [show y - r = q by omega] at e2
    rw [show z - p = r by omega] at e3
    have e4 := hp p h1 le_rfl
    have e5 := hq q h2 le_rfl
    have e6 := hr r h3 le_rfl
    left
    omega
  · have := counts_long hx hy hz hp hq h4
    have e := hz.zero
    right; left
    omega
  · have := counts_long hy hz hx hq hr h4
    have e := hx.zero
    right; right; left
    omega
  · have := counts_long hz hx hy hr hp h4
    have e := hy.zero
    right; right; right
    omega

theorem Side.cmp {u v : Int} {f g : Int → Int} (h : Side u v f g) {s t : Int} (hs : 0 ≤ s) (hs' : s ≤ u) (ht : 0 ≤ t) (ht' : t ≤ u) :
    (s ≤ t → f s ≤ f t ∧ f t - f s ≤ t - s) ∧ (t ≤ s → f t ≤ f s ∧ f s - f t ≤ s - t) :=
  ⟨fun q => h.mono s t hs q ht', fun q => h.mono t s ht q hs'⟩

/-- what the part looks like in the two triangles, when `e` is crossed -/
theorem Square.counts (h : Square a b c d e p1 q1 r1 p2 q2 s2 A B C D E aQ aR bR bP cP cS dS dQ eP eQ) (h0 : 0 ≤ e) :
    Side e E eP eQ ∧ Counts e a b p1 q1 r1 E A B (eP p1) (eQ q1) (bR r1) ∧ Counts e c d q2 p2 s2 E C D (eQ q2) (eP p2) (dS s2) ∧
    ((p1 ≤ p2 → eP p1 ≤ eP p2 ∧ eP p2 - eP p1 ≤ p2 - p1) ∧ (p2 ≤ p1 → eP p2 ≤ eP p1 ∧ eP p1 - eP p2 ≤ p1 - p2)) ∧
    ((q1 ≤ q2 → eQ q1 ≤ eQ q2 ∧ eQ q2 - eQ q1 ≤ q2 - q1) ∧ (q2 ≤ q1 → eQ q2 ≤ eQ q1 ∧ eQ q1 - eQ q2 ≤ q1 - q2)) ∧
    ((p1 + q2 ≤ e → eP p1 + eQ q2 ≤ E ∧ E - eP p1 - eQ q2 ≤ e - p1 - q2) ∧ (e ≤ p1 + q2 → E ≤ eP p1 + eQ q2 ∧ eP p1 + eQ q2 - E ≤ p1 + q2 - e)) ∧
    ((p2 + q1 ≤ e → eP p2 + eQ q1 ≤ E ∧ E - eP p2 - eQ q1 ≤ e - p2 - q1) ∧ (e ≤ p2 + q1 → E ≤ eP p2 + eQ q1 ∧ eP p2 + eQ q1 - E ≤ p2 + q1 - e)) := by
  have hE := h.pos h0
  have hs := h.se
  rw [abs_of_nonneg h0, abs_of_nonneg hE] at hs
  have c1 := h.c1
  have c2 := h.c2
  rw [max_eq_left h0] at c1 c2
  have k1 := c1.counts hs h.sa h.sb h.P1 h.Q1 h.R1
  have k2 := c2.counts hs.symm h.sc h.sd h.Q2 h.P2 h.S2
  have e1 := h.Q1 q1 c1.nq le_rfl
  have e2 := h.P2 p2 c2.nq le_rfl
  rw [e1] at k1
  rw [e2] at k2
  have a0 := h.sa.nonneg
  have b0 := h.sb.nonneg
  have c0 := h.sc.nonneg
  have d0 := h.sd.nonneg
  have u1 : p1 + q1 ≤ e ∧ 0 ≤ p1 ∧ 0 ≤ q1 := by obtain ⟨m1, m2, m3, m4⟩ := c1; omega
  have u2 : p2 + q2 ≤ e ∧ 0 ≤ p2 ∧ 0 ≤ q2 := by obtain ⟨m1, m2, m3, m4⟩ := c2; omega
  have v1 := hs.cmp (s := p1) (t := p2) (by omega) (by omega) (by omega) (by omega)
  have v2 := hs.symm.cmp (s := q1) (t := q2) (by omega) (by omega) (by omega) (by omega)
  have v3 := hs.cmp (s := p1) (t := e - q2) (by omega) (by omega) (by omega) (by omega)
  have v4 := hs.cmp (s := p2) (t := e - q1) (by omega) (by omega) (by omega) (by omega)
  have w1 := hs.back q1 (by omega) (by omega)
  have w2 := hs.back q2 (by omega) (by omega)
  refine ⟨hs, k1, k2, v1, v2, ?_, ?_⟩ <;> omega

end Curver
