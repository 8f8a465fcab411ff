import Verif.Proofs.PartSquare

/-!
# Parts of a lamination and flips
-/

namespace Curver
variable {a b c d e x p1 q1 r1 p2 q2 s2 A B C D E X : Int} {aQ aR bR bP cP cS dS dQ eP eQ f g : Int → Int}

set_option maxHeartbeats 1000000 in
/-- strands go from `b` to `d` -/
theorem Square.bd (h : Square a b c d e p1 q1 r1 p2 q2 s2 A B C D E aQ aR bR bP cP cS dS dQ eP eQ) (h0 : 0 ≤ e) (hA : a ≤ b + e) (hC : c ≤ d + e) (he : e ≤ p1 + q2)
    (hx : x = b + d - e) : ∃ X f g, Flipped a b c d e x A B C D E aQ aR bR bP cP cS dS dQ X f g := by
  obtain ⟨hs, ⟨n1, n2, n3, n4⟩, ⟨m1, m2, m3, m4⟩, -, -, ⟨-, v3⟩, -⟩ := h.counts h0
  replace v3 := v3 he
  obtain ⟨c1, c2, sa, sb, sc, sd, -, hpos, hneg, P1, Q1, R1, P2, Q2, S2⟩ := h
  clear c1 c2
  have a0 := sa.nonneg
  have b0 := sb.nonneg
  have c0 := sc.nonneg
  have d0 := sd.nonneg
  have K : (E ≤ B + D ∧ C + E ≤ 2 * B + D ∧ A + E ≤ 2 * D + B ∧ A + C ≤ B + D ∧ A ≤ B + E ∧ C ≤ D + E ∧ 0 ≤ E) ∧
      e - E ≤ b - B + (d - D) ∧ c - C + (e - E) ≤ 2 * (b - B) + (d - D) ∧ a - A + (e - E) ≤ 2 * (d - D) + (b - B) ∧ a - A + (c - C) ≤ b - B + (d - D) ∧
        a - A ≤ b - B + (e - E) ∧ c - C ≤ d - D + (e - E) ∧ 0 ≤ e - E := by
    clear hx hs sa sb sc sd P1 Q1 R1 P2 Q2 S2 hneg
    have hE := hpos h0
    rcases n4 with n4 | n4 | n4 | n4 <;> rcases m4 with m4 | m4 | m4 | m4 <;> refine ⟨⟨?_, ?_, ?_, ?_, ?_, ?_, ?_⟩, ?_, ?_, ?_, ?_, ?_, ?_, ?_⟩ <;> omega
  have he1 : p1 + q1 ≤ e ∧ p2 + q2 ≤ e := by clear v3; omega
  have hm : 0 ≤ b - e + q2 ∧ b - e + q2 ≤ b := by omega
  have hn : 0 ≤ d - q2 ∧ d - q2 ≤ d := by omega
  obtain ⟨φ, ψ, hφ, f1, g1⟩ := sb.glue sd hm.1 hm.2 hn.1 hn.2
  rw [show b - e + q2 + (d - q2) = x by omega] at hφ
  have e1 := sb.symm.back (b - e + q2) hm.1 hm.2
  rw [show b - (b - e + q2) = e - q2 by omega, ← P1 _ (by omega) (by omega)] at e1
  have e2 := sd.symm.back (d - q2) hn.1 hn.2
  rw [show d - (d - q2) = q2 by omega, ← Q2 _ (by omega) (by omega)] at e2
  have e3 := hs.back q2 (by omega) (by omega)
  have hX : bR (b - e + q2) + dS (d - q2) = B + D - E := by omega
  rw [hX] at hφ
  have hx0 : 0 ≤ x := by omega
  have hX0 : 0 ≤ B + D - E := by have := hφ.bounds hx0 le_rfl; omega
  have hmax : max x 0 = x := by omega
  refine ⟨B + D - E, φ, ψ, by rw [abs_of_nonneg hx0, abs_of_nonneg hX0]; exact hφ, fun _ => hX0, ?_, ?_, ?_, ?_, ?_, ?_, ?_, ?_, ?_⟩
  · intro hx1
    have := hφ.bounds hx0 le_rfl
    have := hφ.total
    omega
  · intro t h1 h2 h3 h4
    rw [f1 t (by omega), R1 t h1 (by omega)]
  · intro t h1 h2 h3 h4
    rcases le_total t (d - q2) with q | q
    · exact (g1 t q).symm
    · rw [hφ.back t h1 (by omega), f1 _ (by omega)]
      have y1 := sb.symm.back (x - t) (by omega) (by omega)
      rw [show b - (x - t) = e - d + t by omega, ← P1 _ (by omega) (by omega)] at y1
      have y2 := sd.symm.back t h1 h2
      rw [← Q2 _ (by omega) (by omega)] at y2
      have y3 := hs.back (d - t) (by omega) (by omega)
      rw [show e - (d - t) = e - d + t by omega] at y3
      omega
  · intro t h1 h2 h3 h4
    rw [Q1 t h1 (by omega), Q2 t h1 (by omega)]
  · intro t h1 h2 h3 h4
    rw [g1 t (by omega), S2 t h1 (by omega)]
  · intro t h1 h2 h3 h4
    rw [f1 t (by omega)]
  · intro t h1 h2 h3 h4
    rw [P2 t h1 (by omega), P1 t h1 (by omega)]
  · obtain ⟨⟨y1, y2, y3, y4, y5, y6, y7⟩, -⟩ := K
    exact .xbd y1 y2 y3 y4 y5 y6 y7 rfl
  · obtain ⟨-, y1, y2, y3, y4, y5, y6, y7⟩ := K
    exact .xbd y1 y2 y3 y4 y5 y6 y7 (by omega)

set_option maxHeartbeats 1000000 in
/-- strands go from `a` to `b` and cut off `R` -/
theorem Square.ab (h : Square a b c d e p1 q1 r1 p2 q2 s2 A B C D E aQ aR bR bP cP cS dS dQ eP eQ) (h0 : 0 ≤ e) (h1 : e ≤ a + b) (h2 : 2 * c + a ≤ b + e)
    (h3 : 2 * d + b ≤ a + e) (hx : x + x = a + b - e) : ∃ X f g, Flipped a b c d e x A B C D E aQ aR bR bP cP cS dS dQ X f g := by
  obtain ⟨hs, ⟨n1, n2, n3, n4⟩, ⟨m1, m2, m3, m4⟩, v1, v2, -, -⟩ := h.counts h0
  obtain ⟨c1, c2, sa, sb, sc, sd, -, hpos, hneg, P1, Q1, R1, P2, Q2, S2⟩ := h
  clear c1 c2
  have a0 := sa.nonneg
  have b0 := sb.nonneg
  have c0 := sc.nonneg
  have d0 := sd.nonneg
  have k1 : a = q1 + r1 ∧ b = r1 + p1 ∧ e = p1 + q1 ∧ A = eQ q1 + bR r1 ∧ B = bR r1 + eP p1 ∧ E = eP p1 + eQ q1 := by
    clear v1 v2
    rcases n4 with n4 | n4 | n4 | n4 <;> omega
  clear n4
  have k2 : c = p2 ∧ d = q2 ∧ C = eP p2 ∧ D = eQ q2 ∧ p2 ≤ p1 ∧ q2 ≤ q1 := by
    clear v1 v2
    rcases m4 with m4 | m4 | m4 | m4 <;> omega
  clear m4
  obtain ⟨k21, k22, k23, k24, k25, k26⟩ := k2
  replace v1 := v1.2 k25
  replace v2 := v2.2 k26
  have hxr : x = r1 := by omega
  subst hxr
  obtain ⟨φ, ψ, hφ, f1, g1⟩ := sb.glue sb (m := x) (n := 0) (by omega) (by omega) le_rfl b0
  rw [add_zero, sb.zero, add_zero] at hφ
  have hmax : max x 0 = x := by omega
  refine ⟨bR x, φ, ψ, by rw [abs_of_nonneg n3.1, abs_of_nonneg (by omega)]; exact hφ, fun _ => n3.1, by omega, ?_, ?_, ?_, ?_, ?_, ?_, ?_, ?_⟩
  · intro t h1 h2 h3 h4
    rw [f1 t (by omega), R1 t h1 (by omega)]
  · intro t h1 h2 h3 h4
    have : t = 0 := by omega
    subst this
    rw [hφ.symm.zero, sd.zero]
  · intro t h1 h2 h3 h4
    rw [Q1 t h1 (by omega), Q2 t h1 (by omega)]
  · intro t h1 h2 h3 h4
    have : t = 0 := by omega
    subst this
    rw [hφ.symm.zero, sc.symm.zero]
  · intro t h1 h2 h3 h4
    rw [f1 t (by omega)]
  · intro t h1 h2 h3 h4
    rw [P2 t h1 (by omega), P1 t h1 (by omega)]
  · exact .nab (by omega) (by omega) (by omega) (by omega)
  · exact .nab (by omega) (by omega) (by omega) (by omega)

set_option maxHeartbeats 1000000 in
/-- arcs cross `a`, and others cross `d`, before they end at `Q` -/
theorem Square.ad (h : Square a b c d e p1 q1 r1 p2 q2 s2 A B C D E aQ aR bR bP cP cS dS dQ eP eQ) (h0 : 0 ≤ e) (h1 : b + e ≤ a) (h2 : c + e ≤ d)
    (hx : x = a + d - 2 * e) : ∃ X f g, Flipped a b c d e x A B C D E aQ aR bR bP cP cS dS dQ X f g := by
  obtain ⟨hs, ⟨n1, n2, n3, n4⟩, ⟨m1, m2, m3, m4⟩, -, -, -, -⟩ := h.counts h0
  obtain ⟨c1, c2, sa, sb, sc, sd, -, hpos, hneg, P1, Q1, R1, P2, Q2, S2⟩ := h
  clear c1 c2
  have a0 := sa.nonneg
  have b0 := sb.nonneg
  have c0 := sc.nonneg
  have d0 := sd.nonneg
  have k1 : q1 = e ∧ r1 = b ∧ p1 = 0 ∧ eQ q1 = E ∧ B + E ≤ A ∧ A - B - E ≤ a - b - e := by
    rcases n4 with n4 | n4 | n4 | n4 <;> omega
  clear n4
  have k2 : q2 = e ∧ s2 = c ∧ p2 = 0 ∧ eQ q2 = E ∧ C + E ≤ D ∧ D - C - E ≤ d - c - e := by
    rcases m4 with m4 | m4 | m4 | m4 <;> omega
  clear m4
  obtain ⟨φ, ψ, hφ, f1, g1⟩ := sa.symm.glue sd (m := a - e) (n := d - e) (by omega) (by omega) (by omega) (by omega)
  rw [show a - e + (d - e) = x by omega] at hφ
  have e1 := sa.back (a - e) (by omega) (by omega)
  rw [show a - (a - e) = q1 by omega, Q1 _ (by omega) le_rfl] at e1
  have e2 := sd.symm.back (d - e) (by omega) (by omega)
  rw [show d - (d - e) = q2 by omega, ← Q2 _ (by omega) le_rfl] at e2
  have hX : aR (a - e) + dS (d - e) = A + D - 2 * E := by omega
  rw [hX] at hφ
  have hx0 : 0 ≤ x := by omega
  have hX0 := (hφ.bounds hx0 le_rfl)
  rw [hφ.total] at hX0
  have hmax : max x 0 = x := by omega
  refine ⟨A + D - 2 * E, φ, ψ, by rw [abs_of_nonneg hx0, abs_of_nonneg hX0.1]; exact hφ, fun _ => hX0.1, by omega, ?_, ?_, ?_, ?_, ?_, ?_, ?_, ?_⟩
  · intro t h1 h2 h3 h4
    rw [f1 t (by omega)]
  · intro t h1 h2 h3 h4
    rw [g1 t (by omega)]
  · intro t h1 h2 h3 h4
    rw [Q1 t h1 (by omega), Q2 t h1 (by omega)]
  · intro t h1 h2 h3 h4
    rw [g1 t (by omega), S2 t h1 (by omega)]
  · intro t h1 h2 h3 h4
    rw [f1 t (by omega), R1 t h1 (by omega)]
  · intro t h1 h2 h3 h4
    have : t = 0 := by omega
    subst this
    rw [sc.zero, sb.symm.zero]
  · exact .nad (by omega) (by omega) (by omega) rfl
  · exact .nad (by omega) (by omega) (by omega) (by omega)

set_option maxHeartbeats 1000000 in
/-- `e` is crossed by arcs from `R` to `S` -/
theorem Square.rs (h : Square a b c d e p1 q1 r1 p2 q2 s2 A B C D E aQ aR bR bP cP cS dS dQ eP eQ) (h0 : 0 ≤ e) (h1 : a + b ≤ e) (h2 : c + d ≤ e) (h3 : d ≤ a)
    (hx0 : x ≤ 0) (hx : (c ≤ b ∧ x = a + b - e) ∨ (b ≤ c ∧ x = a + c - e)) : ∃ X f g, Flipped a b c d e x A B C D E aQ aR bR bP cP cS dS dQ X f g := by
  obtain ⟨hs, ⟨n1, n2, n3, n4⟩, ⟨m1, m2, m3, m4⟩, v1, v2, v3, v4⟩ := h.counts h0
  obtain ⟨c1, c2, sa, sb, sc, sd, -, hpos, hneg, P1, Q1, R1, P2, Q2, S2⟩ := h
  clear c1 c2
  have a0 := sa.nonneg
  have b0 := sb.nonneg
  have c0 := sc.nonneg
  have d0 := sd.nonneg
  have k1 : p1 = b ∧ q1 = a ∧ r1 = 0 ∧ eP p1 = B ∧ eQ q1 = A := by
    clear v1 v2 v3 v4
    rcases n4 with n4 | n4 | n4 | n4 <;> omega
  clear n4
  have k2 : p2 = c ∧ q2 = d ∧ s2 = 0 ∧ eP p2 = C ∧ eQ q2 = D := by
    clear v1 v2 v3 v4
    rcases m4 with m4 | m4 | m4 | m4 <;> omega
  clear m4
  replace v2 := v2.2 (by omega)
  replace v4 := fun q => v4.1 q
  have hmax : max x 0 = 0 := by omega
  have hE := hpos h0
  have key : ∃ m, 0 ≤ m ∧ m + -x ≤ e ∧ 0 ≤ eP (m + -x) - eP m ∧ eP (m + -x) - eP m ≤ -x ∧ FlipCase A B C D E (eP m - eP (m + -x)) ∧
      FlipCase (a - A) (b - B) (c - C) (d - D) (e - E) (x + (eP (m + -x) - eP m)) := by
    have e1 := hs.back q1 (by omega) (by omega)
    rcases hx with ⟨hc, hx⟩ | ⟨hc, hx⟩
    · refine ⟨p1, by omega, by omega, ?_⟩
      rw [show p1 + -x = e - q1 by omega]
      have e2 := hs.mono p1 (e - q1) (by omega) (by omega) (by omega)
      replace v1 := v1.2 (by omega)
      clear v3 v4
      exact ⟨by omega, by omega, .aab (by omega) (by omega) (by omega) (by omega), .aab (by omega) (by omega) (by omega) (by omega)⟩
    · refine ⟨p2, by omega, by omega, ?_⟩
      rw [show p2 + -x = e - q1 by omega]
      have e2 := hs.mono p2 (e - q1) (by omega) (by omega) (by omega)
      replace v1 := v1.1 (by omega)
      clear v3 v4
      exact ⟨by omega, by omega, .pac (by omega) (by omega) (by omega) (by omega) (by omega), .pac (by omega) (by omega) (by omega) (by omega) (by omega)⟩
  obtain ⟨m, m0, m1', m2', m3', F1, F2⟩ := key
  obtain ⟨φ, ψ, hφ⟩ := hs.slice m0 (show 0 ≤ -x by omega) m1'
  refine ⟨eP m - eP (m + -x), φ, ψ, ?_, by omega, by omega, ?_, ?_, ?_, ?_, ?_, ?_, F1, ?_⟩
  · rw [abs_of_nonpos hx0, abs_of_nonpos (by omega), neg_sub]; exact hφ
  · intro t h1 h2 h3 h4
    have : t = 0 := by omega
    subst this
    have z1 := hφ.nonneg
    rw [hφ.zero, sa.symm.zero]
  · intro t h1 h2 h3 h4
    have : t = 0 := by omega
    subst this
    rw [hφ.symm.zero, sd.zero]
  · intro t h1 h2 h3 h4
    rw [Q1 t h1 (by omega), Q2 t h1 (by omega)]
  · intro t h1 h2 h3 h4
    have : t = 0 := by omega
    subst this
    rw [hφ.symm.zero, sc.symm.zero]
  · intro t h1 h2 h3 h4
    have : t = 0 := by omega
    subst this
    rw [hφ.zero, sb.zero]
  · intro t h1 h2 h3 h4
    rw [P2 t h1 (by omega), P1 t h1 (by omega)]
  · rw [show x - (eP m - eP (m + -x)) = x + (eP (m + -x) - eP m) by omega]; exact F2

set_option maxHeartbeats 1000000 in
/-- there are arcs parallel to `e` -/
theorem Square.par (h : Square a b c d e p1 q1 r1 p2 q2 s2 A B C D E aQ aR bR bP cP cS dS dQ eP eQ) (h0 : e ≤ 0) (h1 : b ≤ a)
    (hx : (c ≤ d ∧ x = a + d - e) ∨ (d ≤ c ∧ x = a + c - e)) : ∃ X f g, Flipped a b c d e x A B C D E aQ aR bR bP cP cS dS dQ X f g := by
  obtain ⟨⟨n1, n2, n3, n4⟩, ⟨m1, m2, m3, m4⟩, sa, sb, sc, sd, se, hpos, hneg, P1, Q1, R1, P2, Q2, S2⟩ := h
  have a0 := sa.nonneg
  have b0 := sb.nonneg
  have c0 := sc.nonneg
  have d0 := sd.nonneg
  have hE := hneg h0
  rw [abs_of_nonpos h0, abs_of_nonpos hE] at se
  have hE2 := se.bounds (t := -e) (by omega) le_rfl
  rw [se.total] at hE2
  have k1 : r1 = b := by omega
  subst k1
  have k2 : (c ≤ d → s2 = c) ∧ (d ≤ c → s2 = d) := by omega
  clear n4 m4
  have w1 : B ≤ A ∧ A - B ≤ a - r1 := by
    have y1 := R1 r1 b0 le_rfl
    have y2 := sa.symm.bounds b0 h1
    rw [sb.total] at y1
    omega
  have w2 : 0 ≤ A ∧ A ≤ a := by have := sa.bounds a0 le_rfl; rw [sa.total] at this; omega
  have w3 : 0 ≤ B ∧ B ≤ r1 := by have := sb.bounds b0 le_rfl; rw [sb.total] at this; omega
  have w4 : 0 ≤ C ∧ C ≤ c := by have := sc.bounds c0 le_rfl; rw [sc.total] at this; omega
  have w5 : 0 ≤ D ∧ D ≤ d := by have := sd.bounds d0 le_rfl; rw [sd.total] at this; omega
  obtain ⟨φ, ψ, hφ, f1, g1⟩ := sa.symm.glue se a0 le_rfl (show 0 ≤ -e by omega) le_rfl
  rw [sa.symm.total, se.total] at hφ
  rcases hx with ⟨hc, hx⟩ | ⟨hc, hx⟩
  · have k3 := k2.1 hc
    subst k3
    have w6 : C ≤ D ∧ D - C ≤ d - s2 := by
      have y1 := S2 s2 c0 le_rfl
      have y2 := sd.bounds c0 hc
      rw [sc.symm.total] at y1
      omega
    obtain ⟨φ', ψ', hφ', f2, g2⟩ := hφ.glue sd hφ.nonneg le_rfl d0 le_rfl
    rw [hφ.total, sd.total, show a + -e + d = x by omega, show A + -E + D = A + D - E by omega] at hφ'
    have hx0 := hφ'.nonneg
    have hX0 : 0 ≤ A + D - E := by omega
    have hmax : max x 0 = x := by omega
    refine ⟨A + D - E, φ', ψ', by rw [abs_of_nonneg hx0, abs_of_nonneg hX0]; exact hφ', fun _ => hX0, by omega, ?_, ?_, ?_, ?_, ?_, ?_, ?_, ?_⟩
    · intro t h1 h2 h3 h4
      rw [f2 t (by omega), f1 t (by omega)]
    · intro t h1 h2 h3 h4
      rw [g2 t (by omega)]
    · intro t h1 h2 h3 h4
      have : t = 0 := by omega
      subst this
      rw [sa.zero, sd.symm.zero]
    · intro t h1 h2 h3 h4
      rw [g2 t (by omega), S2 t h1 (by omega)]
    · intro t h1 h2 h3 h4
      rw [f2 t (by omega), f1 t (by omega), R1 t h1 (by omega)]
    · intro t h1 h2 h3 h4
      have : t = 0 := by omega
      subst this
      rw [sc.zero, sb.symm.zero]
    · exact .dad (by omega) (by omega) (by omega) rfl
    · exact .dad (by omega) (by omega) (by omega) (by omega)
  · have k3 := k2.2 hc
    subst k3
    have w6 : D ≤ C ∧ C - D ≤ c - s2 := by
      have y1 := S2 s2 d0 le_rfl
      have y2 := sc.symm.bounds d0 hc
      rw [sd.total] at y1
      omega
    obtain ⟨φ', ψ', hφ', f2, g2⟩ := hφ.glue sc.symm hφ.nonneg le_rfl c0 le_rfl
    rw [hφ.total, sc.symm.total, show a + -e + c = x by omega, show A + -E + C = A + C - E by omega] at hφ'
    have hx0 := hφ'.nonneg
    have hX0 : 0 ≤ A + C - E := by omega
    have hmax : max x 0 = x := by omega
    refine ⟨A + C - E, φ', ψ', by rw [abs_of_nonneg hx0, abs_of_nonneg hX0]; exact hφ', fun _ => hX0, by omega, ?_, ?_, ?_, ?_, ?_, ?_, ?_, ?_⟩
    · intro t h1 h2 h3 h4
      rw [f2 t (by omega), f1 t (by omega)]
    · intro t h1 h2 h3 h4
      rw [g2 t (by omega), S2 t h1 (by omega)]
    · intro t h1 h2 h3 h4
      have : t = 0 := by omega
      subst this
      rw [sa.zero, sd.symm.zero]
    · intro t h1 h2 h3 h4
      rw [g2 t (by omega)]
    · intro t h1 h2 h3 h4
      rw [f2 t (by omega), f1 t (by omega), R1 t h1 (by omega)]
    · intro t h1 h2 h3 h4
      have : t = 0 := by omega
      subst this
      rw [sc.zero, sb.symm.zero]
    · exact .mac (by omega) (by omega) (by omega) rfl
    · exact .mac (by omega) (by omega) (by omega) (by omega)

theorem Square.nonneg (h : Square a b c d e p1 q1 r1 p2 q2 s2 A B C D E aQ aR bR bP cP cS dS dQ eP eQ) : 0 ≤ a ∧ 0 ≤ b ∧ 0 ≤ c ∧ 0 ≤ d :=
  ⟨h.sa.nonneg, h.sb.nonneg, h.sc.nonneg, h.sd.nonneg⟩

theorem Square.bd' (h : Square a b c d e p1 q1 r1 p2 q2 s2 A B C D E aQ aR bR bP cP cS dS dQ eP eQ) (h1 : e ≤ b + d) (h2 : c + e ≤ 2 * b + d) (h3 : a + e ≤ 2 * d + b)
    (h4 : a + c ≤ b + d) (h5 : a ≤ b + e) (h6 : c ≤ d + e) (h7 : 0 ≤ e) (hx : x = b + d - e) : ∃ X f g, Flipped a b c d e x A B C D E aQ aR bR bP cP cS dS dQ X f g := by
  have k := h.nonneg
  refine h.bd h7 h5 h6 ?_ hx
  have c1 := h.c1
  have c2 := h.c2
  rw [max_eq_left h7] at c1 c2
  obtain ⟨n1, n2, n3, n4⟩ := c1
  obtain ⟨m1, m2, m3, m4⟩ := c2
  rcases n4 with n4 | n4 | n4 | n4 <;> rcases m4 with m4 | m4 | m4 | m4 <;> omega

/-- a flip takes the part along, and the rest of the lamination too -/
theorem Square.flip (h : Square a b c d e p1 q1 r1 p2 q2 s2 A B C D E aQ aR bR bP cP cS dS dQ eP eQ) (hx : FlipCase a b c d e x) :
    ∃ X f g, Flipped a b c d e x A B C D E aQ aR bR bP cP cS dS dQ X f g := by
  have k := h.nonneg
  have viaMirror : (∃ X f g, Flipped b a d c e x B A D C E bP bR aR aQ dQ dS cS cP X f g) → ∃ X f g, Flipped a b c d e x A B C D E aQ aR bR bP cP cS dS dQ X f g :=
    fun ⟨X, f, g, q⟩ => ⟨X, f, g, q.mirror⟩
  have viaRot : (∃ X f g, Flipped c d a b e x C D A B E cP cS dS dQ aQ aR bR bP X f g) → ∃ X f g, Flipped a b c d e x A B C D E aQ aR bR bP cP cS dS dQ X f g :=
    fun ⟨X, f, g, q⟩ => ⟨X, g, f, q.rot⟩
  cases hx with
  | aab h1 h2 h3 hx => exact h.rs (by omega) h1 (by omega) h2 (by omega) (Or.inl ⟨h3, hx⟩)
  | acd h1 h2 h3 hx => exact viaRot (h.rot.rs (by omega) h1 (by omega) h3 (by omega) (Or.inl ⟨h2, hx⟩))
  | dad h1 h2 h3 hx => exact h.par h1 h2 (Or.inl ⟨h3, hx⟩)
  | dbc h1 h2 h3 hx => exact viaMirror (h.mirror.par h1 h2 (Or.inl ⟨h3, hx⟩))
  | nad h1 h2 h3 hx => exact h.ad h1 h2 h3 hx
  | nbc h1 h2 h3 hx => exact viaMirror (h.mirror.ad h1 h2 h3 hx)
  | nab h1 h2 h3 hx => 
    rcases le_total 0 e with h0 | h0
    · exact h.ab h0 h1 h2 h3 hx
    · have : b = a ∧ c = 0 ∧ d = 0 ∧ e = 0 := by omega
      exact h.ab (by omega) h1 h2 h3 hx
  | ncd h1 h2 h3 hx =>
    have : 0 ≤ e := by omega
    exact viaRot (h.rot.ab this h1 h2 h3 hx)
  | xac h1 h2 h3 h4 h5 h6 h7 hx => exact viaMirror (h.mirror.bd' (by omega) (by omega) (by omega) (by omega) (by omega) (by omega) h7 (by omega))
  | xbd h1 h2 h3 h4 h5 h6 h7 hx => exact h.bd' h1 h2 h3 h4 h5 h6 h7 hx
  | pac h1 h2 h3 h4 hx =>
    rcases le_total 0 x with h0 | h0
    · exact viaMirror (h.mirror.bd' (by omega) (by omega) (by omega) (by omega) (by omega) (by omega) (by omega) (by omega))
    · exact h.rs (by omega) h1 h2 h3 h0 (Or.inr ⟨h4, hx⟩)
  | pbd h1 h2 h3 h4 hx =>
    rcases le_total 0 x with h0 | h0
    · exact h.bd' (by omega) (by omega) (by omega) (by omega) (by omega) (by omega) (by omega) (by omega)
    · exact viaMirror (h.mirror.rs (by omega) (by omega) (by omega) h4 h0 (Or.inr ⟨h3, by omega⟩))
  | mac h1 h2 h3 hx => exact h.par h1 h2 (Or.inr ⟨h3, hx⟩)
  | mbd h1 h2 h3 hx => exact viaMirror (h.mirror.par h1 h2 (Or.inr ⟨h3, hx⟩))

end Curver
