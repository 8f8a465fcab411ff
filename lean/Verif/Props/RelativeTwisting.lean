import Verif.Model.RelativeTwisting
import Verif.Proofs.BoundaryUnion
import Verif.Props.Crossing
import Verif.Props.CurveGraph
import Verif.Props.MultiTwist
import Verif.Props.Termination

/-!
# C100: `Curve.relative_twisting`

`a` is a curve: `a.NoArcs` and `a.Connected`.  `b` and `c` are integral laminations, possibly with arcs.
-/

namespace Curver
open Triangulation

section
variable (P : Lam Int → Py LamClass) (dflt : Int → Int → Bool) (fuel : Nat) (a b c : Lam Int) (ha : a.NoArcs) (hconn : a.Connected)
include ha

/-- C100: `a.relative_twisting(b, c)` raises `ValueError` for a curve around a vertex. -/
theorem C100_peripheral (hp : a.Peripheral) (hb : b.cls ≠ .lamination) (hc : c.cls ≠ .lamination) : a.relativeTwisting P dflt fuel b c = .error .valueError := by
  obtain ⟨q, q1, q2⟩ := Lam.isPeripheral_spec P (Lam.noArcs_iff.1 ha).1
  rw [q2.2 hp] at q1
  unfold Lam.relativeTwisting
  simp [pyAssert, hb, hc, q1, py_bind_ok]

include hconn

/-- a curve that is not peripheral has no peripheral components -/
theorem Lam.Connected.essential (hp : ¬ a.Peripheral) : ∀ X, a.HasPart X → X.NoArcs → ¬ X.Peripheral :=
  fun _ hX _ q => hp (q.same (hconn.hasPart ha.1 hX).symm)

/-- C100: `a.relative_twisting(b, c)` raises `ValueError` when `a` is disjoint from `b` or from `c` (and the intersection numbers are found). -/
theorem C100_disjoint (hb : b.Consistent) (hc : c.Consistent) (hb' : b.cls ≠ .lamination) (hc' : c.cls ≠ .lamination) (x y : Int) (h1 : a.intersectionAll P dflt fuel b = .ok x)
    (h2 : a.intersectionAll P dflt fuel c = .ok y) (hd : a.DisjointFrom b ∨ a.DisjointFrom c) : a.relativeTwisting P dflt fuel b c = .error .valueError := by
  by_cases hp : a.Peripheral
  · exact C100_peripheral P dflt fuel a b c ha hp hb' hc'
  have cA := (Lam.noArcs_iff.1 ha).1
  have hess := Lam.Connected.essential a ha hconn hp
  obtain ⟨q, q1, q2⟩ := Lam.isPeripheral_spec P cA
  obtain rfl : q = false := by
    cases q with
    | false => rfl
    | true => exact absurd (q2.1 rfl) hp
  have k1 := (C85_any P dflt fuel a b cA hess hb x h1).2
  have k2 := (C85_any P dflt fuel a c cA hess hc y h2).2
  unfold Lam.relativeTwisting
  simp only [pyAssert, hb', hc', q1, py_bind_ok, h1, h2, ne_eq, not_false_eq_true, decide_true, if_true, Bool.false_eq_true, if_false]
  by_cases hx : x = 0
  · rw [if_pos hx]
  · rw [if_neg hx]
    rcases hd with hd | hd
    · exact absurd (k1.2 hd) hx
    · rw [if_pos (k2.2 hd)]

/-- C100: when `a.relative_twisting(b, c)` returns `Fraction(n, d)`, the curve `a` is not peripheral and crosses both `b` and `c`, and `d` is positive: it is twice the product of their intersection numbers with
`a`.  Let `k = 2 * i(b, c)`.  Then `n` is the intersection number with `c` of `b` twisted `k` times to the left about `a`, minus that of `b` twisted `k` times to the right: twisting the first `k` times to the
right gives `b`, and so does twisting the second `k` times to the left; both cross `a`. -/
theorem C100_value (hb : b.Consistent) (hc : c.Consistent) (n d : Int) (h : a.relativeTwisting P dflt fuel b c = .ok (n, d)) :
    ¬ a.Peripheral ∧ ¬ a.DisjointFrom b ∧ ¬ a.DisjointFrom c ∧ 0 < d ∧
      ∃ (ab ac bc x y : Int) (left right : Enc) (lower upper : Lam Int), a.intersectionAll P dflt fuel b = .ok ab ∧ a.intersectionAll P dflt fuel c = .ok ac ∧ b.intersectionAll P dflt fuel c = .ok bc ∧
        0 < ab ∧ 0 < ac ∧ d = 2 * (ab * ac) ∧ a.encodeTwist P dflt fuel (2 * bc) = .ok right ∧ a.encodeTwist P dflt fuel (-(2 * bc)) = .ok left ∧
        left.applyLam b = .ok lower ∧ right.applyLam lower = .ok b ∧ right.applyLam b = .ok upper ∧ left.applyLam upper = .ok b ∧
        ¬ a.DisjointFrom lower ∧ ¬ a.DisjointFrom upper ∧
        lower.intersectionAll P dflt fuel c = .ok x ∧ upper.intersectionAll P dflt fuel c = .ok y ∧ n = x - y := by
  have cA := (Lam.noArcs_iff.1 ha).1
  unfold Lam.relativeTwisting at h
  simp only [py_bind_eq_ok, pyAssert_ok_iff] at h
  obtain ⟨-, -, -, -, p, p1, h⟩ := h
  split at h
  · cases h
  rename_i hp
  simp only [py_bind_eq_ok] at h
  obtain ⟨ab, e1, h⟩ := h
  split at h
  · cases h
  rename_i h0
  simp only [py_bind_eq_ok] at h
  obtain ⟨ac, e2, h⟩ := h
  split at h
  · cases h
  rename_i h0'
  simp only [py_bind_eq_ok] at h
  obtain ⟨bc, e3, f, e4, lower, e5, x, e6, g, e7, upper, e8, y, e9, h⟩ := h
  have hr : (x - y, 2 * ab * ac) = (n, d) := by injection h
  obtain ⟨hn, hd⟩ := Prod.mk.inj hr
  obtain ⟨q, q1, q2⟩ := Lam.isPeripheral_spec P cA
  rw [p1] at q1
  obtain rfl : p = q := by injection q1
  have hper : ¬ a.Peripheral := fun hq => hp (q2.2 hq)
  have hess := Lam.Connected.essential a ha hconn hper
  have k1 := C85_any P dflt fuel a b cA hess hb ab e1
  have k2 := C85_any P dflt fuel a c cA hess hc ac e2
  have i1 : 0 < ab := lt_of_le_of_ne k1.1 (Ne.symm h0)
  have i2 : 0 < ac := lt_of_le_of_ne k2.1 (Ne.symm h0')
  rw [show -2 * bc = -(2 * bc) by ring] at e4
  obtain ⟨ht, ⟨s, u⟩, hs⟩ := Lam.intersection_shortens e1
  have hcls : s.cls = .curve := Lam.Describes.unique cA (C68_shorten P dflt dflt fuel a ha.1 s u hs).2 (show a.Describes .curve from ⟨hconn, ha⟩)
  obtain ⟨M, m1, m2⟩ := C60_inverse P dflt fuel a s u hs hcls ha Int (2 * bc) g f e7 e4 b hb ht
  obtain ⟨N, n1, n2⟩ := C60_inverse P dflt fuel a s u hs hcls ha Int (-(2 * bc)) f g e4 (by rw [neg_neg]; exact e7) b hb ht
  rw [m1] at e8
  obtain rfl : M = upper := by injection e8
  rw [n1] at e5
  obtain rfl : N = lower := by injection e5
  have lf := (C60_mapping_class P dflt fuel a ha _ f e4)
  have lg := (C60_mapping_class P dflt fuel a ha _ g e7)
  have fa := C60_fixes_curve P dflt fuel a s u hs hcls ha _ f e4
  have ga := C60_fixes_curve P dflt fuel a s u hs hcls ha _ g e7
  have back : ∀ {k : Enc} {Z : Lam Int}, k.Legal → k.applyLam a = .ok a → k.applyLam Z = .ok b → a.DisjointFrom Z → a.DisjointFrom b := by
    intro k Z hk hka hkz hz
    obtain ⟨X, x1, x2⟩ := hz.enc hk (Enc.applyLam_source hkz).symm hkz
    rw [hka] at x1
    obtain rfl : a = X := by injection x1
    exact x2
  refine ⟨hper, fun q => h0 (k1.2.2 q), fun q => h0' (k2.2.2 q), by rw [← hd]; positivity, ab, ac, bc, x, y, f, g, N, M, e1, e2, e3, i1, i2, by rw [← hd]; ring, e7, e4, n1, n2, m1, m2,
    fun q => h0 (k1.2.2 (back lg.1 ga n2 q)), fun q => h0 (k1.2.2 (back lf.1 fa m2 q)), e6, e9, hn.symm⟩

/-- C100: if `b` and `c` are disjoint then `a.relative_twisting(b, c)` is zero: nothing has to be twisted.  (Here `c` consists of closed curves or `b` has no component around a vertex.) -/
theorem C100_zero (hb : b.Consistent) (hc : c.Consistent) (hbc : c.NoArcs ∨ ∀ X, b.HasPart X → X.NoArcs → ¬ X.Peripheral) (hd : b.DisjointFrom c) (n d : Int)
    (h : a.relativeTwisting P dflt fuel b c = .ok (n, d)) : n = 0 := by
  obtain ⟨-, -, -, -, ab, ac, bc, x, y, f, g, lower, upper, e1, e2, e3, -, -, -, e4, e5, n1, -, m1, -, -, -, x1, y1, rfl⟩ := C100_value P dflt fuel a b c ha hconn hb hc n d h
  have h0 : bc = 0 := by
    rcases hbc with q | q
    · exact (C85_closed P dflt fuel b c hb q bc e3).2.2 hd
    · exact (C85_any P dflt fuel b c hb q hc bc e3).2.2 hd
  subst h0
  rw [show -(2 * (0 : Int)) = 2 * 0 by ring, e4] at e5
  obtain rfl : g = f := by injection e5
  rw [m1] at n1
  obtain rfl : upper = lower := by injection n1
  rw [x1] at y1
  obtain rfl : x = y := by injection y1
  ring

/-- C100: `a.relative_twisting(b, b)` is zero, for every multicurve `b`. -/
theorem C100_self (hb : b.NoArcs) (n d : Int) (h : a.relativeTwisting P dflt fuel b b = .ok (n, d)) : n = 0 :=
  C100_zero P dflt fuel a b b ha hconn (Lam.noArcs_iff.1 hb).1 (Lam.noArcs_iff.1 hb).1 (.inl hb) (Lam.double (Lam.noArcs_iff.1 hb).1) n d h

/-- C100: without acceleration, `a.relative_twisting(b, c)` returns if and only if `a` is not peripheral and crosses both `b` and `c`. -/
theorem C100_returns (hdf : ∀ w w', dflt w w' = false) (hb : b.Consistent) (hc : c.Consistent) (hb' : b.cls ≠ .lamination) (hc' : c.cls ≠ .lamination) (htb : b.tri = a.tri) (htc : c.tri = a.tri) :
    (∃ r, Returns (fun n => a.relativeTwisting P dflt n b c) r) ↔ ¬ a.Peripheral ∧ ¬ a.DisjointFrom b ∧ ¬ a.DisjointFrom c := by
  constructor
  · rintro ⟨⟨n, d⟩, N, hN⟩
    obtain ⟨h1, h2, h3, -⟩ := C100_value P dflt N a b c ha hconn hb hc n d (hN N le_rfl)
    exact ⟨h1, h2, h3⟩
  rintro ⟨hp, h1, h2⟩
  have cA := (Lam.noArcs_iff.1 ha).1
  have hess := Lam.Connected.essential a ha hconn hp
  obtain ⟨q, q1, q2⟩ := Lam.isPeripheral_spec P cA
  obtain rfl : q = false := by
    cases q with
    | false => rfl
    | true => exact absurd (q2.1 rfl) hp
  obtain ⟨ab, N1, r1⟩ := C76_intersection P dflt hdf a cA b hb htb
  obtain ⟨ac, N2, r2⟩ := C76_intersection P dflt hdf a cA c hc htc
  obtain ⟨bc, N3, r3⟩ := C76_intersection P dflt hdf b hb c hc (htc.trans htb.symm)
  have twist : ∀ p : Int, ∃ (f : Enc) (L : Lam Int) (N : Nat), (∀ n, N ≤ n → a.encodeTwist P dflt n p = .ok f) ∧ f.applyLam b = .ok L ∧ L.Consistent ∧ L.tri = a.tri := by
    intro p
    obtain ⟨f, ⟨N, hN⟩, l1, -, l2, l3⟩ := C76_twist P dflt hdf a ha p
    obtain ⟨L, hL⟩ := l1.applyLam_total ⟨b, hb, htb.trans l2.symm⟩
    exact ⟨f, L.1, N, hN, hL, L.2.1, L.2.2.trans l3⟩
  obtain ⟨f, lo, N4, r4, lo1, lo2, lo3⟩ := twist (-2 * bc)
  obtain ⟨g, up, N5, r5, up1, up2, up3⟩ := twist (2 * bc)
  obtain ⟨x, N6, r6⟩ := C76_intersection P dflt hdf lo lo2 c hc (htc.trans lo3.symm)
  obtain ⟨y, N7, r7⟩ := C76_intersection P dflt hdf up up2 c hc (htc.trans up3.symm)
  refine ⟨(x - y, 2 * ab * ac), N1 + N2 + N3 + N4 + N5 + N6 + N7, fun n hn => ?_⟩
  have s1 := r1 n (by omega)
  have s2 := r2 n (by omega)
  have s3 := r3 n (by omega)
  have s4 := r4 n (by omega)
  have s5 := r5 n (by omega)
  have s6 := r6 n (by omega)
  have s7 := r7 n (by omega)
  dsimp only at s1 s2 s3 s6 s7
  have i1 : ab ≠ 0 := fun q => h1 ((C85_any P dflt n a b cA hess hb ab s1).2.1 q)
  have i2 : ac ≠ 0 := fun q => h2 ((C85_any P dflt n a c cA hess hc ac s2).2.1 q)
  dsimp only
  unfold Lam.relativeTwisting
  simp only [pyAssert, hb', hc', q1, py_bind_ok, s1, s2, s3, s4, s5, s6, s7, lo1, up1, i1, i2, ne_eq, not_false_eq_true, decide_true, if_true, Bool.false_eq_true, if_false]
  rfl

end

/-! ## Examples -/

theorem torusShort_connected : torusShort.Connected := by
  have h : torus.lamination (Lam.classAll neverSlow 20) [0, 1, 1] = .ok torusShort := by decide +kernel
  exact (C68_lamination neverSlow 20 torus torus_valid _ _ h).2.2.2.1.1

/-- curves that cross each other -/
theorem torusShort_relative : ∃ r, torusShort.relativeTwisting anyClass neverSlow 50 torusLong torusCurve = .ok r ∧ r.1 ≠ 0 ∧ 0 < r.2 := by
  have h : (do let r ← torusShort.relativeTwisting anyClass neverSlow 50 torusLong torusCurve; return (decide (r.1 ≠ 0 ∧ 0 < r.2)) : Py Bool) = .ok true := by decide +kernel
  obtain ⟨r, h1, h2⟩ := py_bind_eq_ok.1 h
  injection h2 with h2
  exact ⟨r, h1, of_decide_eq_true h2⟩

/-- the hypotheses of `C100_value` -/
example : ¬ torusShort.Peripheral ∧ ¬ torusShort.DisjointFrom torusLong ∧ ¬ torusShort.DisjointFrom torusCurve := by
  obtain ⟨⟨n, d⟩, h1, -⟩ := torusShort_relative
  obtain ⟨h2, h3, h4, -⟩ := C100_value anyClass neverSlow 50 torusShort torusLong torusCurve torusShort_noArcs torusShort_connected (Lam.noArcs_iff.1 torusLong_noArcs).1 torusCurve_consistent n d h1
  exact ⟨h2, h3, h4⟩

/-- it returns for every bound that is large enough -/
example : ∃ r, Returns (fun n => torusShort.relativeTwisting anyClass neverSlow n torusLong torusCurve) r := by
  obtain ⟨⟨n, d⟩, h1, -⟩ := torusShort_relative
  have hL := (Lam.noArcs_iff.1 torusLong_noArcs).1
  obtain ⟨h2, h3, h4, -⟩ := C100_value anyClass neverSlow 50 torusShort torusLong torusCurve torusShort_noArcs torusShort_connected hL torusCurve_consistent n d h1
  exact (C100_returns anyClass neverSlow torusShort torusLong torusCurve torusShort_noArcs torusShort_connected neverSlow_never hL torusCurve_consistent (by decide) (by decide) rfl rfl).2 ⟨h2, h3, h4⟩

/-- a curve relative to itself -/
example : ∃ r, torusShort.relativeTwisting anyClass neverSlow 50 torusLong torusLong = .ok r ∧ r.1 = 0 := by
  have h : (do let r ← torusShort.relativeTwisting anyClass neverSlow 50 torusLong torusLong; return r.1 : Py Int) = .ok 0 := by decide +kernel
  obtain ⟨r, h1, -⟩ := py_bind_eq_ok.1 h
  exact ⟨r, h1, C100_self anyClass neverSlow 50 torusShort torusLong torusShort_noArcs torusShort_connected torusLong_noArcs r.1 r.2 h1⟩

/-- a curve is disjoint from itself, so there is no relative twisting -/
example : torusShort.relativeTwisting anyClass neverSlow 50 torusShort torusCurve = .error .valueError := by
  have hA := (Lam.noArcs_iff.1 torusShort_noArcs).1
  obtain ⟨x, h1⟩ : ∃ x, torusShort.intersectionAll anyClass neverSlow 50 torusShort = .ok x := ⟨0, by decide +kernel⟩
  obtain ⟨y, h2⟩ : ∃ y, torusShort.intersectionAll anyClass neverSlow 50 torusCurve = .ok y := ⟨1, by decide +kernel⟩
  exact C100_disjoint anyClass neverSlow 50 torusShort torusShort torusCurve torusShort_noArcs torusShort_connected hA torusCurve_consistent (by decide) (by decide) x y h1 h2 (.inl (Lam.double hA))

/-- the curve around the puncture of the torus -/
example : torusAround.relativeTwisting anyClass neverSlow 50 torusLong torusCurve = .error .valueError := by
  have h : torusAround.NoArcs := by
    rw [Lam.noArcs_iff, Lam.consistent_iff]
    refine ⟨⟨⟨torus_valid, by decide⟩, ?_⟩, ?_⟩
    · intro a b c h
      rcases h with h | h | h <;> simp [torusAround, torus] at h <;>
        rcases h with ⟨rfl, rfl, rfl⟩ | ⟨rfl, rfl, rfl⟩ <;> first | decide | (unfold TriEven; decide)
    · intro a b c h
      rcases h with h | h | h <;> simp [torusAround, torus] at h <;>
        rcases h with ⟨rfl, rfl, rfl⟩ | ⟨rfl, rfl, rfl⟩ <;> decide
  obtain ⟨q, q1, q2⟩ := Lam.isPeripheral_spec anyClass (Lam.noArcs_iff.1 h).1
  have hq : torusAround.isPeripheral anyClass = .ok true := by decide +kernel
  rw [hq] at q1
  obtain rfl : true = q := by injection q1
  exact C100_peripheral anyClass neverSlow 50 torusAround torusLong torusCurve h (q2.1 rfl) (by decide) (by decide)

end Curver
