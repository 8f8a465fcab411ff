import Verif.Proofs.ShortenLaws
import Verif.Proofs.Scale
import Verif.Props.Twist

/-!
# C58 to C61: `shorten`, and Dehn twists about arbitrary curves

`shortenAll P dflt fuel slow L` models `L.shorten(drop)`.  `P` is the class that promotion finds for a lamination, `slow` stands for the floating point comparison
with `drop`, `dflt` for the one in the calls that `shorten` makes to itself, and `fuel` bounds the loops.  The theorems hold for every `P`, `dflt`, `fuel` and `slow`,
whenever a result is returned.
-/

namespace Curver
open Triangulation

/-! ## C58 -/

/-- C58: `s, h = L.shorten(drop)`: `h` is a mapping from the triangulation of `L` to that of `s`, and `h(L) == s`. -/
theorem C58_image (P : Lam Int → Py LamClass) (dflt slow : Int → Int → Bool) (fuel : Nat) (L : Lam Int) (hL : L.WellFormed) (s : Lam Int) (h : Enc)
    (hs : L.shortenAll P dflt fuel slow = .ok (s, h)) :
    h.Legal ∧ h.kind ≠ .encoding ∧ h.source = L.tri ∧ h.target = s.tri ∧ ∃ K, h.applyLam L = .ok K ∧ K.eqv s = true := by
  obtain ⟨H, -⟩ := Lam.shortenAll_spec hL hs
  obtain ⟨K, h1, h2, h3⟩ := H.acts
  exact ⟨H.legal, H.kind, H.source, H.target, K, h1, Lam.eqv_spec.2 ⟨h2, h3⟩⟩

/-- C58: `s` is short: it is a sum of loops around vertices, arcs along edges and curves around edges, all different, with positive multiplicities; and `is_short()`
says so. -/
theorem C58_short (P : Lam Int → Py LamClass) (dflt slow : Int → Int → Bool) (fuel : Nat) (L : Lam Int) (hL : L.WellFormed) (s : Lam Int) (h : Enc)
    (hs : L.shortenAll P dflt fuel slow = .ok (s, h)) : (∃ m items, s.ShortSum m items) ∧ s.isShort P = .ok true := by
  obtain ⟨-, h1, -, h2⟩ := Lam.shortenAll_spec hL hs
  exact ⟨h2, h1⟩

/-- C58: `shorten` refuses weights that cannot be joined up in some triangle. -/
theorem C58_refuses (P : Lam Int → Py LamClass) (dflt slow : Int → Int → Bool) (fuel : Nat) (L : Lam Int) (hL : L.WellFormed) (hC : ¬ L.Consistent) :
    ∀ r, L.shortenAll P dflt fuel slow ≠ .ok r :=
  fun _ hs => hC (Lam.shortenAll_spec hL hs).2.2.1

/-- C58: the lamination can be recovered: `h.inverse()(s) == L`. -/
theorem C58_recovered (P : Lam Int → Py LamClass) (dflt slow : Int → Int → Bool) (fuel : Nat) (L : Lam Int) (hL : L.WellFormed) (s : Lam Int) (h : Enc)
    (hs : L.shortenAll P dflt fuel slow = .ok (s, h)) : ∃ g K, h.inverse = .ok g ∧ g.applyLam s = .ok K ∧ K.eqv L = true := by
  obtain ⟨H, -⟩ := Lam.shortenAll_spec hL hs
  obtain ⟨K, h1, h2, h3⟩ := H.acts
  obtain ⟨g, g1, -, -, -, -, g2, -⟩ := C15_inverse (R := Int) h H.legal
  exact ⟨g, _, g1, Enc.applyLam_cls (g2 L K hL h1) h2.symm h3.symm, Lam.eqv_spec.2 ⟨rfl, rfl⟩⟩

/-! ## C59 -/

theorem Enc.Spares.edgeArc {h : Enc} {T U : Triangulation} {f : Int} (hh : h.Legal) (hs : h.source = T) (ht : h.target = U) (hf : T.IsLabel f) (hsp : h.Spares f) :
    h.applyLam (T.edgeArcOf f : Lam Int) = .ok (U.edgeArcOf f) := by
  have hT : T.Valid := by rw [← hs]; exact hh.path.valid_source
  have hE := Lam.IsEdgeArc.of_edge hf
  have hC := hE.consistent hT
  obtain ⟨⟨K, k1, k2⟩, k3⟩ := hh.applyLam_total ⟨T.edgeArcOf f, hC, hs.symm⟩
  dsimp only at k3
  have hcls : K.cls = .arc := (hh.undo hC.1 k3).2.2.1.trans hE.cls
  have hch : Lam.Chain (T.edgeArcOf f) [.arc f 1] (Lam.scale 0 (T.edgeArcOf f)) := by
    refine ⟨Lam.scale 0 (T.edgeArcOf f), ⟨Lam.scale_wf hC.1, rfl, hf, by decide, hE.at_edge, by rw [Lam.scale_w, zero_mul], ?_⟩, rfl, rfl⟩
    intro x hx h1 h2
    rw [Lam.scale_w, zero_mul, hE.other x hx h1 h2]
  obtain ⟨M, m1, N, ⟨n1, n2, n3, n4, n5, n6, n7⟩, n8⟩ := hch.enc hh (by intro i hi; rw [List.mem_singleton] at hi; subst hi; exact hsp) hC.1 k3
  cases (hh.scale le_rfl hC.1 k3).symm.trans m1
  rw [k3]
  congr 1
  have hK : K.tri = U := k2.trans ht
  rw [hK] at n3
  have hE' := Lam.IsEdgeArc.of_edge n3
  refine Lam.ext_w hK (hcls.trans hE'.cls.symm) k1.1.2 hE'.length ?_
  intro x hx
  by_cases e1 : x = f
  · subst e1; rw [n5, hE'.at_edge]
  · by_cases e2 : x = inv f
    · subst e2; rw [Lam.w_inv, Lam.w_inv, n5, hE'.at_edge]
    · have h0 : N.w x = 0 := by rw [← Lam.w_congr n8.2, Lam.scale_w, zero_mul]
      rw [hK] at hx
      rw [← n7 x (hK ▸ hx) e1 e2, h0, hE'.other x hx e1 e2]

/-- C59: edges that do not meet `L` are left alone, and so are the edges which are arcs of `L`: `h` takes the arc along such an edge to the arc along the edge with the
same label, the weight of every lamination on this edge is kept by `h`, and `s` and `L` agree there. -/
theorem C59_frozen (P : Lam Int → Py LamClass) (dflt slow : Int → Int → Bool) (fuel : Nat) (L : Lam Int) (hL : L.WellFormed) (s : Lam Int) (h : Enc)
    (hs : L.shortenAll P dflt fuel slow = .ok (s, h)) (f : Int) (hf : L.tri.IsLabel f) (h0 : L.w f ≤ 0) :
    s.tri.IsLabel f ∧ h.applyLam (L.tri.edgeArcOf f : Lam Int) = .ok (s.tri.edgeArcOf f) ∧ s.w f = L.w f ∧
      ∀ M M' : Lam Int, M.WellFormed → h.applyLam M = .ok M' → M'.w f = M.w f := by
  obtain ⟨H, -⟩ := Lam.shortenAll_spec hL hs
  have hsp := H.spares f hf h0
  refine ⟨(H.w hL hf h0).2, hsp.edgeArc H.legal H.source H.target hf, (H.w hL hf h0).1, ?_⟩
  intro M M' hM ha
  exact (Enc.spares_w H.legal hsp (by rw [← Enc.applyLam_source ha, H.source]; exact hf) hM ha).1

/-! ## C60 -/

section
variable (P : Lam Int → Py LamClass) (dflt : Int → Int → Bool) (fuel : Nat) (c : Lam Int)

/-- C60: `c.encode_twist(power)`, for a lamination without arcs, is a mapping class of the triangulation of `c`.  It fixes the arc along each edge that `c` does not meet
and keeps the weights of all laminations on these edges. -/
theorem C60_mapping_class (hc : c.NoArcs) (power : Int) (h : Enc) (hh : c.encodeTwist P dflt fuel power = .ok h) :
    h.Legal ∧ h.kind = .mappingClass ∧ h.source = c.tri ∧ h.target = c.tri ∧
      ∀ f, c.tri.IsLabel f → c.w f = 0 → h.applyLam (c.tri.edgeArcOf f : Lam Int) = .ok (c.tri.edgeArcOf f) ∧
        ∀ M M' : Lam Int, M.WellFormed → h.applyLam M = .ok M' → M'.w f = M.w f := by
  have K := Lam.encodeTwist_keeps (Lam.shortenAll_good dflt fuel dflt) hc hh
  refine ⟨K.legal, K.kind, K.source, K.target, ?_⟩
  intro f hf h0
  have hsp := K.spares f ⟨hf, h0⟩
  refine ⟨hsp.edgeArc K.legal K.source K.target hf, ?_⟩
  intro M M' hM ha
  exact (Enc.spares_w K.legal hsp (by rw [← Enc.applyLam_source ha, K.source]; exact hf) hM ha).1

variable (s : Lam Int) (g : Enc) (hs : c.shortenAll P dflt fuel dflt = .ok (s, g)) (hcls : s.cls = .curve)
include hs hcls

/-- C60: if `c` is a curve (its short image is) then `encode_twist(power)` acts as the power of one bijection of the laminations: hence `encode_twist(p) * encode_twist(q)`
acts as `encode_twist(p + q)` and `encode_twist(0)` as the identity. -/
theorem C60_powers (hc : c.NoArcs) (R : Type) [CommRing R] [LinearOrder R] [IsStrictOrderedRing R] [Halvable R] :
    ∃ σ : Equiv.Perm (LamOn R c.tri), ∀ p h, c.encodeTwist P dflt fuel p = .ok h → h.ActsLam (σ ^ p) := by
  obtain ⟨σ, h1⟩ := Lam.encodeTwist_family (R := R) (P := P) (Lam.shortenAll_good dflt fuel dflt c s g hc.1 hs) hc hs hcls
  exact ⟨σ, fun p h hh => (h1 p h hh).1⟩

/-- C60: `encode_twist(-p)` undoes `encode_twist(p)`. -/
theorem C60_inverse (hc : c.NoArcs) (R : Type) [CommRing R] [LinearOrder R] [IsStrictOrderedRing R] [Halvable R] (p : Int) (h k : Enc)
    (hh : c.encodeTwist P dflt fuel p = .ok h) (hk : c.encodeTwist P dflt fuel (-p) = .ok k) (L : Lam R) (hL : L.Consistent) (ht : L.tri = c.tri) :
    ∃ M, h.applyLam L = .ok M ∧ k.applyLam M = .ok L := by
  obtain ⟨σ, h1⟩ := C60_powers P dflt fuel c s g hs hcls hc R
  let L' : LamOn R c.tri := ⟨L, hL, ht⟩
  refine ⟨_, h1 p h hh L', ?_⟩
  rw [h1 (-p) k hk, zpow_neg, ← Equiv.Perm.mul_apply, inv_mul_cancel]
  rfl

/-- C60: the curve is fixed. -/
theorem C60_fixes_curve (hc : c.NoArcs) (p : Int) (h : Enc) (hh : c.encodeTwist P dflt fuel p = .ok h) : h.applyLam c = .ok c :=
  Lam.encodeTwist_fixes (Lam.shortenAll_good dflt fuel dflt c s g hc.1 hs) hc hs hcls hh

/-- C60: laminations without arcs whose intersection number with `c` is zero are fixed. -/
theorem C60_fixes_disjoint (hc : c.NoArcs) (R : Type) [CommRing R] [LinearOrder R] [IsStrictOrderedRing R] [Halvable R] (p : Int) (h : Enc)
    (hh : c.encodeTwist P dflt fuel p = .ok h) (L : Lam R) (hL : L.NoArcs) (ht : L.tri = c.tri) (h0 : c.intersectionAll P dflt fuel L = .ok 0) : h.applyLam L = .ok L := by
  obtain ⟨σ, h1⟩ := Lam.encodeTwist_family (R := R) (P := P) (Lam.shortenAll_good dflt fuel dflt c s g hc.1 hs) hc hs hcls
  obtain ⟨h2, h3⟩ := h1 p h hh
  obtain ⟨L', rfl⟩ := hL.on ht
  rw [h2 L', Function.IsFixedPt.perm_zpow (h3 L' hL h0) p]

end

/-! ## C61 -/

/-- C61: `L.trace_curve(edge, intersection, max_length)`, when it returns a curve, returns a lamination without arcs on the same triangulation that does not meet the edges
that `L` does not cross. -/
theorem C61_trace (L : Lam Int) (hL : L.WellFormed) (edge : Int) (hf : L.tri.IsLabel edge) (i : Int) (n : Nat) (c : Lam Int) (h : L.traceCurve edge i n = .ok c) :
    c.tri = L.tri ∧ c.cls = .curve ∧ c.NoArcs ∧ ∀ f, L.tri.IsLabel f → L.w f ≤ 0 → c.w f = 0 := by
  obtain ⟨h1, h2, h3⟩ := Lam.traceCurve_spec hL hf h
  exact ⟨h1, Lam.traceCurve_cls hL hf h, h2, h3⟩

/-! ## Examples -/

/-- without acceleration -/
def neverSlow : Int → Int → Bool := fun _ _ => false

/-- with acceleration whenever the other conditions hold -/
def alwaysSlow : Int → Int → Bool := fun _ _ => true

theorem Py.of_toOption {α β : Type} {x : Py α} {f : α → β} {v : β} (h : x.toOption.map f = some v) : ∃ a, x = .ok a ∧ f a = v := by
  cases x with
  | error e => cases h
  | ok a => exact ⟨a, rfl, Option.some.inj h⟩

/-- a curve that crosses the edges of the torus `2`, `7` and `9` times -/
def torusLong : Lam Int := ⟨torus, [2, 7, 9], .curve⟩

theorem torusLong_noArcs : torusLong.NoArcs := by
  rw [Lam.noArcs_iff, Lam.consistent_iff]
  refine ⟨⟨⟨torus_valid, by decide⟩, ?_⟩, ?_⟩
  · intro a b c h
    rcases h with h | h | h <;> simp [torusLong, torus] at h <;>
      rcases h with ⟨rfl, rfl, rfl⟩ | ⟨rfl, rfl, rfl⟩ <;> intro _ _ _ <;> decide
  · intro a b c h
    rcases h with h | h | h <;> simp [torusLong, torus] at h <;>
      rcases h with ⟨rfl, rfl, rfl⟩ | ⟨rfl, rfl, rfl⟩ <;> decide

/-- it is shortened by five flips -/
theorem torusLong_shorten : ∃ s h, torusLong.shortenAll anyClass neverSlow 20 neverSlow = .ok (s, h) ∧ s.cls = .curve ∧ s.geometric = [0, 1, 1] ∧ h.sequence.length = 5 := by
  obtain ⟨⟨s, h⟩, h1, h2⟩ := Py.of_toOption (x := torusLong.shortenAll anyClass neverSlow 20 neverSlow) (f := fun p => (p.1.cls, p.1.geometric, p.2.sequence.length))
    (v := (LamClass.curve, [0, 1, 1], 5)) (by decide +kernel)
  simp only [Prod.mk.injEq] at h2
  exact ⟨s, h, h1, h2.1, h2.2.1, h2.2.2⟩

/-- the curve with weights `20`, `1`, `21` is shortened with the help of accelerating twists -/
example : ∃ s h, (⟨torus, [20, 1, 21], .curve⟩ : Lam Int).shortenAll anyClass alwaysSlow 20 alwaysSlow = .ok (s, h) ∧ s.geometric = [1, 1, 0] := by
  obtain ⟨⟨s, h⟩, h1, h2⟩ := Py.of_toOption (x := (⟨torus, [20, 1, 21], .curve⟩ : Lam Int).shortenAll anyClass alwaysSlow 20 alwaysSlow) (f := fun p => p.1.geometric)
    (v := [1, 1, 0]) (by decide +kernel)
  exact ⟨s, h, h1, h2⟩

/-- the hypotheses of C60 are met, for a power and its negative -/
example : ∃ s g h k, torusLong.shortenAll anyClass neverSlow 20 neverSlow = .ok (s, g) ∧ s.cls = .curve ∧ torusLong.encodeTwist anyClass neverSlow 20 3 = .ok h ∧
    torusLong.encodeTwist anyClass neverSlow 20 (-3) = .ok k ∧ h.sequence.length = 16 := by
  obtain ⟨s, g, h1, h2, -⟩ := torusLong_shorten
  obtain ⟨h, h3, h4⟩ := Py.of_toOption (x := torusLong.encodeTwist anyClass neverSlow 20 3) (f := fun h => h.sequence.length) (v := 16) (by decide +kernel)
  obtain ⟨k, h5, h6⟩ := Py.of_toOption (x := torusLong.encodeTwist anyClass neverSlow 20 (-3)) (f := fun h => h.sequence.length) (v := 16) (by decide +kernel)
  exact ⟨s, g, h, k, h1, h2, h3, h5, h4⟩

/-- two parallel copies of the curve are disjoint from it; the curve `[1, 0, 1]` meets it seven times -/
example : torusLong.intersectionAll anyClass neverSlow 20 (⟨torus, [4, 14, 18], .multicurve⟩ : Lam Int) = .ok 0 ∧
    torusLong.intersectionAll anyClass neverSlow 20 (⟨torus, [1, 0, 1], .curve⟩ : Lam Int) = .ok 7 := by constructor <;> decide +kernel

/-- a traced curve -/
example : ∃ c, (⟨torus, [4, 14, 18], .multicurve⟩ : Lam Int).traceCurve 0 0 100 = .ok c ∧ c.geometric = [1, 3, 4] :=
  Py.of_toOption (f := fun c : Lam Int => c.geometric) (by decide +kernel)

end Curver
