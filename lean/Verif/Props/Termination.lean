import Verif.Proofs.TermUse
import Verif.Proofs.Fuel
import Verif.Spec.Returns
import Verif.Props.LamParts

/-!
# C73 - C76: `shorten`, and what is built on it, returns

Until here all properties of `shorten` were about calls that return.  These theorems say when they do.
-/

namespace Curver
open Triangulation

theorem Returns.of_upto {α : Type} {f : Nat → Py α} (hf : ∀ m n, m ≤ n → Upto (f m) (f n)) {n : Nat} {r : α} (h : f n = .ok r) : Returns f r :=
  ⟨n, fun m hm => (hf n m hm).ok h⟩

/-- the parts of a lamination without arcs have no arcs -/
theorem Lam.IsUnion.noArcs {L X Y : Lam Int} (h : L.IsUnion X Y) (hL : L.NoArcs) : X.NoArcs := by
  rw [Lam.noArcs_iff] at hL ⊢
  refine ⟨(h.consistent hL.1).1, ?_⟩
  obtain ⟨red, c1, c2, c3⟩ := h
  intro x y z hg
  rw [c2.2.1] at hg
  have l := hL.1.1.1.comp.label_of_glues hg
  obtain ⟨p, q, r, -, ⟨k1, k2, k3, hf⟩⟩ := c2.counts hL.1 c1 hg
  obtain ⟨a1, b1⟩ := hL.2 _ _ _ hg
  obtain ⟨a2, b2⟩ := hL.2 _ _ _ hg.rot
  obtain ⟨a3, b3⟩ := hL.2 _ _ _ hg.rot.rot
  have d1 := c2.pos l.1 a1
  have d2 := c2.pos l.2.1 a2
  have d3 := c2.pos l.2.2 a3
  rw [max_eq_left a1, max_eq_left a2, max_eq_left a3, max_eq_left d1, max_eq_left d2, max_eq_left d3] at hf
  refine ⟨d1, ?_⟩
  rcases hf with h | h | h | h <;> omega

/-! ## C73: `shorten` -/

section
variable (P P' : Lam Int → Py LamClass) (dflt slow : Int → Int → Bool)

/-- C73: `L.shorten(drop=0)` returns, for every lamination: every curve, every arc and every disjoint union of these, on every triangulation, whatever the weights.  The result is as promised: `h`
is a mapping with `h(L) == s`, `s` is short, and the class of `s` describes both. -/
theorem C73_returns (hs : ∀ w w', slow w w' = false) (L : Lam Int) (hL : L.Consistent) : ∃ s h, Returns (fun n => L.shortenAll P dflt n slow) (s, h) ∧
    h.Legal ∧ h.source = L.tri ∧ h.target = s.tri ∧ (∃ K, h.applyLam L = .ok K ∧ K.eqv s = true) ∧ (∃ m items, s.ShortSum m items) ∧ s.isShort P = .ok true ∧
    s.Describes s.cls ∧ L.Describes s.cls := by
  obtain ⟨⟨s, h⟩, N, hN⟩ := Lam.shorten_returns (P := P) (dflt := dflt) hL hs
  have h0 := hN N le_rfl
  obtain ⟨a1, -, a2, a3, a4⟩ := C58_image P dflt slow N L hL.1 s h h0
  obtain ⟨b1, b2⟩ := C58_short P dflt slow N L hL.1 s h h0
  obtain ⟨c1, c2⟩ := C68_shorten P dflt slow N L hL.1 s h h0
  exact ⟨s, h, ⟨N, hN⟩, a1, a2, a3, a4, b1, b2, c1, c2⟩

/-- C73: `shorten(drop=0)` returns if and only if the weights are consistent. -/
theorem C73_iff (hs : ∀ w w', slow w w' = false) (L : Lam Int) (hL : L.WellFormed) : (∃ r, Returns (fun n => L.shortenAll P dflt n slow) r) ↔ L.Consistent := by
  constructor
  · rintro ⟨r, N, hN⟩
    by_contra hC
    exact C58_refuses P dflt slow N L hL hC r (hN N le_rfl)
  · exact fun hC => Lam.shorten_returns hC hs

/-- C73: with acceleration, `shorten(drop)` returns if the lamination consists of arcs and crosses no edge more than four times.  (All calls that `shorten` makes to itself in order to straighten a
cut sequence are of this form; so these need no assumption about `drop`.) -/
theorem C73_light_arcs (L : Lam Int) (hL : L.Consistent) (hA : ∀ X, L.HasPart X → ¬ X.NoArcs) (h4 : ∀ x, L.tri.IsLabel x → L.w x ≤ 4) :
    ∃ r, Returns (fun n => L.shortenAll P dflt n slow) r := by
  refine Lam.shortenAll_total hL (.inr ⟨.inr h4, ?_⟩)
  intro A B hu hA'
  by_contra hb
  have cA := (hu.consistent hL).1
  obtain ⟨D, d1, d2⟩ := Lam.exists_unions cA
  cases D with
  | nil => cases d1; exact hb ‹_›
  | cons X D =>
    obtain ⟨N, hN⟩ := d1.pull cA (X := X) (by simp)
    have hn : X.NoArcs := hN.noArcs hA'
    obtain ⟨M, hM, -⟩ := hu.assoc' hL hN
    exact hA X ⟨d2 X (by simp), M, hM⟩ hn

/-- C73: any bound that is not exceeded gives the same result, and this result is what is returned, for all values of `drop`. -/
theorem C73_bounds (L : Lam Int) (m n : Nat) (r r' : Lam Int × Enc) (h : L.shortenAll P dflt m slow = .ok r) (h' : L.shortenAll P dflt n slow = .ok r') :
    r = r' ∧ Returns (fun k => L.shortenAll P dflt k slow) r := by
  have a := Returns.of_upto (f := fun k => L.shortenAll P dflt k slow) (fun m n hmn => Lam.shortenAll_upto P dflt m n hmn slow L) h
  have b := Returns.of_upto (f := fun k => L.shortenAll P dflt k slow) (fun m n hmn => Lam.shortenAll_upto P dflt m n hmn slow L) h'
  exact ⟨a.unique b, a⟩

/-- C73: although `shorten` adds laminations up, it never has to find out the class of one; so `promote`, which calls `shorten`, is not called by it. -/
theorem C73_no_promotion (n : Nat) (L : Lam Int) : L.shortenAll P dflt n slow = L.shortenAll P' dflt n slow := by
  rw [Lam.shortenAll_irrel P P' dflt n]

end

/-! ## C74: `components`, and what is computed from them -/

section
variable (P : Lam Int → Py LamClass) (dflt : Int → Int → Bool) (hd : ∀ w w', dflt w w' = false) (L : Lam Int) (hL : L.Consistent) (hc : L.ClassRight)
include hd hL hc

theorem Lam.componentsAll_returns : ∃ cs, L.IsComponents cs ∧ Returns (fun n => L.componentsAll P dflt n) cs := by
  obtain ⟨⟨s, g⟩, N, hN⟩ := Lam.shorten_returns (P := P) (dflt := dflt) hL hd
  obtain ⟨cs, hcs⟩ := (Lam.ended hL (hN N le_rfl)).components
  have h0 : ∀ n, N ≤ n → L.componentsAll P dflt n = .ok cs := fun n hn => hcs _ (hN n hn)
  exact ⟨cs, Lam.componentsAll_spec hL hc (h0 N le_rfl), N, h0⟩

/-- C74: without acceleration, `components()` returns the decomposition of every lamination into connected ones, and so do all methods that use it: `num_components()` returns their number,
`peek_component()` one of them (unless the lamination is empty), `multiarc()` and `multicurve()` the disjoint unions of the arcs and of the curves, and `skeleton()` that of one copy of each. -/
theorem C74_components : ∃ cs, L.IsComponents cs ∧ Returns (fun n => L.componentsAll P dflt n) cs ∧ Returns (fun n => L.numComponents P dflt n) (cs.map Prod.snd).sum ∧
    (∀ p rest, cs = p :: rest → Returns (fun n => L.peekComponent P dflt n) p.1) ∧
    ∃ A C s, Returns (fun n => L.multiarc P dflt n) A ∧ Returns (fun n => L.multicurve P dflt n) C ∧ Returns (fun n => L.skeleton P dflt n) s ∧
      L.IsUnion A C ∧ (∀ X, A.HasPart X → ¬ X.NoArcs) ∧ (∀ X, C.HasPart X → X.NoArcs) ∧ s.Unions (cs.map Prod.fst) := by
  obtain ⟨cs, H, N, h0⟩ := Lam.componentsAll_returns P dflt hd L hL hc
  dsimp only at h0
  have hcons : ∀ p ∈ cs, p.1.tri = L.tri ∧ p.1.Consistent := by
    intro p hp
    obtain ⟨M, hM⟩ := H.union.pull hL (Lam.mem_flat hp (H.mult p hp))
    exact ⟨hM.wf.2.2.1, (hM.consistent hL).1⟩
  have hdict : ∀ f : Lam Int × Int → Bool, ∃ r, L.tri.disjointSumDict P (cs.filter f) = .ok r := by
    intro f
    refine Lam.disjointSumDict_total ?_
    intro p hp
    have hp := (List.mem_filter.1 hp).1
    exact ⟨(hcons p hp).1, (H.mult p hp).le, (hcons p hp).2⟩
  obtain ⟨A, hA⟩ := hdict (fun p => p.1.cls == .arc)
  obtain ⟨C, hC⟩ := hdict (fun p => p.1.cls == .curve)
  obtain ⟨s, hs⟩ : ∃ r, L.tri.disjointSumList P (cs.map Prod.fst) = .ok r := by
    unfold disjointSumList
    rw [if_neg (by
      simp only [List.any_eq_true, bne_iff_ne, ne_eq, not_exists, not_and, not_not, List.mem_map, forall_exists_index, and_imp]
      rintro X p hp rfl
      exact (hcons p hp).1)]
    refine Lam.disjointSumDict_total ?_
    unfold dictOfIterable
    rw [Lam.dict_of_apart (by simpa [List.pairwise_map] using H.apart)]
    intro p hp
    simp only [List.nil_append, List.mem_map, exists_exists_and_eq_and] at hp
    obtain ⟨q, hq, rfl⟩ := hp
    exact ⟨(hcons q hq).1, Int.one_nonneg, (hcons q hq).2⟩
  have eA : ∀ n, N ≤ n → L.multiarc P dflt n = .ok A := by
    intro n hn
    unfold Lam.multiarc
    rw [h0 n hn]; exact hA
  have eC : ∀ n, N ≤ n → L.multicurve P dflt n = .ok C := by
    intro n hn
    unfold Lam.multicurve
    rw [h0 n hn]; exact hC
  have es : ∀ n, N ≤ n → L.skeleton P dflt n = .ok s := by
    intro n hn
    unfold Lam.skeleton
    rw [h0 n hn]; exact hs
  obtain ⟨b1, b2, b3, -⟩ := C71_separate P dflt N L hL hc A C (eA N le_rfl) (eC N le_rfl)
  refine ⟨cs, H, ⟨N, h0⟩, ⟨N, fun n hn => ?_⟩, ?_, A, C, s, ⟨N, eA⟩, ⟨N, eC⟩, ⟨N, es⟩, b1, b2, b3, (C72_skeleton P dflt N L hL hc cs (h0 N le_rfl) s (es N le_rfl)).2.1⟩
  · dsimp only
    unfold Lam.numComponents
    rw [h0 n hn]; rfl
  · rintro p rest rfl
    refine ⟨N, fun n hn => ?_⟩
    dsimp only
    unfold Lam.peekComponent
    rw [h0 n hn]; rfl

/-- C74: without acceleration, `a.no_common_component(b)` returns, and says whether some connected lamination is a part of both. -/
theorem C74_no_common (M : Lam Int) (hM : M.Consistent) (hc' : M.ClassRight) (hi : M.cls ≠ .lamination) :
    ∃ b, Returns (fun n => L.noCommonComponent P dflt n M) b ∧ (b = true ↔ ¬ ∃ X, L.HasPart X ∧ M.HasPart X) := by
  obtain ⟨cs, -, N, h0⟩ := Lam.componentsAll_returns P dflt hd L hL hc
  obtain ⟨ds, -, N', h1⟩ := Lam.componentsAll_returns P dflt hd M hM hc'
  dsimp only at h0 h1
  have key : ∀ n, max N N' ≤ n → L.noCommonComponent P dflt n M = .ok (!(ds.any (fun component => cs.any (fun p => p.1.eqv component.1)))) := by
    intro n hn
    unfold Lam.noCommonComponent
    rw [show pyAssert _ = .ok () from pyAssert_ok_iff.2 (by simpa using hi), py_bind_ok, h0 n (by omega), py_bind_ok, h1 n (by omega)]
    rfl
  exact ⟨_, ⟨_, key⟩, C70_no_common P dflt _ L M hL hM hc hc' _ (key _ le_rfl)⟩

end

/-! ## C75: making laminations -/

/-- C75: without acceleration, `T(weights)` returns for exactly those lists of integers that are the weights of a lamination; and it returns the object with these weights and the class that
describes it.  For all others an error is raised, or the call does not end. -/
theorem C75_lamination (dflt : Int → Int → Bool) (hd : ∀ w w', dflt w w' = false) (T : Triangulation) (hT : T.Valid) (weights : List Int) (hw : weights.length = T.zeta) (c : LamClass) :
    Returns (fun n => T.lamination (Lam.classAll dflt n) weights) ⟨T, weights, c⟩ ↔ (⟨T, weights, .lamination⟩ : Lam Int).Consistent ∧ (⟨T, weights, .lamination⟩ : Lam Int).Describes c := by
  have main : (⟨T, weights, .lamination⟩ : Lam Int).Consistent → ∃ c, Returns (fun n => T.lamination (Lam.classAll dflt n) weights) ⟨T, weights, c⟩ := by
    intro hC
    have hC' : (⟨T, weights, .integral⟩ : Lam Int).Consistent := hC
    obtain ⟨c, N, hN⟩ := Lam.classAll_total hd hC'
    obtain ⟨b, hb⟩ := Lam.isIntegral_ok hC
    have := Lam.isIntegral_int hb
    subst this
    refine ⟨c, N, fun n hn => ?_⟩
    dsimp only
    unfold lamination Lam.promote
    rw [show pyAssert _ = .ok () from pyAssert_ok_iff.2 (by simpa using hw), py_bind_ok, if_pos rfl, hb, py_bind_ok, if_pos rfl]
    dsimp only
    rw [hN n hn]
    rfl
  have right : ∀ c, Returns (fun n => T.lamination (Lam.classAll dflt n) weights) ⟨T, weights, c⟩ → (⟨T, weights, .lamination⟩ : Lam Int).Consistent ∧ (⟨T, weights, .lamination⟩ : Lam Int).Describes c := by
    rintro c ⟨N, hN⟩
    obtain ⟨-, -, h1, h2, -⟩ := C68_lamination dflt N T hT weights _ (hN N le_rfl)
    exact ⟨h1, h2.same (M := ⟨T, weights, .lamination⟩) h1 ⟨rfl, rfl⟩⟩
  refine ⟨right c, ?_⟩
  rintro ⟨hC, hc⟩
  obtain ⟨c', hc'⟩ := main hC
  rwa [Lam.Describes.unique hC hc (right c' hc').2]

/-- C75: without acceleration, `a + b` returns if and only if the sums of the weights are consistent; and then it has these weights and the right class. -/
theorem C75_add (dflt : Int → Int → Bool) (hd : ∀ w w', dflt w w' = false) (X Y : Lam Int) (hX : X.WellFormed) (hY : Y.WellFormed) (ht : Y.tri = X.tri) :
    (∃ M, Returns (fun n => X.add (Lam.classAll dflt n) Y) M ∧ M.geometric = List.zipWith (· + ·) X.geometric Y.geometric ∧ M.Describes M.cls) ↔
      (⟨X.tri, List.zipWith (· + ·) X.geometric Y.geometric, .lamination⟩ : Lam Int).Consistent := by
  have hl : (List.zipWith (· + ·) X.geometric Y.geometric).length = X.tri.zeta := by
    have := hX.2
    have h2 := hY.2
    rw [ht] at h2
    simp [this, h2]
  have e : ∀ n, X.add (Lam.classAll dflt n) Y = X.tri.lamination (Lam.classAll dflt n) (List.zipWith (· + ·) X.geometric Y.geometric) := by
    intro n
    unfold Lam.add
    rw [if_neg (by simp [ht])]
  simp only [e]
  constructor
  · rintro ⟨M, ⟨N, hN⟩, -, -⟩
    have := C68_lamination dflt N X.tri hX.1 _ M (hN N le_rfl)
    have h3 := this.2.2.1
    have : M = ⟨X.tri, List.zipWith (· + ·) X.geometric Y.geometric, M.cls⟩ := by rw [← this.1, ← this.2.1]
    rw [this] at h3
    exact h3
  · intro hC
    obtain ⟨c, hc⟩ := Lam.exists_describes hC
    exact ⟨_, (C75_lamination dflt hd X.tri hX.1 _ hl c).2 ⟨hC, hc⟩, rfl, hc.same (M := ⟨X.tri, _, c⟩) hC ⟨rfl, rfl⟩⟩

/-! ## C76: `encode_twist` and `intersection` -/

section
variable (P : Lam Int → Py LamClass) (dflt : Int → Int → Bool) (hd : ∀ w w', dflt w w' = false) (c : Lam Int)
include hd

/-- C76: without acceleration, `c.intersection(L)` returns a number for all laminations `c` and `L` on the same triangulation; `L` may have any weights. -/
theorem C76_intersection (hc : c.Consistent) {R : Type} [CommRing R] [LinearOrder R] [IsStrictOrderedRing R] [Halvable R] (L : Lam R) (hL : L.Consistent) (ht : L.tri = c.tri) :
    ∃ x, Returns (fun n => c.intersectionAll P dflt n L) x := by
  obtain ⟨⟨s, g⟩, N, hN⟩ := Lam.shorten_returns (P := P) (dflt := dflt) hc hd
  obtain ⟨x, hx⟩ := (Lam.ended hc (hN N le_rfl)).intersection hL ht
  exact ⟨x, N, fun n hn => hx _ (hN n hn)⟩

theorem Lam.twist_bound (hc : c.NoArcs) : ∃ N s g, (∀ n, N ≤ n → c.shortenAll P dflt n dflt = .ok (s, g)) ∧ ∀ p, ∃ h, ∀ n, N ≤ n → c.encodeTwist P dflt n p = .ok h := by
  have hC := (Lam.noArcs_iff.1 hc).1
  obtain ⟨⟨s, g⟩, N, hN⟩ := Lam.shorten_returns (P := P) (dflt := dflt) hC hd
  have E := Lam.ended hC (hN N le_rfl)
  obtain ⟨⟨s', g'⟩, N', hN'⟩ := Lam.shorten_returns (P := P) (dflt := dflt) E.consistent hd
  refine ⟨max N N', s, g, fun n hn => hN n (by omega), fun power => ?_⟩
  obtain ⟨k, hk⟩ := E.encodeTwist (P := P) (Lam.ended E.consistent (hN' N' le_rfl)) hc power
  exact ⟨k, fun n hn => hk _ (hN n (by omega)) (hN' n (by omega))⟩

/-- C76: without acceleration, `c.encode_twist(power)` returns a mapping class of the triangulation of `c`, for every multicurve `c` and all powers. -/
theorem C76_twist (hc : c.NoArcs) (power : Int) : ∃ h, Returns (fun n => c.encodeTwist P dflt n power) h ∧ h.Legal ∧ h.kind = .mappingClass ∧ h.source = c.tri ∧ h.target = c.tri := by
  obtain ⟨N, -, -, -, h0⟩ := Lam.twist_bound P dflt hd c hc
  obtain ⟨k, hk⟩ := h0 power
  obtain ⟨h1, h2, h3, h4, -⟩ := C60_mapping_class P dflt _ c hc power k (hk _ le_rfl)
  exact ⟨k, ⟨_, hk⟩, h1, h2, h3, h4⟩

/-- C76: the Dehn twists about a curve `c`: `encode_twist(p)` returns for each `p`, they act as the powers of one bijection, they fix `c`, and they fix every lamination without arcs that does not meet
`c`.  Nothing is assumed about the weights of the curve or the way it is represented. -/
theorem C76_twists (hc : c.NoArcs) (hconn : c.Connected) (R : Type) [CommRing R] [LinearOrder R] [IsStrictOrderedRing R] [Halvable R] :
    ∃ (t : Int → Enc) (σ : Equiv.Perm (LamOn R c.tri)), ∀ p, Returns (fun n => c.encodeTwist P dflt n p) (t p) ∧ (t p).ActsLam (σ ^ p) ∧ (t p).applyLam c = .ok c ∧
      ∀ L : Lam R, L.NoArcs → L.tri = c.tri → Returns (fun n => c.intersectionAll P dflt n L) 0 → (t p).applyLam L = .ok L := by
  have hC := (Lam.noArcs_iff.1 hc).1
  obtain ⟨N, s, g, hN, h0⟩ := Lam.twist_bound P dflt hd c hc
  choose t ht using h0
  have hcls : s.cls = .curve := by
    have h1 : c.Describes .curve := ⟨hconn, hc⟩
    exact Lam.Describes.unique hC (C68_shorten P dflt dflt N c hc.1 s g (hN N le_rfl)).2 h1
  obtain ⟨σ, hσ⟩ := C60_powers P dflt N c s g (hN N le_rfl) hcls hc R
  refine ⟨t, σ, fun p => ⟨⟨N, ht p⟩, hσ p _ (ht p N le_rfl), C60_fixes_curve P dflt N c s g (hN N le_rfl) hcls hc p _ (ht p N le_rfl), ?_⟩⟩
  rintro L hL hLt ⟨N', h1⟩
  have l1 : N ≤ max N N' := le_max_left _ _
  exact C60_fixes_disjoint P dflt (max N N') c s g (hN _ l1) hcls hc R p _ (ht p _ l1) L hL hLt (h1 _ (le_max_right _ _))

end

/-! ## Examples -/

theorem neverSlow_never : ∀ w w', neverSlow w w' = false := fun _ _ => rfl

/-- the hypotheses of C73 - C76: a long curve, three curves, an arc with a curve -/
example : torusLong.Consistent ∧ torusThree.Consistent ∧ torusLong.NoArcs ∧ (∃ r, Returns (fun n => torusLong.shortenAll anyClass neverSlow n neverSlow) r) ∧
    (∃ x, Returns (fun n => torusLong.intersectionAll anyClass neverSlow n torusThree) x) :=
  ⟨(Lam.noArcs_iff.1 torusLong_noArcs).1, torusThree_consistent, torusLong_noArcs, (C73_iff anyClass neverSlow neverSlow neverSlow_never _ torusLong_noArcs.1).2 (Lam.noArcs_iff.1 torusLong_noArcs).1,
    C76_intersection anyClass neverSlow neverSlow_never _ (Lam.noArcs_iff.1 torusLong_noArcs).1 _ torusThree_consistent rfl⟩

/-- the long curve is connected: it is a `Curve` -/
theorem torusLong_connected : torusLong.Connected := by
  obtain ⟨s, g, h1, h2, -⟩ := torusLong_shorten
  have := (C68_shorten anyClass neverSlow neverSlow 20 torusLong torusLong_noArcs.1 s g h1).2
  rw [h2] at this
  exact this.1

example : ∃ t : Int → Enc, ∀ p, Returns (fun n => torusLong.encodeTwist anyClass neverSlow n p) (t p) ∧ (t p).applyLam torusLong = .ok torusLong := by
  obtain ⟨t, _, h⟩ := C76_twists anyClass neverSlow neverSlow_never torusLong torusLong_noArcs torusLong_connected Int
  exact ⟨t, fun p => ⟨(h p).1, (h p).2.2.1⟩⟩

/-- the number of components of three curves is what it was found to be above -/
example : Returns (fun n => torusThree.numComponents anyClass neverSlow n) 3 := by
  obtain ⟨cs, -, -, h, -⟩ := C74_components anyClass neverSlow neverSlow_never torusThree torusThree_consistent ⟨fun h => (by cases h), fun h => (by cases h)⟩
  obtain ⟨N, hN⟩ := h
  have e : torusThree.numComponents anyClass neverSlow 20 = .ok 3 := by decide +kernel
  have h3 : (cs.map Prod.snd).sum = 3 := by
    have h1 := hN (max N 20) (le_max_left _ _)
    have up := Lam.componentsWith_upto (fun M => Lam.shortenAll_upto anyClass neverSlow 20 (max N 20) (le_max_right _ _) neverSlow M) torusThree
    have := (up.bind (fun cs : List (Lam Int × Int) => Upto.rfl' (x := (.ok (cs.map Prod.snd).sum : Py Int)))).ok e
    have := h1.symm.trans this
    injection this
  exact h3 ▸ ⟨N, hN⟩

/-- both weights on the torus that are accepted and refused -/
example : (⟨torus, [4, 4, 6], .lamination⟩ : Lam Int).Consistent ∧ ¬ (⟨torus, [1, 1, 1], .lamination⟩ : Lam Int).Consistent := by
  refine ⟨torusThree_consistent, fun h => ?_⟩
  have := (Lam.consistent_iff.1 h).2 0 1 2 (by unfold Glues; decide)
  exact absurd (this (by decide) (by decide) (by decide)) (by decide)

end Curver
