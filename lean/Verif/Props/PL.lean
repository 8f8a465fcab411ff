import Verif.Proofs.PLEnc
import Verif.Props.Encoding

/-!
# C28: partial linear functions and `pl_action`

The vocabulary (`HasShape`, `image`, `Types`, `Domain`, `NoArcs`) is in `Verif/Spec/PL.lean`.  A `MultiCurve` is a lamination of
that class without arcs; the laminations which the functions are applied to may have weights in any ordered ring.
-/

namespace Curver
open Triangulation

/-- C28: a partial linear function is defined at a vector of the right length exactly when no condition is negative there, and it
is then the matrix product; otherwise it raises `ValueError`. -/
theorem C28_call {R : Type} [CommRing R] [LinearOrder R] (F : PLF) (m n : Nat) (hF : F.Types m n) (x : List R) (hx : x.length = n) :
    (F.contains x = .ok true ↔ F.Domain x) ∧ (F.contains x = .ok false ↔ ¬ F.Domain x) ∧
    (F.Domain x → F.call x = .ok (F.action.image x)) ∧ (¬ F.Domain x → F.call x = .error .valueError) := by
  obtain ⟨b, h1, h2⟩ := PLF.contains_eq hF hx
  refine ⟨?_, ?_, PLF.call_eq hF hx⟩
  · rw [h1, ← h2]; simp
  · rw [h1, ← h2]; simp

/-- C28: the product of two partial linear functions is defined exactly where both are defined in turn. -/
theorem C28_product_domain (F G : PLF) (k m n : Nat) (hF : F.Types k m) (hG : G.Types m n) : ∃ H, F.mul (some G) = .ok H ∧
    ∀ (R : Type) [CommRing R] [LinearOrder R] (x : List R), x.length = n →
      (H.contains x = .ok true ↔ G.contains x = .ok true ∧ ∃ y, G.call x = .ok y ∧ F.contains y = .ok true) := by
  obtain ⟨H, A, h1, h2, h3, ⟨k', h4⟩, h5, h6⟩ := PLF.mul_eq hF hG
  refine ⟨H, h1, ?_⟩
  intro R _ _ x hx
  have hy : (G.action.image x).length = m := by rw [Mat.length_image, hG.action.1]
  have e1 : H.contains x = .ok true ↔ H.Domain x := by
    obtain ⟨r, hr⟩ := h2.keepRows
    exact (C28_call H r n ⟨h3 ▸ hr, ⟨k', h4⟩⟩ x hx).1
  rw [e1, h6 R x hx, (C28_call G m n hG x hx).1]
  refine and_congr_right (fun hd => ?_)
  rw [(C28_call G m n hG x hx).2.2.1 hd, ← (C28_call F k m hF _ hy).1]
  simp

/-- C28: when the matrix product has no zero row (after the first) the product is the composite, errors included. -/
theorem C28_composition (F G : PLF) (k m n : Nat) (hF : F.Types k m) (hG : G.Types m n)
    (hne : ∀ i, 0 < i → i < k → ∃ x : List Int, x.length = n ∧ (F.action.image (G.action.image x)).getD i 0 ≠ 0) : ∃ H, F.mul (some G) = .ok H ∧ H.Types k n ∧
    ∀ (R : Type) [CommRing R] [LinearOrder R] (x : List R), x.length = n → H.call x = (do let y ← G.call x; F.call y) := by
  obtain ⟨H, A, h1, h2, h3, h4, h5, h6⟩ := PLF.mul_eq hF hG
  have hk : A.keepRows = A := by
    apply Mat.keepRows_eq
    intro i hi hl
    rw [h2.1] at hl
    obtain ⟨x, hx, hz⟩ := hne i hi hl
    by_contra hc
    push Not at hc
    apply hz
    rw [← h5 Int x hx, Mat.image_getD, Mat.dot_of_zero hc]
  rw [hk] at h3
  have hH : H.Types k n := ⟨h3 ▸ h2, h4⟩
  refine ⟨H, h1, hH, ?_⟩
  intro R _ _ x hx
  have hy : (G.action.image x).length = m := by rw [Mat.length_image, hG.action.1]
  obtain ⟨a1, a2⟩ := PLF.call_eq hG hx
  obtain ⟨b1, b2⟩ := PLF.call_eq hF hy
  obtain ⟨c1, c2⟩ := PLF.call_eq hH hx
  rw [h6 R x hx] at c1 c2
  by_cases hg : G.Domain x
  · rw [a1 hg, py_bind_ok]
    by_cases hf : F.Domain (G.action.image x)
    · rw [b1 hf, c1 ⟨hg, hf⟩, h3, h5 R x hx]
    · rw [b2 hf, c2 (fun h => hf h.2)]
  · rw [a2 hg, c2 (fun h => hg h.1)]; rfl

/-- C28 fails for matrices whose product has a zero row: the constructor drops the row, and the product returns a shorter vector
than the composite. -/
theorem C28_zero_rows_are_dropped : ∃ F G H : PLF, F = PLF.create [[1, 0], [1, -1]] [[0, 0]] ∧ G = PLF.create [[1, 0], [1, 0]] [[0, 0]] ∧
    F.mul (some G) = .ok H ∧ H.call [(5 : Int), 7] = .ok [5] ∧ (do let y ← G.call [(5 : Int), 7]; F.call y) = .ok [5, 0] :=
  ⟨_, _, _, rfl, rfl, rfl, by decide, by decide⟩

/-- C28: multiplying by `None` does nothing. -/
theorem C28_times_none (F : PLF) : F.mul none = .ok F := rfl

/-- C28: for every mapping made of flips, (non-empty) multiflips and isometries and every multicurve `c` on its source, `pl_action`
succeeds; the function it returns is defined at `c` and at every lamination without arcs `L` at which it is defined it returns the
weights of the image of `L` under the mapping. -/
theorem C28_pl_action (h : Enc) (hh : h.Legal) (hk : h.kind ≠ .encoding) (hn : h.NoEmptyMultiflip) (hz : 0 < h.source.zeta) (c : Lam Int)
    (hcls : c.cls = .multicurve ∨ c.cls = .curve) (hc : c.NoArcs) (ht : c.tri = h.source) :
    ∃ F, h.plAction c = .ok (some F) ∧ F.Types h.source.zeta h.source.zeta ∧ F.contains c.geometric = .ok true ∧
      ∀ (R : Type) [CommRing R] [LinearOrder R] [IsStrictOrderedRing R] [Halvable R] (L : Lam R), L.NoArcs → L.tri = h.source →
        F.contains L.geometric = .ok true → ∃ L', h.applyLam L = .ok L' ∧ L'.NoArcs ∧ F.call L.geometric = .ok L'.geometric := by
  have hk' : h.kind.isMapping = true := by cases hkk : h.kind <;> simp_all [EncKind.isMapping]
  have hcls' : c.cls.isMultiCurve = true := by rcases hcls with h | h <;> rw [h] <;> rfl
  obtain ⟨F, f1, f2, f3⟩ := hh.plAction hk' hn hc ht hcls' hz
  have hlen : c.geometric.length = h.source.zeta := by rw [hc.1.2, ht]
  refine ⟨F, f1, f3.onto.types, (C28_call F _ _ f3.onto.types _ hlen).1.2 f2, ?_⟩
  intro R _ _ _ _ L hL hLt hD
  have hl : L.geometric.length = h.source.zeta := by rw [hL.1.2, hLt]
  have hC := C28_call F _ _ f3.onto.types _ hl
  have hd := hC.1.1 hD
  obtain ⟨L', k1, _, k2, k3⟩ := f3.apply R L hL hLt hd
  exact ⟨L', k1, k2, by rw [hC.2.2.1 hd, k3]⟩

/-- C28: in particular `h.pl_action(c)(c)` are the weights of `h(c)`. -/
theorem C28_pl_action_at_itself (h : Enc) (hh : h.Legal) (hk : h.kind ≠ .encoding) (hn : h.NoEmptyMultiflip) (hz : 0 < h.source.zeta) (c : Lam Int)
    (hcls : c.cls = .multicurve ∨ c.cls = .curve) (hc : c.NoArcs) (ht : c.tri = h.source) :
    ∃ F c', h.plAction c = .ok (some F) ∧ h.applyLam c = .ok c' ∧ F.call c.geometric = .ok c'.geometric := by
  obtain ⟨F, f1, _, f2, f3⟩ := C28_pl_action h hh hk hn hz c hcls hc ht
  obtain ⟨c', h1, _, h2⟩ := f3 Int c hc ht f2
  exact ⟨F, c', f1, h1, h2⟩

/-- C28: an eigenvector that `eigenvector` returns is one of the candidates and lies in the domain. -/
theorem C28_eigenvector {R : Type} [CommRing R] [LinearOrder R] (F : PLF) (candidates : List (R × List R)) (μ : R) (v : List R)
    (h : F.eigenvector candidates = .ok (μ, v)) : (μ, v) ∈ candidates ∧ F.contains v = .ok true := by
  induction candidates with
  | nil => cases h
  | cons p candidates ih =>
    obtain ⟨μ', v'⟩ := p
    unfold PLF.eigenvector at h
    cases hb : F.contains v' with
    | error e => rw [hb] at h; cases h
    | ok b =>
      rw [hb, py_bind_ok] at h
      cases b with
      | true => simp at h; obtain ⟨rfl, rfl⟩ := h; exact ⟨by simp, hb⟩
      | false => obtain ⟨h1, h2⟩ := ih h; exact ⟨by simp [h1], h2⟩

/-- C28 (used by `projective_invariant_lamination`): if the candidates are eigenvectors of the matrix then a returned pair `(μ, v)`
describes a projectively invariant lamination: if the weights `v` have no arcs then the mapping multiplies them by `μ`. -/
theorem C28_invariant_lamination (h : Enc) (hh : h.Legal) (hk : h.kind ≠ .encoding) (hn : h.NoEmptyMultiflip) (hz : 0 < h.source.zeta) (c : Lam Int)
    (hcls : c.cls = .multicurve ∨ c.cls = .curve) (hc : c.NoArcs) (ht : c.tri = h.source) (F : PLF) (hF : h.plAction c = .ok (some F))
    (R : Type) [CommRing R] [LinearOrder R] [IsStrictOrderedRing R] [Halvable R] (candidates : List (R × List R))
    (he : ∀ p ∈ candidates, F.action.image p.2 = p.2.map (p.1 * ·)) (μ : R) (L : Lam R) (hL : L.NoArcs) (hLt : L.tri = h.source)
    (hr : F.eigenvector candidates = .ok (μ, L.geometric)) :
    ∃ L', h.applyLam L = .ok L' ∧ L'.geometric = L.geometric.map (μ * ·) := by
  obtain ⟨F', f1, f2, _, f3⟩ := C28_pl_action h hh hk hn hz c hcls hc ht
  rw [hF] at f1; cases f1
  obtain ⟨h1, h2⟩ := C28_eigenvector F candidates μ L.geometric hr
  obtain ⟨L', k1, _, k2⟩ := f3 R L hL hLt h2
  have hl : L.geometric.length = h.source.zeta := by rw [hL.1.2, hLt]
  have hC := C28_call F _ _ f2 _ hl
  rw [hC.2.2.1 (hC.1.1 h2), he _ h1] at k2
  injection k2 with k2
  exact ⟨L', k1, k2.symm⟩

/-- C28: `pl_action` raises `AssertionError` for anything but a multicurve and does not exist on a bare `Encoding`. -/
theorem C28_pl_action_rejects (h : Enc) (c : Lam Int) : (h.kind ≠ .encoding → c.cls ≠ .multicurve → c.cls ≠ .curve → h.plAction c = .error .assertionError) ∧
    (h.kind = .encoding → h.plAction c = .error .attributeError) := by
  constructor
  · intro h1 h2 h3
    have hk' : h.kind.isMapping = true := by cases hkk : h.kind <;> simp_all [EncKind.isMapping]
    have hc' : c.cls.isMultiCurve = false := by cases hkk : c.cls <;> simp_all [LamClass.isMultiCurve]
    unfold Enc.plAction
    rw [hk', hc']; rfl
  · intro h1
    unfold Enc.plAction
    rw [h1]; rfl

/-- C28 fails for the multiflip of no edges: it is the identity on laminations but its `pl_action` cannot be applied to anything. -/
theorem C28_empty_multiflip : ∃ h F, torus.encode [.multiflip []] = .ok h ∧ h.applyLam torusCurve = .ok torusCurve ∧ h.plAction torusCurve = .ok (some F) ∧
    F.call torusCurve.geometric = .error .valueError :=
  ⟨_, _, rfl, by decide +kernel, rfl, by decide +kernel⟩

theorem torusCurve_noArcs : torusCurve.NoArcs := by
  rw [Lam.noArcs_iff]
  refine ⟨torusCurve_consistent, ?_⟩
  intro a b c hg
  rcases hg with h | h | h <;> simp [torusCurve, torus] at h <;>
    rcases h with ⟨rfl, rfl, rfl⟩ | ⟨rfl, rfl, rfl⟩ <;> decide

/-- the hypotheses are met by the square of a twist on the torus -/
example : torusTwist.Legal ∧ torusTwist.kind ≠ .encoding ∧ torusTwist.NoEmptyMultiflip ∧ 0 < torusTwist.source.zeta ∧ torusCurve.NoArcs ∧
    torusCurve.tri = torusTwist.source := by
  refine ⟨torusTwist_spec.2.1, by rw [torusTwist_spec.2.2.1]; decide, ?_, by decide +kernel, torusCurve_noArcs, by decide +kernel⟩
  have : ∀ m ∈ torusTwist.sequence, ∀ f, m.move = .multiflip f → f.edges ≠ [] := by
    intro m hm f hf
    have hall : torusTwist.sequence.all (fun m => match m.move with | .multiflip f => !f.edges.isEmpty | _ => true) = true := by decide +kernel
    have := List.all_eq_true.1 hall m hm
    rw [hf] at this
    change (!f.edges.isEmpty) = true at this
    intro h; rw [h] at this; cases this
  exact this

example : torusTwist.plAction torusCurve = .ok (some ⟨[[0, 1, 0], [-1, 0, 2], [0, 0, 1]], [[0, -2, 2]]⟩) := by decide +kernel

end Curver
