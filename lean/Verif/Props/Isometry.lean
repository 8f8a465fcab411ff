import Verif.Proofs.Legal
import Verif.Props.Flips

/-!
# C11, C33: relabellings; the action of moves on homology

The vocabulary (`SignedBij`, `IsIsometry`, `Legal`, `Homologous`) is in `Verif/Spec/Isometry.lean` and
`Verif/Spec/Flip.lean`.
-/

namespace Curver
open Triangulation

/-! ## C11 -/

/-- C11: relabelling the edges by a signed bijection `f`, given by a dictionary with at least one of `i`, `~i` for each
index, succeeds.  The target is the relabelled triangulation; the weight of an edge is found on the image edge, for
laminations and for homology classes, and the inverse move undoes it exactly. -/
theorem C11_relabel (R : Type) [CommRing R] [LinearOrder R] [IsStrictOrderedRing R] [Halvable R]
    (T : Triangulation) (hT : T.Valid) (f : Int → Int) (hf : T.SignedBij f) (d : PyDict Int Int) (hd : d.keys.Nodup)
    (hitems : ∀ e v, (e, v) ∈ d → T.IsLabel e ∧ v = f e) (hall : ∀ i ∈ T.indices, i ∈ d.keys ∨ inv i ∈ d.keys) :
    ∃ m, T.encodeRelabel d = .ok m ∧ m.move.source = T ∧ m.move.target.Valid ∧ T.IsIsometry m.move.target f ∧
      (∀ L : Lam R, L.WellFormed → L.tri = T → ∃ L', m.move.applyLam L = .ok L' ∧ L'.tri = m.move.target ∧ L'.WellFormed ∧
        L'.cls = L.cls ∧ (∀ e, T.IsLabel e → L'.w (f e) = L.w e) ∧ m.inverse.move.applyLam L' = .ok L) ∧
      (∀ x : Hom, x.WellFormed → x.tri = T → ∃ x', m.move.applyHom x = .ok x' ∧ x'.tri = m.move.target ∧ x'.WellFormed ∧
        (∀ e, T.IsLabel e → x'.v (f e) = x.v e) ∧ m.inverse.move.applyHom x' = .ok x) := by
  obtain ⟨T', i, i', g, h1, h2, h3, h4, h5, h6, h7, h8⟩ := hf.encodeRelabel hT hd hitems hall
  have ht : (Move.isometry i).target = T' := h4.target
  refine ⟨_, h1, h4.source, by rw [ht]; exact h2, by rw [ht]; exact h3, ?_, ?_⟩
  · rintro L hL rfl
    obtain ⟨L', k1, k2, k3⟩ := h4.applyLam h3 hL rfl
    subst k2
    have hw : L'.WellFormed := ⟨h2, by rw [k3.2.1, hL.2, h3.zeta]⟩
    exact ⟨L', k1, ht.symm, hw, k3.1, k3.2.2, (h5.applyLam_iff h6 hw rfl).2 ⟨rfl, k3.inverse h6 h8⟩⟩
  · rintro x hx rfl
    obtain ⟨x', k1, k2, k3⟩ := h4.applyHom h3 hx rfl
    subst k2
    have hw : x'.WellFormed := ⟨h2, by rw [k3.1, hx.2, h3.zeta]⟩
    refine ⟨x', k1, ht.symm, hw, k3.2, ?_⟩
    obtain ⟨x'', l1, l2, l3⟩ := h5.applyHom h6 hw rfl
    have l4 : x'.MapsTo g x := ⟨k3.1.symm, fun e he => by rw [← k3.2 (g e) (h6.maps e he), h8 e he]⟩
    rw [Hom.MapsTo.unique hw h6 l4 l3 rfl l2]
    exact l1

/-- C11: if for some index neither it nor its reverse is a key then `ValueError` is raised. -/
theorem C11_missing_index (T : Triangulation) (d : PyDict Int Int) (hd : d.keys.Nodup)
    (h : ∃ i ∈ T.indices, i ∉ d.keys ∧ inv i ∉ d.keys) : T.encodeRelabel d = .error .valueError :=
  encodeRelabel_error hd h

/-- a rotation of the torus -/
def rotMap : Int → Int := fun e => if e = 2 then 0 else if e = -3 then -1 else if 0 ≤ e then e + 1 else e - 1

example : torus.SignedBij rotMap := by
  have key : ∀ e ∈ torus.labels, torus.IsLabel (rotMap e) ∧ rotMap (inv e) = inv (rotMap e) ∧
    ∀ e' ∈ torus.labels, rotMap e = rotMap e' → e = e' := by decide
  exact ⟨fun e he => (key e (mem_labels.2 he)).1, fun e e' he he' => (key e (mem_labels.2 he)).2.2 e' (mem_labels.2 he'),
    fun e he => (key e (mem_labels.2 he)).2.1⟩

example : ∀ e v, (e, v) ∈ [((0 : Int), (1 : Int)), (-2, -3), (2, 0)] → torus.IsLabel e ∧ v = rotMap e := by
  simp only [List.mem_cons, Prod.mk.injEq, List.not_mem_nil, or_false]
  rintro e v (⟨rfl, rfl⟩ | ⟨rfl, rfl⟩ | ⟨rfl, rfl⟩) <;> decide

example : torus.encodeRelabel [(0, 1), (1, 2)] = .error .valueError := by decide

/-- C11, a limit of the code: `encode_relabel_edges` does not check that a dictionary that is given in full respects
reversal.  This bijection of the labels is accepted, but it exchanges the weights of no edges while changing the sign
conventions of only one side: it sends `0` to `0` and `~0` to `~1`. -/
theorem C11_unsigned_is_accepted : ∃ d : PyDict Int Int, ∃ m, torus.encodeRelabel d = .ok m ∧
    (∀ e, torus.IsLabel e ↔ e ∈ d.keys) ∧ (∀ e, torus.IsLabel e ↔ e ∈ d.values) ∧
    d.get? 0 = some 0 ∧ d.get? (inv 0) = some (inv 1) := by
  refine ⟨[(0, 0), (-1, -2), (1, 1), (-2, -1), (2, 2), (-3, -3)], _, rfl, ?_, ?_, by decide, by decide⟩ <;>
  · intro e
    unfold IsLabel
    rw [show torus.zeta = 3 by decide]
    simp only [PyDict.keys, PyDict.values, List.map_cons, List.map_nil, List.mem_cons, List.not_mem_nil]
    constructor
    · rintro ⟨h1, h2⟩
      have : e = 0 ∨ e = -1 ∨ e = 1 ∨ e = -2 ∨ e = 2 ∨ e = -3 := by omega
      tauto
    · rintro (rfl | rfl | rfl | rfl | rfl | rfl | h)
      all_goals first | (exact h.elim) | decide

/-! ## C33 -/

/-- C33: every flip, multiflip and isometry can be applied to every homology class on its source. -/
theorem C33_total (m : LMove) (hm : m.Legal) (x : Hom) (hx : x.WellFormed) (ht : x.tri = m.move.source) :
    ∃ x', m.move.applyHom x = .ok x' ∧ x'.tri = m.move.target ∧ x'.WellFormed := hm.applyHom hx ht

/-- C33: classes are homologous iff their images are, so moves act injectively on homology. -/
theorem C33_homologous (m : LMove) (hm : m.Legal) (x y x' y' : Hom) (hx : x.WellFormed) (hy : y.WellFormed)
    (tx : x.tri = m.move.source) (ty : y.tri = m.move.source) (ax : m.move.applyHom x = .ok x')
    (ay : m.move.applyHom y = .ok y') : x'.Homologous y' ↔ x.Homologous y :=
  hm.homologous_iff hx hy tx ty ax ay

/-- C33: a move followed by its inverse gives a homologous class. -/
theorem C33_back (m : LMove) (hm : m.Legal) (x x' : Hom) (hx : x.WellFormed) (tx : x.tri = m.move.source)
    (ax : m.move.applyHom x = .ok x') : ∃ x'', m.inverse.move.applyHom x' = .ok x'' ∧ x.Homologous x'' :=
  hm.hom_back hx tx ax

/-- C33: the inverse of a move is again a move, from the target to the source; so moves act on homology as
isomorphisms. -/
theorem C33_inverse (m : LMove) (hm : m.Legal) : m.inverse.Legal ∧ m.inverse.inverse = m ∧
    m.inverse.move.source = m.move.target ∧ m.inverse.move.target = m.move.source :=
  ⟨hm.inverse, rfl, hm.valid.2.2.2.1, hm.valid.2.2.2.2⟩

/-- C33: moves are linear on homology classes. -/
theorem C33_linear (m : LMove) (hm : m.Legal) (x y z x' y' z' : Hom) (hx : x.WellFormed) (hy : y.WellFormed) (hz : z.WellFormed)
    (tx : x.tri = m.move.source) (ty : y.tri = m.move.source) (tz : z.tri = m.move.source)
    (ax : m.move.applyHom x = .ok x') (ay : m.move.applyHom y = .ok y') (az : m.move.applyHom z = .ok z') (k l : Int)
    (hs : ∀ e, m.move.source.IsLabel e → z.v e = k * x.v e + l * y.v e) :
    ∀ e, m.move.target.IsLabel e → z'.v e = k * x'.v e + l * y'.v e :=
  hm.hom_add hx hy hz tx ty tz ax ay az k l hs

example : ∃ m, LMove.Legal m ∧ m.move.source = torus ∧
    m.move.applyHom ⟨torus, [1, 0, 0]⟩ = .ok ⟨⟨[⟨-3, 1, 0⟩, ⟨-2, -1, 2⟩]⟩, [0, -1, -1]⟩ :=
  ⟨⟨.flip ⟨torus, ⟨[⟨-3, 1, 0⟩, ⟨-2, -1, 2⟩]⟩, 0, ⟨1, 2, -2, -3, 0⟩⟩,
    .flip ⟨⟨[⟨-3, 1, 0⟩, ⟨-2, -1, 2⟩]⟩, torus, -1, ⟨2, -2, -3, 1, -1⟩⟩⟩, .flip torus 0 _ torus_valid (by decide), rfl,
    by decide⟩

end Curver
