import Verif.Proofs.Simplify
import Verif.Props.Termination
import Verif.Props.MappingEq

/-!
# C96: simplifying a mapping

`IsIsometryFrom` and `AgreesWith` are in `Verif/Spec/Simplify.lean`, `Agree` in `Verif/Spec/MappingEq.lean`.
-/

namespace Curver
open Triangulation Lam Enc

/-- C96: whatever `simplify` returns is a legal mapping that is equal to the mapping. -/
theorem C96_sound (P : Lam Int → Py LamClass) (dflt : Int → Int → Bool) (fuel : Nat) (h m : Enc) (hh : h.Legal) (hm : h.simplify P dflt fuel = .ok m) :
    m.Legal ∧ m.Agree h ∧ m.eq h = .ok true := by
  obtain ⟨m1, m2⟩ := simplifyWith_spec hh hm
  obtain ⟨b, b1, b2⟩ := C47_eq m h m1 hh
  exact ⟨m1, m2, by rw [b1, b2.2 m2]⟩

/-- C96: `simplify` never changes the answer of `==`. -/
theorem C96_replaces (P : Lam Int → Py LamClass) (dflt : Int → Int → Bool) (fuel : Nat) (h m k : Enc) (hh : h.Legal) (hk : k.Legal) (hm : h.simplify P dflt fuel = .ok m) :
    h.eq k = .ok true ↔ m.eq k = .ok true := by
  obtain ⟨m1, m2⟩ := simplifyWith_spec hh hm
  have e : m.eq h = .ok true := (C96_sound P dflt fuel h m hh hm).2.2
  have e' := (C47_equivalence m h h m1 hh hh).2.1 e
  exact ⟨fun q => (C47_equivalence m h k m1 hh hk).2.2 e q, fun q => (C47_equivalence h m k hh m1 hk).2.2 e' q⟩

/-- C96: two isometries between the same triangulations that agree on homology are the same, so no more than one candidate can be kept. -/
theorem C96_unique (S T : Triangulation) (c d : Enc) (m m' : LMove) (f f' : Int → Int) (hm : m.Legal) (hm' : m'.Legal) (hf : m.IsIsometryMove S T f) (hf' : m'.IsIsometryMove S T f') (hc : m.encode = .ok c) (hd : m'.encode = .ok d)
    (hh : ∀ x y z : Hom, x.WellFormed → c.applyHom x = .ok y → d.applyHom x = .ok z → y.Homologous z) : ∀ e, S.IsLabel e → f e = f' e := by
  intro e he
  obtain ⟨c', c1, c2, c3, c4, -, c6⟩ := isometry_spec hm hf
  cases c1.symm.trans hc
  obtain ⟨d', d1, d2, d3, d4, -, d6⟩ := isometry_spec hm' hf'
  cases d1.symm.trans hd
  have vS : S.Valid := by rw [← c3]; exact c2.path.valid_source
  have vT : T.Valid := by rw [← c4]; exact c2.path.valid_target
  exact isometry_unique vS vT hf.choose_spec.2.2.2.2 hf'.choose_spec.2.2.2.2 c6 d6 (fun x hx tx => (c2.act_ok hx (tx.trans c3.symm)).2.2.trans c4)
    (fun x hx tx => hh x _ _ hx (c2.act_ok hx (tx.trans c3.symm)).1 (d2.act_ok hx (tx.trans d3.symm)).1) he

/-- C96: with acceleration turned off, `simplify` comes back for every mapping.  The image of the triangulation is taken by a sequence of flips `g` to the edges of a triangulation; if an isometry is equal to the mapping followed by `g` then
`simplify` returns a mapping, and otherwise it raises `ValueError`. -/
theorem C96_returns (P : Lam Int → Py LamClass) (dflt : Int → Int → Bool) (hs : ∀ w w', dflt w w' = false) (h : Enc) (hh : h.Legal) :
    ∃ (L : Lam Int) (g : Enc), h.applyLam h.source.asLamination = .ok L ∧ g.Legal ∧ g.source = h.target ∧ g.applyLam L = .ok g.target.asLamination ∧
      (((∃ c : Enc, c.IsIsometryFrom h.source g.target ∧ c.AgreesWith g h) ∧ ∃ m, Returns (fun n => h.simplify P dflt n) m) ∨
        ((¬ ∃ c : Enc, c.IsIsometryFrom h.source g.target ∧ c.AgreesWith g h) ∧ ∃ N, ∀ n ≥ N, h.simplify P dflt n = .error .valueError)) := by
  obtain ⟨L, hL, -, -⟩ := hh.selfImage_ok
  have cL : L.Consistent := hh.path.valid_source.asLamination_consistent.enc hh hL
  obtain ⟨⟨s, g⟩, N, hN⟩ := shorten_returns (P := P) (dflt := dflt) (slow := dflt) cL hs
  obtain ⟨g1, g2, g3⟩ := shorten_edges hh hL (hN N le_rfl)
  refine ⟨L, g, hL, g1, g2, g3, ?_⟩
  by_cases q : ∃ c : Enc, c.IsIsometryFrom h.source g.target ∧ c.AgreesWith g h
  · left
    refine ⟨q, ?_⟩
    obtain ⟨-, c, k, c1, k1, -⟩ | ⟨q', -⟩ := simplifyWith_returns hh hL (hN N le_rfl)
    swap
    · exact absurd q q'
    refine ⟨k, N, fun n hn => ?_⟩
    obtain ⟨-, c', k', c1', k1', e⟩ | ⟨q', -⟩ := simplifyWith_returns hh hL (hN n hn)
    swap
    · exact absurd q q'
    cases c1.symm.trans c1'
    cases k1.symm.trans k1'
    exact e
  · right
    refine ⟨q, N, fun n hn => ?_⟩
    obtain ⟨q', -⟩ | ⟨-, e⟩ := simplifyWith_returns hh hL (hN n hn)
    · exact absurd q' q
    · exact e

/-! ## concrete cases -/

/-- A word of eight moves for the fourth power of a twist is replaced by an equal word of five moves, and the hyperelliptic involution, which fixes every edge, is not replaced by the identity. -/
example : (do
    let h ← torusTwist.mul torusTwist
    let h ← h.mul h
    let m ← h.simplify anyClass neverSlow 20
    return (h.len, m.len, ← m.eq h)) = .ok (8, 5, true) ∧
    (do
    let h ← Triangulation.encode torus [.dict [(0, -1), (1, -2), (2, -3)]]
    let m ← h.simplify anyClass neverSlow 20
    return (← m.eq h, ← m.order)) = .ok (true, 2) := by decide +kernel

/-- the hypotheses of `C96_returns` -/
example : torusTwist.Legal ∧ ∀ w w', neverSlow w w' = false := ⟨torusTwist_spec.2.1, neverSlow_never⟩

end Curver
