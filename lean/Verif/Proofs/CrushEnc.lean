import Verif.Proofs.CrushArc
import Verif.Proofs.UnionMap
import Verif.Proofs.ShortenMain

/-!
# `Curve.crush`
-/

namespace Curver
open Triangulation

namespace Lam
variable {L M N K c s : Lam Int} {a b e k t : Int} {X v : List Int} {P : Lam Int → Py LamClass}

/-- what `crush` returns -/
structure Crushes (P : Lam Int → Py LamClass) (c : Lam Int) (f : CrushEnc) (g1 g2 : Enc) (m : CrushMove) (s : Lam Int) (a b e : Int) (X : List Int) : Prop where
  eq : f = ⟨[.enc g1, .crush m, .enc g2], g1.source, g2.target⟩
  legal1 : g1.Legal
  legal2 : g2.Legal
  source1 : g1.source = c.tri
  target1 : g1.target = s.tri
  source2 : g2.source = m.target
  acts : ∃ K, g1.applyLam c = .ok K ∧ Same K s
  crush : Crushing P s m a b e X
  curve : c.NoArcs

theorem crushMove_target {m : CrushMove} (h : m.applyLam P L = .ok K) : K.tri = m.target ∧ K.geometric.length = m.target.zeta := by
  unfold CrushMove.applyLam at h
  simp only [py_bind_eq_ok] at h
  obtain ⟨_, -, _, -, _, -, _, -, _, -, _, -, _, -, _, -, _, -, _, -, _, -, _, -, _, -, _, -, _, -, _, -, h⟩ := h
  obtain ⟨h1, h2, h3⟩ := lamination_ok h
  exact ⟨h2, by rw [h3, h1]⟩

theorem crush_spec {dflt : Int → Int → Bool} {n : Nat} {f : CrushEnc} (hc : c.NoArcs) (hp : ¬ c.Peripheral) (h : c.crush P dflt n = .ok f) : ∃ g1 g2 m s a b e X, Crushes P c f g1 g2 m s a b e X := by
  unfold crush crushWith at h
  obtain ⟨p, p1, p2⟩ := isPeripheral_spec P (noArcs_iff.1 hc).1
  have : p = false := by
    by_contra q
    exact hp (p2.1 (by simpa using q))
  subst this
  rw [p1, py_bind_ok, if_neg (by simp)] at h
  simp only [py_bind_eq_ok] at h
  obtain ⟨⟨s, g1⟩, h1, m, h2, L, -, K, h4, ⟨u, g2⟩, h5, h⟩ := h
  injection h with h
  obtain ⟨s1, -, -⟩ := shortenAll_spec hc.1 h1
  have hs := s1.noArcs hc
  obtain ⟨a, b, e, X, cr⟩ := crushShort_spec hs h2
  obtain ⟨k1, k2⟩ := crushMove_target h4
  obtain ⟨s2, -, -⟩ := shortenAll_spec (L := K) ⟨by rw [k1]; exact cr.target.valid, by rw [k1, k2]⟩ h5
  obtain ⟨K', w1, w2, w3⟩ := s1.acts
  exact ⟨g1, g2, m, s, a, b, e, X, h.symm, s1.legal, s2.legal, s1.source, s1.target, by rw [s2.source, k1], ⟨K', w1, w2, w3⟩, cr, hc⟩

namespace Crushes
variable {f : CrushEnc} {g1 g2 : Enc} {m : CrushMove}

theorem inverse (h : Crushes P c f g1 g2 m s a b e X) : f.inverse = .ok ⟨[.enc g2.inv', .lift m, .enc g1.inv'], f.target, f.source⟩ := by
  have i1 : g1.inverse = .ok g1.inv' := Enc.inverse_eq h.legal1
  have i2 : g2.inverse = .ok g2.inv' := Enc.inverse_eq h.legal2
  unfold CrushEnc.inverse
  rw [h.eq]
  have : [CrushPart.enc g1, .crush m, .enc g2].reverse.mapM CrushPart.inverse = .ok [.enc g2.inv', .lift m, .enc g1.inv'] := by
    simp only [List.reverse_cons, List.reverse_nil, List.nil_append, List.cons_append, List.mapM_cons, List.mapM_nil, CrushPart.inverse, i1, i2, py_bind_ok]
    rfl
  rw [this]
  rfl

/-- applying it -/
theorem apply (h : Crushes P c f g1 g2 m s a b e X) (ht : L.tri = c.tri) {L1 K1 K2 : Lam Int} (h1 : g1.applyLam L = .ok L1) (h2 : m.applyLam P L1 = .ok K1) (h3 : g2.applyLam K1 = .ok K2) : f.applyLam P L = .ok K2 := by
  unfold CrushEnc.applyLam
  rw [h.eq]
  dsimp only
  rw [Triangulation.eq_decide, h.source1, ht]
  simp only [decide_true, Bool.not_true, Bool.false_eq_true, if_false, List.foldlM_cons, List.foldlM_nil, CrushPart.applyLam, h1, py_bind_ok, h2, h3]
  rfl

theorem apply_inv (h : Crushes P c f g1 g2 m s a b e X) (ht : N.tri = f.target) {N1 M1 M2 : Lam Int} (h1 : g2.inv'.applyLam N = .ok N1) (h2 : m.liftLam P N1 = .ok M1) (h3 : g1.inv'.applyLam M1 = .ok M2) :
    CrushEnc.applyLam P ⟨[.enc g2.inv', .lift m, .enc g1.inv'], f.target, f.source⟩ N = .ok M2 := by
  unfold CrushEnc.applyLam
  dsimp only
  rw [Triangulation.eq_decide, ht]
  simp only [decide_true, Bool.not_true, Bool.false_eq_true, if_false, List.foldlM_cons, List.foldlM_nil, CrushPart.applyLam, h1, py_bind_ok, h2, h3]
  rfl

end Crushes
end Lam
end Curver
