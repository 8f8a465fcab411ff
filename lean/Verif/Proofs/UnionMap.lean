import Verif.Proofs.UnionConn
import Verif.Proofs.Scale
import Verif.Proofs.ShortenLaws

/-!
# Mappings and disjoint unions
-/

namespace Curver
open Triangulation
namespace Lam
variable {L L1 X Y N : Lam Int} {h : Enc}

theorem blank_scale (hX : X.WellFormed) (hb : X.Blank) : X.scale 0 = X := by
  refine Lam.ext_w rfl rfl (by simp [scale, hX.2]) hX.2 ?_
  intro x hx
  rw [hb x hx]
  simp [scale, Lam.w]

theorem blank_of_scale (h : X.scale 0 = X) : X.Blank := by
  intro x hx
  rw [← h]
  simp [scale, Lam.w]

theorem Blank.enc (hh : h.Legal) (hX : X.WellFormed) (hb : X.Blank) (ha : h.applyLam X = .ok Y) : Y.Blank := by
  have h0 := hh.scale (le_refl (0 : Int)) hX ha
  have e := blank_scale hX hb
  have h0' : h.applyLam (X.scale 0) = .ok (Y.scale 0) := h0
  rw [e, ha] at h0'
  exact blank_of_scale (Except.ok.inj h0').symm

theorem IsUnion.enc (hu : L.IsUnion X Y) (hL : L.Consistent) (hh : h.Legal) (ha : h.applyLam L = .ok L1) :
    ∃ X1 Y1, h.applyLam X = .ok X1 ∧ h.applyLam Y = .ok Y1 ∧ L1.IsUnion X1 Y1 := by
  obtain ⟨X1, Y1, h1, h2, h3⟩ := (hu.splits hL.1).enc hL hh ha
  exact ⟨X1, Y1, h1, h2, h3.isUnion (hh.undo hL.1 ha).1⟩

theorem Consistent.enc (hL : L.Consistent) (hh : h.Legal) (ha : h.applyLam L = .ok L1) : L1.Consistent := by
  have ht : L.tri = h.source := by
    rw [Enc.applyLam_eq] at ha
    split_ifs at ha with q
    exact q.symm
  obtain ⟨K, hK⟩ := hh.applyLam_total ⟨L, hL, ht⟩
  dsimp only at hK
  rw [ha] at hK
  rw [Except.ok.inj hK]
  exact K.2.1

theorem Unions.enc {Xs : List (Lam Int)} (hu : L.Unions Xs) : ∀ {L1}, L.Consistent → h.Legal → h.applyLam L = .ok L1 →
    ∃ Ys, Xs.mapM h.applyLam = .ok Ys ∧ L1.Unions Ys := by
  induction hu with
  | nil hb =>
    intro L1 hL hh ha
    exact ⟨[], rfl, .nil (hb.enc hh hL.1 ha)⟩
  | cons hu hr ih =>
    intro L1 hL hh ha
    obtain ⟨X1, N1, h1, h2, h3⟩ := hu.enc hL hh ha
    obtain ⟨Ys, k1, k2⟩ := ih (hu.consistent hL).2 hh h2
    exact ⟨X1 :: Ys, by rw [List.mapM_cons, h1, py_bind_ok, k1]; rfl, .cons h3 k2⟩

theorem Connected.enc (hc : L.Connected) (hL : L.Consistent) (hh : h.Legal) (ha : h.applyLam L = .ok L1) : L1.Connected := by
  have hu := hh.undo hL.1 ha
  have hi := hh.inv'
  have hL1 := hL.enc hh ha
  refine ⟨fun hb => hc.1 (hb.enc hi hu.1 hu.2.2.2), ?_⟩
  intro X Y hXY
  obtain ⟨X0, Y0, h1, h2, h3⟩ := hXY.enc hL1 hi hu.2.2.2
  have w := hXY.wf
  have k1 := hh.undo' w.1 h1
  have k2 := hh.undo' w.2.1 h2
  rcases hc.2 X0 Y0 h3 with q | q
  · exact .inl (q.enc hh k1.1 k1.2.2.2)
  · exact .inr (q.enc hh k2.1 k2.2.2.2)

end Lam
end Curver
