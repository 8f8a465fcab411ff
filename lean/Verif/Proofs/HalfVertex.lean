import Verif.Proofs.HalfAct
import Verif.Props.VertexMap

/-!
# What a half twist does to the vertices
-/

namespace Curver
open Triangulation
namespace Triangulation
variable {S S' T T1 : Triangulation} {a x e1 : Int} {ns : List LMove} {c h k : Enc}

/-- one move: the curve around the tail of `a` -/
theorem Path.tail {ms : List LMove} (hp : Path S ms S') {C : Int → Int → Prop} (hC : VCorr S S' C) (hR : Carries (R := Int) S S' (performLam ms) C) {a a' : Int} (hca : C a a')
    {v w : List Int} (hv : S.vertexOf a = .ok v) (hw : S'.vertexOf a' = .ok w) : performLam ms (S.curveFromCutSequence v : Lam Int) = .ok (S'.curveFromCutSequence w) := by
  have hS := hp.valid_source.comp
  have hS' := hp.valid_target.comp
  have hl := hC.lab _ _ hca
  obtain ⟨v', vs, h1, h2, h3, h4, _⟩ := hS.vertexOf_ok hl.1
  rw [hv] at h1; cases h1
  obtain ⟨w', ws, k1, k2, k3, k4, _⟩ := hS'.vertexOf_ok hl.2
  rw [hw] at k1; cases k1
  obtain ⟨w', j1, j2⟩ := hC.exists_match hS hS' h2 k2 h3
  obtain ⟨_, _, b3, _⟩ := hS'.vertices_mem k2
  obtain rfl : w' = w := b3 _ j1 _ k3 a' ((j2 _ _ hca).1 h4) k4
  exact Path.link hp hC hR h2 k2 h3 k3 j2

theorem Off.tail {ms : List LMove} (hp : Path S ms S') (ho : Off a ms) (ha : S.IsLabel a) {v : List Int} (hv : S.vertexOf a = .ok v) : ∀ {w : List Int}, S'.vertexOf a = .ok w →
    performLam ms (S.curveFromCutSequence v : Lam Int) = .ok (S'.curveFromCutSequence w) := by
  induction hp generalizing v with
  | nil T hT => intro w hw; rw [hv] at hw; cases hw; rfl
  | cons m ms T hm hs ih =>
    intro w hw
    obtain ⟨U, U', x, rfl, hU, hf, hmf, h1, h2⟩ := ho m (by simp)
    have ha' : U.IsLabel a := ha
    have lU' : U'.IsLabel a := by unfold IsLabel at ha' ⊢; rw [hmf.zeta]; exact ha'
    obtain ⟨u, _, hu, _⟩ := hmf.valid.comp.vertexOf_ok lU'
    have hd := disjoint_singleton.2 hf
    have hC := hmf.vcorr hU hd
    have l2 := (Turns.legal hU hf hmf).2
    have hR : Carries (R := Int) U U' (performLam [flipMove U U' x]) (IsMultiflip.corr U [x] U') := by
      refine hmf.carries hU hd ?_
      rintro L L' hL rfl
      rw [← ef_applyLam_iff hL hf]
      change (do let K ← EdgeFlip.applyLam _ L; performLam [] K) = _ ↔ _
      cases EdgeFlip.applyLam ⟨L.tri, U', x, L.tri.sq x⟩ L <;> exact Iff.rfl
    have hca : IsMultiflip.corr U [x] U' a a := by
      refine ⟨ha', a, ?_, hU.comp.sv_refl ha', hmf.valid.comp.sv_refl lU'⟩
      simp only [sides, List.flatMap_cons, List.flatMap_nil, List.append_nil, List.mem_cons, List.not_mem_nil, or_false, not_or]
      exact ⟨h1.symm, fun k => h2 (by rw [k, inv_inv])⟩
    have hp1 : Path U [flipMove U U' x] U' := Path.single l2
    have := Path.tail hp1 hC hR hca hv hu
    rw [performLam, py_bind_eq_ok] at this
    obtain ⟨K, t1, t2⟩ := this
    cases t2
    rw [performLam]
    change (do let K ← (flipMove U U' x).move.applyLam (U.curveFromCutSequence v : Lam Int); performLam ms K) = _
    rw [t1, py_bind_ok]
    exact ih (fun m hm => ho m (by simp [hm])) lU' hu hw

/-- the half twist takes the tail of its arc to the other end -/
theorem Built.tail (B : Built T a ns T1 e1 c h k) {b : Int} (hb : b = a ∨ b = inv a) {v u : List Int} (hv : T.vertexOf b = .ok v) (hu : T.vertexOf (inv b) = .ok u) :
    k.applyLam (T.curveFromCutSequence v : Lam Int) = .ok (T.curveFromCutSequence u) := by
  have hT : T.Valid := by have := B.clegal.path.valid_source; rwa [B.csource] at this
  have hT1 : T1.Valid := by have := B.clegal.path.valid_target; rwa [B.ctarget] at this
  have lz : T1.zeta = T.zeta := by
    have := B.clegal.path.zeta
    rwa [B.csource, B.ctarget] at this
  obtain ⟨P, Q, S1, ε, D, ms, S, F, S', ε2, r, Ψ, G, m, H⟩ := B.half
  have la1 : T1.IsLabel a := (hT1.comp.label_of_glues B.glues).1
  have lb1 : T1.IsLabel b := by rcases hb with rfl | rfl; exacts [la1, isLabel_inv.2 la1]
  have lb : T.IsLabel b := by unfold IsLabel at lb1 ⊢; rw [← lz]; exact lb1
  have hS' : S'.Valid := H.half.swept.flipped.valid
  have lS' : S'.IsLabel b := by unfold IsLabel at lb1 ⊢; rw [H.half.iso.zeta]; exact lb1
  have hiso : S'.IsIsometry T1 G := H.back.choose_spec.2.2.2.2
  have gb : G b = inv b := by
    rcases hb with rfl | rfl
    · have := H.gf (inv b) (isLabel_inv.2 la1); rwa [H.half.at_c] at this
    · have := H.gf a la1; rwa [H.half.at_a, ← inv_inv (x := a), inv_inv] at this
  have off1 : Off b ns := by rcases hb with rfl | rfl; exacts [B.coff, B.coff.inv']
  have off1' : Off (inv b) ns := off1.inv'
  have off2 : Off b (flipMove T1 S1 e1 :: (ms ++ [flipMove S S' (F Q)])) := by rcases hb with rfl | rfl; exacts [H.off, H.off.inv']
  obtain ⟨v1, _, hv1, _⟩ := hT1.comp.vertexOf_ok lb1
  obtain ⟨u1, _, hu1, _⟩ := hT1.comp.vertexOf_ok (isLabel_inv.2 lb1)
  obtain ⟨v2, _, hv2, _⟩ := hS'.comp.vertexOf_ok lS'
  have c1 := Off.tail B.cpath off1 lb hv hv1
  have c2 := Off.tail H.path off2 lb1 hv1 hv2
  have c3 := Off.tail B.cpath off1' (isLabel_inv.2 lb) hu hu1
  obtain ⟨i, i1, i2⟩ := H.legal.isometry_acts H.back
  have c4 : m.move.applyLam (S'.curveFromCutSequence v2 : Lam Int) = .ok (T1.curveFromCutSequence u1) := by
    have hR : Carries (R := Int) S' T1 (performLam [m]) (IsIsometry.corr S' G) := by
      have hmv : ∀ L : Lam Int, performLam [m] L = i.applyLam L := by
        intro L
        rw [performLam, i1]
        change (do let K ← i.applyLam L; performLam [] K) = _
        cases i.applyLam L <;> rfl
      refine hiso.carries hS' hT1 (fun L L' hL ht => by rw [hmv]; exact i2.applyLam_iff hiso hL ht) (fun L hL ht => ?_)
      obtain ⟨L', h1, _⟩ := i2.applyLam hiso hL ht
      exact ⟨L', by rw [hmv, h1]⟩
    have hp1 : Path S' [m] T1 := by
      have := Path.single H.legal
      rwa [i1, show (Move.isometry i).source = S' from i2.source, show (Move.isometry i).target = T1 from i2.target] at this
    have := Path.tail hp1 (hiso.vcorr hS'.comp hT1.comp) hR (a := b) (a' := inv b) ⟨lS', gb.symm⟩ hv2 hu1
    rw [performLam, py_bind_eq_ok] at this
    obtain ⟨K, t1, t2⟩ := this
    cases t2
    exact t1
  have w0 : (T.curveFromCutSequence v : Lam Int).WellFormed := (Lam.consistent_link hT ⟨b, lb, hv⟩).1.1
  have w1 : (T1.curveFromCutSequence v1 : Lam Int).WellFormed := (Lam.consistent_link hT1 ⟨b, lb1, hv1⟩).1.1
  have w3 : (T.curveFromCutSequence u : Lam Int).WellFormed := (Lam.consistent_link hT ⟨inv b, isLabel_inv.2 lb, hu⟩).1.1
  have d1 : c.applyLam (T.curveFromCutSequence v : Lam Int) = .ok (T1.curveFromCutSequence v1) := by rw [B.clam Int _ w0 rfl, c1]
  have d3 : c.applyLam (T.curveFromCutSequence u : Lam Int) = .ok (T1.curveFromCutSequence u1) := by rw [B.clam Int _ w3 rfl, c3]
  have d4 := (B.clegal.undo w3 d3).2.2.2
  rw [B.conj.lam Int _ w0, d1, py_bind_ok, H.lam Int _ w1 rfl, c2, py_bind_ok, c4, py_bind_ok, d4]

theorem link_noArcs (hT : T.Valid) {v : List Int} (hv : ∃ e, T.IsLabel e ∧ T.vertexOf e = .ok v) : (T.curveFromCutSequence v : Lam Int).NoArcs := by
  obtain ⟨h1, h2⟩ := Lam.consistent_link (R := Int) hT hv
  refine ⟨h1.1, fun e he => ?_⟩
  obtain ⟨n, hn⟩ := h2 e he
  refine ⟨?_, n, Int.natCast_nonneg n, hn⟩
  rw [link_w (T := T) v he]
  exact Int.natCast_nonneg _

/-- the other vertices stay -/
theorem Built.fixed (B : Built T a ns T1 e1 c h k) {v : List Int} {x : Int} (hx : T.IsLabel x) (hv : T.vertexOf x = .ok v) (h1 : a ∉ v) (h2 : inv a ∉ v) :
    k.applyLam (T.curveFromCutSequence v : Lam Int) = .ok (T.curveFromCutSequence v) := by
  have hT : T.Valid := by have := B.clegal.path.valid_source; rwa [B.csource] at this
  have hT1 : T1.Valid := by have := B.clegal.path.valid_target; rwa [B.ctarget] at this
  have lz : T1.zeta = T.zeta := by
    have := B.clegal.path.zeta
    rwa [B.csource, B.ctarget] at this
  have la1 : T1.IsLabel a := (hT1.comp.label_of_glues B.glues).1
  have la : T.IsLabel a := by unfold IsLabel at la1 ⊢; rw [← lz]; exact la1
  refine B.still (link_noArcs hT ⟨x, hx, hv⟩) rfl ?_
  rw [link_w v la, List.count_eq_zero_of_not_mem h1, List.count_eq_zero_of_not_mem h2]
  rfl

end Triangulation
end Curver
