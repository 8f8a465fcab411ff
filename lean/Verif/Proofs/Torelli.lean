import Mathlib.Algebra.BigOperators.Ring.Finset
import Mathlib.Algebra.Order.BigOperators.Group.Finset
import Verif.Proofs.HomMatrix
import Verif.Spec.Components

/-!
# Isometries that act trivially on homology

The trace of `1 - f` on the chains of edges is computed in two ways.
-/

namespace Curver
namespace Triangulation
variable {T : Triangulation} {f : Int → Int}

/-- an isometry that fixes an edge fixes everything that leads to it -/
theorem IsIsometry.fix_back (hT : T.Valid) (hf : T.IsIsometry T f) {a b : Int} (h : T.Joined a b) (ha : T.IsLabel a) (hb : f b = b) : f a = a := by
  induction h using Relation.ReflTransGen.head_induction_on with
  | refl => exact hb
  | head h _ ih =>
    rcases h with rfl | ⟨c, hg⟩
    · have := ih (isLabel_inv.2 ha)
      rw [hf.inverts _ ha] at this
      exact Curver.inv_inj.1 this
    · have hl := hT.comp.label_of_glues hg
      have := ih hl.2.1
      have h2 := (hf.glues _ _ _ hg).rot
      rw [this] at h2
      exact (hT.comp.glues_unique h2 hg.rot).2

/-- the edges in the triangle of `e` -/
def inTri (T : Triangulation) (e u : Int) : Int := (if u = e then 1 else 0) + (if u = T.nxt e then 1 else 0) + (if u = T.nxt (T.nxt e) then 1 else 0)

theorem inTri_nxt (hT : T.Valid) (e u : Int) : T.inTri e (T.nxt u) = T.inTri e u := by
  have n3 := hT.comp.nxt3
  have k1 : T.nxt u = e ↔ u = T.nxt (T.nxt e) := ⟨fun h => by rw [← h, n3], fun h => by rw [h, n3]⟩
  have k2 : T.nxt u = T.nxt e ↔ u = e := ⟨fun h => by rw [← n3 u, h, n3], fun h => by rw [h]⟩
  have k3 : T.nxt u = T.nxt (T.nxt e) ↔ u = T.nxt e := ⟨fun h => by rw [← n3 u, h, n3], fun h => by rw [h]⟩
  unfold inTri
  simp only [k1, k2, k3]
  ring

theorem inTri_nonneg (e u : Int) : 0 ≤ T.inTri e u := by
  unfold inTri
  split_ifs <;> omega

/-- an isometry that moves every edge to a homologous edge is the identity -/
theorem IsIsometry.eq_id_of_homologous (hT : T.Valid) (hf : T.IsIsometry T f) (hh : ∀ e, T.IsLabel e → T.NullHomologous (fun u => ind1 e u - ind1 (f e) u)) {e0 : Int} (h0 : T.IsLabel e0) : f e0 = e0 := by
  classical
  by_contra hne
  have n3 := hT.comp.nxt3
  let D : Finset Int := T.labels.toFinset.filter (fun u => T.Joined e0 u)
  have memD : ∀ u, u ∈ D ↔ T.IsLabel u ∧ T.Joined e0 u := fun u => by simp only [D, Finset.mem_filter, List.mem_toFinset, mem_labels]
  have D0 : e0 ∈ D := (memD _).2 ⟨h0, .refl⟩
  have Dinv : ∀ u ∈ D, inv u ∈ D := fun u hu => (memD _).2 ⟨isLabel_inv.2 ((memD u).1 hu).1, ((memD u).1 hu).2.tail (.inl rfl)⟩
  have Dnxt : ∀ u ∈ D, T.nxt u ∈ D := fun u hu => by
    have hg := hT.comp.glues_nxt ((memD u).1 hu).1
    exact (memD _).2 ⟨(hT.comp.label_of_glues hg).2.1, ((memD u).1 hu).2.tail (.inr ⟨_, hg⟩)⟩
  have moved : ∀ u ∈ D, f u ≠ u := fun u hu e => hne (hf.fix_back hT ((memD u).1 hu).2 h0 e)
  choose c hc using hh
  -- an odd choice of the chains
  let d : Int → Int → Int := fun e u => if h : T.IsLabel e then c e h u - c (inv e) (isLabel_inv.2 h) u else 0
  have dlab : ∀ e (h : T.IsLabel e) u, d e u = c e h u - c (inv e) (isLabel_inv.2 h) u := fun e h u => dif_pos h
  have dodd : ∀ e u, T.IsLabel e → d (inv e) u = - d e u := by
    intro e u h
    have e2 : c (inv (inv e)) (isLabel_inv.2 (isLabel_inv.2 h)) u = c e h u := by simp only [Curver.inv_inv]
    rw [dlab _ h, dlab _ (isLabel_inv.2 h), e2]
    ring
  have dtri : ∀ e u, T.IsLabel e → T.IsLabel u → d e (T.nxt u) = d e u := by
    intro e u h hu
    have hg := hT.comp.glues_nxt hu
    rw [dlab _ h, dlab _ h, (hc e h).1 _ _ _ hg, (hc (inv e) _).1 _ _ _ hg]
  have ind1_odd : ∀ a u, ind1 (inv a) u = - ind1 a u := by
    intro a u
    unfold ind1
    rw [Curver.inv_inv]
    ring
  have dbd : ∀ e u, T.IsLabel e → T.IsLabel u → 2 * (ind1 e u - ind1 (f e) u) = d e u - d e (inv u) := by
    intro e u h hu
    rw [dlab _ h, dlab _ h]
    have a := (hc e h).2 u hu
    have b := (hc (inv e) (isLabel_inv.2 h)).2 u hu
    dsimp only at a b
    rw [hf.inverts e h, ind1_odd, ind1_odd] at b
    linarith
  -- sums that are permuted
  have sinv : ∀ F : Int → Int, ∑ e ∈ D, F (inv e) = ∑ e ∈ D, F e := fun F =>
    Finset.sum_nbij' inv inv Dinv Dinv (fun _ _ => Curver.inv_inv _) (fun _ _ => Curver.inv_inv _) (fun _ _ => rfl)
  have snxt : ∀ F : Int → Int, ∑ e ∈ D, F (T.nxt e) = ∑ e ∈ D, F e := fun F =>
    Finset.sum_nbij' T.nxt (fun e => T.nxt (T.nxt e)) Dnxt (fun e h => Dnxt _ (Dnxt _ h)) (fun e _ => n3 e) (fun e _ => n3 e) (fun _ _ => rfl)
  have szero : ∀ u, ∑ e ∈ D, d e u = 0 := by
    intro u
    have h1 := sinv (fun e => d e u)
    rw [Finset.sum_congr rfl (fun e he => dodd e u ((memD e).1 he).1), Finset.sum_neg_distrib] at h1
    omega
  -- the trace on the edges
  have t1 : (D.card : Int) ≤ ∑ e ∈ D, d e e := by
    have h1 : ∑ e ∈ D, (d e e - d e (inv e)) = 2 * ∑ e ∈ D, d e e := by
      have : ∑ e ∈ D, d e (inv e) = - ∑ e ∈ D, d e e := by
        rw [← Finset.sum_neg_distrib, ← sinv (fun e => - d e e)]
        refine Finset.sum_congr rfl (fun e he => ?_)
        rw [dodd e _ ((memD e).1 he).1, neg_neg]
      rw [Finset.sum_sub_distrib, this]
      ring
    have h2 : ∑ e ∈ D, (2 : Int) ≤ ∑ e ∈ D, (d e e - d e (inv e)) := by
      refine Finset.sum_le_sum (fun e he => ?_)
      have le := ((memD e).1 he).1
      rw [← dbd e e le le]
      have a : ind1 e e = 1 := by unfold ind1; rw [if_pos rfl, if_neg (fun h => Curver.inv_ne e h.symm)]; rfl
      have b : ind1 (f e) e ≤ 0 := by
        unfold ind1
        rw [if_neg (fun h => moved e he h.symm)]
        split_ifs <;> omega
      omega
    rw [h1, Finset.sum_const, nsmul_eq_mul] at h2
    linarith
  -- the trace on the triangles
  let g : Int → Int → Int := fun e u => d e u + d (T.nxt e) u + d (T.nxt (T.nxt e)) u - 2 * T.inTri e u + 2 * T.inTri (f e) u
  have gconst : ∀ e ∈ D, ∀ u ∈ D, g e u = g e e0 := by
    intro e he u hu
    have l1 := ((memD e).1 he).1
    have l2 := ((memD _).1 (Dnxt e he)).1
    have l3 := ((memD _).1 (Dnxt _ (Dnxt e he))).1
    have step : ∀ a b, T.IsLabel a → T.Adjacent a b → T.IsLabel b ∧ g e b = g e a := by
      intro a b ha hab
      rcases hab with rfl | ⟨x, hg⟩
      · refine ⟨isLabel_inv.2 ha, ?_⟩
        have a1 := dbd e a l1 ha
        have a2 := dbd _ a l2 ha
        have a3 := dbd _ a l3 ha
        rw [hf.nxt hT.comp hT.comp l1] at a2
        rw [hf.nxt hT.comp hT.comp l2, hf.nxt hT.comp hT.comp l1] at a3
        have sw : ∀ p q : Int, (inv p = q) = (p = inv q) := fun p q => propext ⟨fun h => by rw [← h, Curver.inv_inv], fun h => by rw [h, Curver.inv_inv]⟩
        dsimp only [g]
        unfold inTri
        unfold ind1 at a1 a2 a3
        simp only [sw]
        linarith
      · have hx := hT.comp.label_of_glues hg
        obtain ⟨rfl, -⟩ := (hT.comp.glues_iff ha).1 hg
        refine ⟨hx.2.1, ?_⟩
        dsimp only [g]
        rw [dtri _ _ l1 ha, dtri _ _ l2 ha, dtri _ _ l3 ha, inTri_nxt hT, inTri_nxt hT]
    have : ∀ u, T.Joined e0 u → T.IsLabel u ∧ g e u = g e e0 := by
      intro u hu
      induction hu with
      | refl => exact ⟨h0, rfl⟩
      | tail _ hs ih =>
        have := step _ _ ih.1 hs
        exact ⟨this.1, this.2.trans ih.2⟩
    exact (this u ((memD u).1 hu).2).2
  have t2 : ∑ e ∈ D, g e e ≤ 0 := by
    rw [Finset.sum_congr rfl (fun e he => gconst e he e he)]
    have a0 := szero e0
    have a1 : ∑ e ∈ D, d (T.nxt e) e0 = 0 := by rw [snxt (fun e => d e e0), a0]
    have a2 : ∑ e ∈ D, d (T.nxt (T.nxt e)) e0 = 0 := by rw [snxt (fun e => d (T.nxt e) e0), a1]
    have one : ∑ e ∈ D, (if e0 = e then (1 : Int) else 0) = 1 := by rw [Finset.sum_ite_eq]; exact if_pos D0
    have b1 : ∑ e ∈ D, (if e0 = T.nxt e then (1 : Int) else 0) = 1 := by rw [snxt (fun e => if e0 = e then (1 : Int) else 0), one]
    have b2 : ∑ e ∈ D, (if e0 = T.nxt (T.nxt e) then (1 : Int) else 0) = 1 := by rw [snxt (fun e => if e0 = T.nxt e then (1 : Int) else 0), b1]
    have c0 : ∑ e ∈ D, (if e0 = f e then (1 : Int) else 0) ≤ 1 := by
      rw [Finset.sum_boole]
      have : (D.filter (fun e => e0 = f e)).card ≤ 1 := by
        refine Finset.card_le_one.2 (fun x hx y hy => ?_)
        rw [Finset.mem_filter] at hx hy
        exact hf.inj x y ((memD x).1 hx.1).1 ((memD y).1 hy.1).1 (hx.2.symm.trans hy.2)
      exact_mod_cast this
    have c1 : ∑ e ∈ D, (if e0 = T.nxt (f e) then (1 : Int) else 0) ≤ 1 := by
      rw [Finset.sum_congr rfl (fun e he => by rw [← hf.nxt hT.comp hT.comp ((memD e).1 he).1]), snxt (fun e => if e0 = f e then (1 : Int) else 0)]
      exact c0
    have c2 : ∑ e ∈ D, (if e0 = T.nxt (T.nxt (f e)) then (1 : Int) else 0) ≤ 1 := by
      rw [Finset.sum_congr rfl (fun e he => by rw [← hf.nxt hT.comp hT.comp ((memD e).1 he).1]), snxt (fun e => if e0 = T.nxt (f e) then (1 : Int) else 0)]
      exact c1
    dsimp only [g]
    unfold inTri
    simp only [Finset.sum_add_distrib, Finset.sum_sub_distrib, ← Finset.mul_sum]
    omega
  have t3 : 3 * ∑ e ∈ D, d e e - 2 * D.card ≤ ∑ e ∈ D, g e e := by
    have a1 : ∑ e ∈ D, d (T.nxt e) e = ∑ e ∈ D, d e e := by
      rw [← snxt (fun e => d e e)]
      exact Finset.sum_congr rfl (fun e he => (dtri _ _ ((memD _).1 (Dnxt e he)).1 ((memD e).1 he).1).symm)
    have a2 : ∑ e ∈ D, d (T.nxt (T.nxt e)) e = ∑ e ∈ D, d e e := by
      rw [← a1, ← snxt (fun e => d (T.nxt e) e)]
      exact Finset.sum_congr rfl (fun e he => (dtri _ _ ((memD _).1 (Dnxt _ (Dnxt e he))).1 ((memD e).1 he).1).symm)
    have i1 : ∀ e ∈ D, T.inTri e e = 1 := by
      intro e he
      have n := hT.comp.glues_ne (hT.comp.glues_nxt ((memD e).1 he).1)
      unfold inTri
      rw [if_pos rfl, if_neg n.1, if_neg (fun h => n.2.2 h.symm)]
      rfl
    have i2 : 0 ≤ ∑ e ∈ D, T.inTri (f e) e := Finset.sum_nonneg (fun e _ => inTri_nonneg _ _)
    have i3 : ∑ e ∈ D, T.inTri e e = D.card := by rw [Finset.sum_congr rfl i1, Finset.sum_const, nsmul_eq_mul, mul_one]
    dsimp only [g]
    simp only [Finset.sum_add_distrib, Finset.sum_sub_distrib, ← Finset.mul_sum]
    omega
  have pos : 0 < D.card := Finset.card_pos.2 ⟨e0, D0⟩
  omega

end Triangulation
end Curver
