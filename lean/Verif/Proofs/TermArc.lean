import Verif.Proofs.TermFind

/-!
# Laminations without closed strands

The lamination that is made from a cut sequence consists of arcs only.
-/

namespace Curver
open Triangulation

namespace Lam
variable {L L' M N X : Lam Int} {s : List Int}

/-- no part is closed -/
def OnlyArcs (M : Lam Int) : Prop := ∀ A B, M.IsUnion A B → A.NoArcs → A.Blank

theorem OnlyArcs.part (h : M.OnlyArcs) (hM : M.Consistent) (hu : M.IsUnion X N) : N.OnlyArcs := by
  intro A B hA hn
  obtain ⟨K, k1, -⟩ := hu.swap hM hA
  exact h A K k1 hn

theorem OnlyArcs.same (h : M.OnlyArcs) (hs : Same M N) : N.OnlyArcs := by
  intro A B hA hn
  exact h A B (hA.same hA.wf.1 hA.wf.2.1 hs.symm .refl .refl) hn

theorem OnlyArcs.peels {Xs : List (Lam Int)} (hp : M.Peels Xs N) : M.OnlyArcs → M.Consistent → N.OnlyArcs := by
  induction hp with
  | nil => exact fun h _ => h
  | cons h1 _ ih => exact fun h hM => ih (h.part hM h1) (h1.consistent hM).2

theorem OnlyArcs.chain : ∀ {l : List Item} {N : Lam Int}, Chain N l M → N.OnlyArcs → N.Consistent → M.OnlyArcs
  | [], N, h, hN, _ => hN.same ⟨h.1.symm, h.2.symm⟩
  | i :: l, N, h, hN, hC => by
    obtain ⟨N', h1, h2⟩ := h
    have w1 := h1.wf
    obtain ⟨Xs, K, -, p1, p2, p3, -, p5⟩ := h1.peels hC
    have hs : Same N' K := same_of_w w1.1 p3.1 (w1.2.trans p2.symm) (fun x hx => (p5 x (by rw [← w1.2]; exact hx)).symm)
    exact OnlyArcs.chain (Chain.congr hs.1 hs.2 h2) (OnlyArcs.peels p1 hN hC) p3

theorem OnlyArcs.enc (h : L.OnlyArcs) (hL : L.Consistent) {k : Enc} (hk : k.Legal) (ha : k.applyLam L = .ok L') : L'.OnlyArcs := by
  intro A B hu hn
  have hi := hk.inv'
  have hL' := hL.enc hk ha
  obtain ⟨A1, B1, a1, a2, a3⟩ := hu.enc hL' hi (hk.undo hL.1 ha).2.2.2
  have hA := hu.wf.1
  have hb := h A1 B1 a3 (hi.noArcs hn a1)
  have w := a3.wf
  have hd := hi.undo hA a1
  exact hb.enc hi.inv' w.1 hd.2.2.2

theorem OnlyArcs.nonpos (h : L.OnlyArcs) (hS : L.Smooth) : ∀ x, L.tri.IsLabel x → L.w x ≤ 0 := by
  have hw := hS.cons.1
  have hcol : L.Colouring (fun x _ => decide (0 < L.w x)) := by
    refine ⟨fun x t _ _ => by simp only [w_inv], ?_⟩
    intro x y z t hg h1 h2 h3
    simp only [w_inv]
    rw [decide_eq_true (show 0 < L.w x by omega), decide_eq_true (show 0 < L.w z by omega)]
  obtain ⟨A, B, hA, hB, hu⟩ := hcol.exists_union hw
  have hAw : ∀ x, L.tri.IsLabel x → A.w x = max (L.w x) 0 := by
    intro x hx
    rw [hA.2.2 x hx]
    by_cases q : 0 < L.w x
    · have : Nat.count (fun t => decide (0 < L.w x) = true) (L.w x).natAbs = (L.w x).natAbs :=
        count_all (p := fun t => decide (0 < L.w x)) (b := true).2 (fun t _ => by simp [q])
      rw [this, Int.sign_mul_natAbs]; omega
    · have : Nat.count (fun t => decide (0 < L.w x) = true) (L.w x).natAbs = 0 :=
        count_none (p := fun t => decide (0 < L.w x)) (b := true).2 (fun t _ => by simpa using q)
      rw [this]; simp; omega
  have hn : A.NoArcs := by
    rw [noArcs_iff]
    refine ⟨(hu.consistent hS.cons).1, ?_⟩
    intro x y z hg
    rw [hA.2.1] at hg
    have l := hw.1.comp.label_of_glues hg
    have c := hS.corner hg
    rw [hAw x l.1, hAw y l.2.1, hAw z l.2.2]
    omega
  intro x hx
  have := h A B hu hn x (by rw [hA.2.1]; exact hx)
  rw [hAw x hx] at this
  omega

theorem cut_strand (hc : L.IsCut s) (hS : L.Smooth) {red : Int → Nat → Bool} (hr : (L.cutLam s).Colouring red) {A : Lam Int} (hA : (L.cutLam s).IsPart red true A) (hn : A.NoArcs)
    {x y z : Int} (hg : L.tri.Glues x y z) (hx : Curver.inv x ∈ s) : (L.nx (Curver.inv x) ∈ s ∧ red x 0 = red (Curver.inv (L.nx (Curver.inv x))) 0) ∨ red x 0 = false := by
  have l := hS.cons.1.1.comp.label_of_glues hg
  obtain ⟨-, -, -, g1, g2, g3, f⟩ := hc.facts hS hg
  have hix := ind_one.2 hx
  have hwx := cutLam_w (L := L) hc.nodup l.1
  have r1 := ind_range s x
  have r2 := ind_range s y
  have r3 := ind_range s z
  have r4 := ind_range s (Curver.inv z)
  rw [nx_eq hS.cons.1 hg]
  by_cases q : 0 < L.lf x
  · rw [if_pos q]
    have hz : ind s z = 1 := by rw [← hc.key hS hg q]; exact hix
    refine .inl ⟨ind_one.1 hz, ?_⟩
    refine hr.corner x y z 0 hg ?_ ?_ ?_ <;> clear * - f g1 g2 g3 q hz r1 r2 r3 r4 hix hwx <;> rcases f with f | f | f | f | f <;> omega
  · rw [if_neg q]
    have f' : (L.cutLam s).w y = ind s y + ind s x ∧ (L.cutLam s).w z = 0 ∧ (L.cutLam s).w x = ind s x + 1 := by
      rw [hix] at f
      clear * - f q hwx hix r1
      rcases f with f | f | f | f | f <;> omega
    obtain ⟨f1, f2, f3⟩ := f'
    by_cases hy : y ∈ s
    · refine .inl ⟨hy, ?_⟩
      rw [ind_one.2 hy] at f1
      have b1 := hr.back x (ind s x).toNat l.1 (by omega)
      have b2 := hr.back y 0 l.2.1 (by omega)
      have c := hr.corner y z x (ind s x).toNat hg.rot (by omega) (by omega) (by omega)
      rw [b2, show ((L.cutLam s).w y).natAbs - 1 - 0 = (ind s x).toNat by omega, c, b1, show ((L.cutLam s).w x).natAbs - 1 - (ind s x).toNat = 0 by omega]
    · right
      have hy0 : ind s y = 0 := by unfold ind; rw [if_neg hy]
      have t := ((noArcs_iff.1 hn).2 x y z (by rw [hA.2.1]; exact hg)).2
      have e1 := hA.2.2 x l.1
      have e2 := hA.2.2 y l.2.1
      have e3 := hA.2.2 z l.2.2
      have hsub : ind s x = 0 ∨ ind s x = 1 := by omega
      rw [f2] at e3
      rcases hsub with hsub | hsub
      · rw [hsub, hy0] at f1
        rw [hsub] at f3
        rw [f1] at e2
        rw [f3] at e1
        by_contra qq
        rw [Bool.not_eq_false] at qq
        simp [Nat.count_succ, qq] at e1 e2 e3
        omega
      · rw [hsub, hy0] at f1
        rw [hsub] at f3
        have b1 := hr.back x 0 l.1 (by omega)
        have c := hr.corner y z x 0 hg.rot (by omega) (by omega) (by omega)
        rw [f1] at e2
        rw [f3] at e1 b1
        simp at b1
        rw [b1] at c
        by_contra qq
        rw [Bool.not_eq_false] at qq
        simp [Nat.count_succ, qq, c] at e1 e2 e3
        have h2 : Int.sign 2 = 1 := rfl
        rw [h2] at e1
        cases hq : red x 1 <;> simp [hq] at e1 e2 <;> omega

theorem IsCut.onlyArcs (hc : L.IsCut s) (hS : L.Smooth) : (L.cutLam s).OnlyArcs := by
  rintro A B ⟨red, hr, hA, -⟩ hn
  have hcomp := hS.cons.1.1.comp
  have key : ∀ (i : Nat) (e : Int), e ∈ s → L.nx^[i] e ∉ s → red (Curver.inv e) 0 = false := by
    intro i
    induction i with
    | zero => intro e h1 h2; exact absurd h1 h2
    | succ i ih =>
      intro e h1 h2
      have he := (hc.dom e h1).1
      obtain ⟨y, z, hg⟩ := hcomp.exists_glues (isLabel_inv.2 he)
      rcases cut_strand hc hS hr hA hn hg (by rw [Curver.inv_inv]; exact h1) with ⟨k1, k2⟩ | k
      · rw [Curver.inv_inv] at k1 k2
        rw [k2]
        rw [Function.iterate_succ_apply] at h2
        exact ih _ k1 h2
      · exact k
  have key' : ∀ e ∈ s, red (Curver.inv e) 0 = false := by
    intro e he
    obtain ⟨i, hi⟩ := hc.leaves e he
    exact key i e he hi
  rw [hA.blank_iff]
  intro x t hx ht
  replace hx : L.tri.IsLabel x := hx
  have hw := cutLam_w hc.nodup hx (s := s)
  have r1 := ind_range s x
  have r2 := ind_range s (Curver.inv x)
  have hb := hr.back x
  have h0 : Curver.inv x ∈ s → red x 0 = false := fun q => by
    have := key' _ q; rwa [Curver.inv_inv] at this
  have h1 := key' x
  rw [← ind_one] at h0 h1
  have hsub : ind s x = 0 ∨ ind s x = 1 := by omega
  have hsub' : ind s (Curver.inv x) = 0 ∨ ind s (Curver.inv x) = 1 := by omega
  have hb0 := hr.back x 0 hx
  rw [hw] at ht hb0
  rcases hsub with q | q <;> rcases hsub' with q' | q' <;> rw [q, q'] at ht hb0
  · simp at ht
  · have : t = 0 := by simp at ht; omega
    subst this
    exact h0 q'
  · have : t = 0 := by simp at ht; omega
    subst this
    have := hb0 (by simp)
    simp at this
    rw [← this]; exact h1 q
  · have h2 := hb0 (by simp)
    simp at h2
    have : t = 0 ∨ t = 1 := by simp at ht; omega
    rcases this with rfl | rfl
    · exact h0 q'
    · rw [← h2]; exact h1 q

end Lam
end Curver
