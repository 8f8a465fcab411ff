import Verif.Proofs.Doubling
import Verif.Proofs.MultiArc
import Verif.Props.Homology
import Mathlib.Data.ZMod.Basic
import Mathlib.Algebra.CharP.Two

/-!
# Multiarcs that cut the surface into polygons
-/

namespace Curver
open Triangulation

namespace Triangulation
variable {T : Triangulation}

/-- the triangles on one side of an edge of the tree -/
theorem beyond (hT : T.Valid) {tree : List Int} (hsub : ∀ i ∈ tree, i ∈ T.indices)
    (hf : ∀ i ∈ tree, ∀ s ∈ T.triangles, ∀ t ∈ T.triangles, i ∈ s.labels → inv i ∈ t.labels → ¬ T.DualConnected (fun j => j ∈ tree ∧ j ≠ i) s t)
    (w : Int → Int) (hw : ∀ x, w (inv x) = w x) (h0 : ∀ x, T.IsLabel x → 0 < w x → norm x ∈ tree) (hpos : ∀ a b c, T.Glues a b c → 0 < w a → 0 < w b ∨ 0 < w c) :
    ∀ x, T.IsLabel x → ¬ 0 < w x := by
  classical
  have hc := hT.comp
  let A : Int → Finset Tri := fun x => T.triangles.toFinset.filter (fun u => T.DualConnected (fun j => j ∈ tree ∧ j ≠ norm x) (T.triOf x) u)
  have hf' : ∀ x, T.IsLabel x → norm x ∈ tree → ¬ T.DualConnected (fun j => j ∈ tree ∧ j ≠ norm x) (T.triOf x) (T.triOf (inv x)) := by
    intro x hx ht hcon
    have m1 := hc.triOf_mem hx
    have m2 := hc.triOf_mem (isLabel_inv.2 hx)
    by_cases q : 0 ≤ x
    · have e : norm x = x := by unfold norm inv; omega
      rw [e] at ht hcon
      exact hf _ ht _ m1.1 _ m2.1 m1.2 m2.2 hcon
    · have e : norm x = inv x := by unfold norm inv; omega
      rw [e] at ht hcon
      exact hf _ ht _ m2.1 _ m1.1 m2.2 (by rw [Curver.inv_inv]; exact m1.2) (hcon.symm)
  have step : ∀ x y, T.IsLabel x → T.IsLabel y → 0 < w x → 0 < w y → y ≠ x → T.triOf y = T.triOf x → (A (inv y)).card < (A x).card := by
    intro x y hx hy px py hne ht
    have ty := h0 y hy py
    have tx := h0 x hx px
    have hyx : norm y ≠ norm x := by
      intro e
      have : y = inv x := by
        rcases show y = x ∨ y = inv x by unfold norm inv at e; unfold inv; omega with h | h
        · exact absurd h hne
        · exact h
      have := hf' x hx tx
      rw [← ‹y = inv x›, ht] at this
      exact this (.refl _)
    have hny := hf' y hy ty
    have ninv : norm (inv y) = norm y := by unfold norm inv; omega
    -- from inv y, one does not come to the triangle of x
    have hs : ¬ T.DualConnected (fun j => j ∈ tree ∧ j ≠ norm y) (T.triOf (inv y)) (T.triOf x) := by
      intro h
      rw [← ht] at h
      exact hny h.symm
    have hst : T.DualConnected (fun j => j ∈ tree ∧ j ≠ norm x) (T.triOf x) (T.triOf (inv y)) := by
      rw [← ht]
      have m1 := hc.triOf_mem hy
      have m2 := hc.triOf_mem (isLabel_inv.2 hy)
      by_cases q : 0 ≤ y
      · have e : norm y = y := by unfold norm inv; omega
        exact .rel _ _ ⟨m1.1, m2.1, y, q, ⟨e ▸ ty, fun h => hyx (e.trans h)⟩, m1.2, m2.2⟩
      · have e : norm y = inv y := by unfold norm inv; omega
        exact .symm _ _ (.rel _ _ ⟨m2.1, m1.1, inv y, by unfold inv; omega, ⟨e ▸ ty, fun h => hyx (e.trans h)⟩, m2.2, by rw [Curver.inv_inv]; exact m1.2⟩)
    have key : ∀ u v, T.DualConnected (fun j => j ∈ tree ∧ j ≠ norm y) u v → T.DualConnected (fun j => j ∈ tree ∧ j ≠ norm y) (T.triOf (inv y)) u →
        T.DualConnected (fun j => j ∈ tree ∧ j ≠ norm x) u v := by
      intro u v h
      induction h with
      | rel u v h =>
        intro hu
        obtain ⟨h1, h2, j, j0, ⟨j1, j2⟩, j3, j4⟩ := h
        refine .rel _ _ ⟨h1, h2, j, j0, ⟨j1, fun e => ?_⟩, j3, j4⟩
        have hv := hu.trans _ _ _ (.rel _ _ ⟨h1, h2, j, j0, ⟨j1, j2⟩, j3, j4⟩)
        have : x = j ∨ x = inv j := by unfold norm inv at e; unfold inv; omega
        rcases this with rfl | rfl
        · rw [← hc.triOf_eq h1 j3] at hu
          exact hs hu
        · rw [← hc.triOf_eq h2 j4] at hv
          exact hs hv
      | refl => exact fun _ => .refl _
      | symm u v h ih => exact fun hu => (ih (hu.trans _ _ _ h.symm)).symm
      | trans a b c h1 h2 ih1 ih2 => exact fun hu => (ih1 hu).trans _ _ _ (ih2 (hu.trans _ _ _ h1))
    refine Finset.card_lt_card ⟨?_, ?_⟩
    · intro u hu
      simp only [A, Finset.mem_filter, ninv] at hu ⊢
      exact ⟨hu.1, hst.trans _ _ _ (key _ _ hu.2 (.refl _))⟩
    · intro hsub'
      have : T.triOf x ∈ A x := by
        simp only [A, Finset.mem_filter, List.mem_toFinset]
        exact ⟨(hc.triOf_mem hx).1, .refl _⟩
      have := hsub' this
      simp only [A, Finset.mem_filter, ninv] at this
      exact hs this.2
  have main : ∀ n : Nat, ∀ x, T.IsLabel x → 0 < w x → (A x).card = n → False := by
    intro n
    induction n using Nat.strong_induction_on with
    | _ n ih =>
      intro x hx px e
      have hg := hc.glues_nxt hx
      have l := hc.label_of_glues hg
      have hne := hc.glues_ne hg
      rcases hpos _ _ _ hg px with p | p
      · have := step x _ hx l.2.1 px p hne.1.symm (hc.triOf_nxt hx)
        exact ih _ (e ▸ this) _ (isLabel_inv.2 l.2.1) (by rw [hw]; exact p) rfl
      · have := step x _ hx l.2.2 px p hne.2.2 (by rw [hc.triOf_nxt l.2.1, hc.triOf_nxt hx])
        exact ih _ (e ▸ this) _ (isLabel_inv.2 l.2.2) (by rw [hw]; exact p) rfl
  intro x hx px
  exact main _ x hx px rfl

/-- the two triangles at an edge -/
theorem edge_chain (hT : T.Valid) {j : Int} (j0 : 0 ≤ j) (lj : T.IsLabel j) {a b c : Int} (hg : T.Glues a b c) :
    (if norm a = j then 1 else 0 : ZMod 2) + (if norm b = j then 1 else 0) + (if norm c = j then 1 else 0) = (if T.triOf a = T.triOf j then 1 else 0) + (if T.triOf a = T.triOf (inv j) then 1 else 0) := by
  have hc := hT.comp
  have lj' := isLabel_inv.2 lj
  have l := hc.label_of_glues hg
  have hne := hc.glues_ne hg
  have e1 := hc.nxt_of_glues hg
  have e2 := hc.nxt_of_glues hg.rot
  have key : ∀ k, T.IsLabel k → ((if T.triOf a = T.triOf k then 1 else 0 : ZMod 2) = (if a = k then 1 else 0) + (if b = k then 1 else 0) + (if c = k then 1 else 0)) := by
    intro k hk
    have := hc.triOf_eq_iff' l.1 hk
    rw [e1, e2] at this
    by_cases qa : k = a
    · subst qa
      rw [if_pos (this.2 (.inl rfl)), if_pos rfl, if_neg hne.1.symm, if_neg hne.2.2]; rfl
    · by_cases qb : k = b
      · subst qb
        rw [if_pos (this.2 (.inr (.inl rfl))), if_pos rfl, if_neg hne.1, if_neg hne.2.1.symm]; rfl
      · by_cases qc : k = c
        · subst qc
          rw [if_pos (this.2 (.inr (.inr rfl))), if_pos rfl, if_neg hne.2.2.symm, if_neg hne.2.1]; rfl
        · rw [if_neg (fun h => by rcases this.1 h with h | h | h <;> contradiction), if_neg (fun h => qa h.symm), if_neg (fun h => qb h.symm), if_neg (fun h => qc h.symm)]; rfl
  have split : ∀ x : Int, (if norm x = j then 1 else 0 : ZMod 2) = (if x = j then 1 else 0) + (if x = inv j then 1 else 0) := by
    intro x
    by_cases q1 : x = j
    · have : ¬ x = inv j := by unfold inv; omega
      rw [if_pos (by unfold norm inv; omega), if_pos q1, if_neg this]; rfl
    · by_cases q2 : x = inv j
      · rw [if_pos (by unfold norm; unfold inv at q2 ⊢; omega), if_neg q1, if_pos q2]; rfl
      · rw [if_neg (by unfold norm; unfold inv at q2 ⊢; omega), if_neg q1, if_neg q2]; rfl
  rw [key j lj, key _ lj', split, split, split]
  ring

/-- a walk in the dual graph, as the set of the edges that it crosses an odd number of times -/
theorem chain (hT : T.Valid) {tree : List Int} {s t : Tri} (h : T.DualConnected (fun j => j ∈ tree) s t) :
    ∃ z : Int → ZMod 2, (∀ i, i ∉ tree → z i = 0) ∧ ∀ a b c, T.Glues a b c → z (norm a) + z (norm b) + z (norm c) = (if T.triOf a = s then 1 else 0) + (if T.triOf a = t then 1 else 0) := by
  have hc := hT.comp
  induction h with
  | rel s t h =>
    obtain ⟨h1, h2, j, j0, j1, j3, j4⟩ := h
    refine ⟨fun i => if i = j then 1 else 0, fun i hi => if_neg (fun e : i = j => hi (e ▸ j1)), ?_⟩
    intro a b c hg
    rw [← hc.triOf_eq h1 j3, ← hc.triOf_eq h2 j4]
    exact edge_chain hT j0 (hc.mem_labels_of_mem h1 j3) hg
  | refl s => exact ⟨fun _ => 0, fun _ _ => rfl, fun a b c _ => by rw [CharTwo.add_self_eq_zero, add_zero, CharTwo.add_self_eq_zero]⟩
  | symm s t _ ih =>
    obtain ⟨z, z1, z2⟩ := ih
    exact ⟨z, z1, fun a b c hg => by rw [z2 a b c hg, add_comm]⟩
  | trans s t u _ _ ih1 ih2 =>
    obtain ⟨z, z1, z2⟩ := ih1
    obtain ⟨y, y1, y2⟩ := ih2
    refine ⟨fun i => z i + y i, fun i hi => by show z i + y i = 0; rw [z1 i hi, y1 i hi, add_zero], fun a b c hg => ?_⟩
    have e1 := z2 a b c hg
    have e2 := y2 a b c hg
    have e3 := CharTwo.add_self_eq_zero (if T.triOf a = t then 1 else 0 : ZMod 2)
    linear_combination e1 + e2 + e3

end Triangulation

namespace Lam
variable {L K s X Y S : Lam Int}

/-- a lamination of closed curves that crosses none of the edges of a multiarc -/
theorem disjoint_of_support (hX : X.NoArcs) (hs : s.Consistent) (ht : X.tri = s.tri) (hle : ∀ x, s.tri.IsLabel x → s.w x ≤ 0) (h : ∀ x, s.tri.IsLabel x → 0 < X.w x → s.w x = 0) : X.DisjointFrom s := by
  classical
  have hX' := noArcs_iff.1 hX
  have hc := hs.1.1.comp
  let S : Lam Int := make s.tri (fun x => X.w x + s.w x) .integral
  have hS : ∀ x, s.tri.IsLabel x → S.w x = X.w x + s.w x := fun x hx => make_w _ (fun y => by rw [w_inv, w_inv]) hx
  have h0 : ∀ x, s.tri.IsLabel x → 0 ≤ X.w x := by
    intro x hx
    obtain ⟨b, c, hg⟩ := hc.exists_glues hx
    exact (hX'.2 x b c (by rw [ht]; exact hg)).1
  have hm : ∀ x, s.tri.IsLabel x → max (S.w x) 0 = max (X.w x) 0 := by
    intro x hx
    have a1 := h0 x hx
    have a2 := hle x hx
    have a3 := h x hx
    rw [hS x hx]
    omega
  have wS : S.WellFormed := make_wellFormed hs.1.1 _ _
  refine ⟨S, consistent_iff.2 ⟨wS, fun a b c hg => ?_⟩, fun x _ => decide (0 < X.w x), ⟨fun x t _ _ => by rw [w_inv], ?_⟩, ⟨hX.1, ht, ?_⟩, hs.1, rfl, ?_⟩
  · have l := hc.label_of_glues hg
    have := (consistent_iff.1 hX'.1).2 a b c (by rw [ht]; exact hg)
    unfold TriEven at this ⊢
    rw [hm a l.1, hm b l.2.1, hm c l.2.2]
    exact this
  · intro x y z t hg h1 h2 _
    have l := hc.label_of_glues hg
    rw [hm x l.1] at h1
    rw [hm z l.2.2] at h2
    rw [w_inv, decide_eq_decide]
    omega
  · intro x hx
    have a1 := h0 x hx
    by_cases q : 0 < X.w x
    · have e := hS x hx
      rw [h x hx q, add_zero] at e
      rw [e, count_all.2 (fun t _ => by simpa using q), Int.sign_eq_one_of_pos q]
      omega
    · rw [count_none.2 (fun t _ => by simpa using q)]
      have : X.w x = 0 := by omega
      rw [this]; simp
  · intro x hx
    have a1 := h0 x hx
    have a2 := hle x hx
    by_cases q : 0 < X.w x
    · rw [count_none.2 (fun t _ => by simpa using q), h x hx q]; simp
    · have e := hS x hx
      rw [show X.w x = 0 by omega, zero_add] at e
      rw [e, count_all.2 (fun t _ => by simpa using q)]
      rcases eq_or_lt_of_le a2 with h | h
      · rw [h]; simp
      · rw [Int.sign_eq_neg_one_of_neg h]; omega

theorem NoArcs.nonneg (hX : X.NoArcs) {x : Int} (hx : X.tri.IsLabel x) : 0 ≤ X.w x := by
  obtain ⟨b, c, hg⟩ := hX.1.1.comp.exists_glues hx
  exact ((noArcs_iff.1 hX).2 x b c hg).1

theorem DisjointFrom.zero (hd : X.DisjointFrom s) (hX : X.NoArcs) {x : Int} (hx : s.tri.IsLabel x) (hn : s.w x < 0) : X.w x = 0 := by
  obtain ⟨S, h1, red, -, h2, h3⟩ := hd
  rw [h3.2.1] at hx
  have a1 := h2.2.2 x hx
  have a2 := h3.2.2 x hx
  have a3 := hX.nonneg (x := x) (by rw [h2.2.1]; exact hx)
  rcases lt_trichotomy (S.w x) 0 with q | q | q
  · rw [Int.sign_eq_neg_one_of_neg q] at a1
    omega
  · rw [q] at a1; simpa using a1
  · rw [Int.sign_eq_one_of_pos q] at a2
    omega

/-- for a multiarc that runs along edges, the dual tree decides -/
theorem cuts_iff (hs : s.Consistent) (hle : ∀ x, s.tri.IsLabel x → s.w x ≤ 0) {tree : List Int} (ht : s.tri.dualTree (s.tri.indices.filter (fun x => decide (s.w x < 0))) = .ok tree) :
    s.CutsIntoPolygons ↔ ∀ i ∈ s.tri.indices, i ∈ tree ∨ s.w i < 0 := by
  have hT := hs.1.1
  have hc := hT.comp
  obtain ⟨tree', t1, t2, t3, t4, t5⟩ := C34_forest s.tri hT (s.tri.indices.filter (fun x => decide (s.w x < 0)))
  rw [ht] at t1
  injection t1 with t1
  subst t1
  constructor
  · intro h i hi
    by_contra q
    push Not at q
    obtain ⟨q1, q2⟩ := q
    have li := isLabel_index hi
    have i0 := (mem_indices.1 hi).1
    have m1 := hc.triOf_mem li
    have m2 := hc.triOf_mem (isLabel_inv.2 li)
    have hcon : s.tri.DualConnected (fun j => j ∈ tree) (s.tri.triOf i) (s.tri.triOf (inv i)) := by
      rw [← t5]
      exact .rel _ _ ⟨m1.1, m2.1, i, i0, by simp [q2], m1.2, m2.2⟩
    obtain ⟨z, z1, z2⟩ := chain hT hcon
    -- close the chain with i
    let u : Int → Int := fun x => if z (norm x) + (if norm x = i then 1 else 0) = 1 then 1 else 0
    have hu : ∀ x, u (Curver.inv x) = u x := by
      intro x
      have : norm (Curver.inv x) = norm x := by unfold norm Curver.inv; omega
      simp only [u, this]
    have hX : ∀ x, s.tri.IsLabel x → (make s.tri u .integral).w x = u x := fun x hx => make_w _ hu hx
    have tri : ∀ a b c, s.tri.Glues a b c → (u a = 0 ∧ u b = 0 ∧ u c = 0) ∨ (u a = 1 ∧ u b = 1 ∧ u c = 0) ∨ (u a = 1 ∧ u b = 0 ∧ u c = 1) ∨ (u a = 0 ∧ u b = 1 ∧ u c = 1) := by
      intro a b c hg
      have e1 := z2 a b c hg
      have e2 := edge_chain hT i0 li hg
      have e : (z (norm a) + (if norm a = i then 1 else 0)) + (z (norm b) + (if norm b = i then 1 else 0)) + (z (norm c) + (if norm c = i then 1 else 0)) = 0 := by
        have e3 := CharTwo.add_self_eq_zero ((if s.tri.triOf a = s.tri.triOf i then 1 else 0 : ZMod 2) + (if s.tri.triOf a = s.tri.triOf (Curver.inv i) then 1 else 0))
        linear_combination e1 + e2 + e3
      simp only [u]
      revert e
      generalize z (norm a) + (if norm a = i then 1 else 0) = p
      generalize z (norm b) + (if norm b = i then 1 else 0) = q
      generalize z (norm c) + (if norm c = i then 1 else 0) = r
      revert p q r
      decide
    have wX : (make s.tri u .integral).WellFormed := make_wellFormed hT _ _
    have nX : (make s.tri u .integral).NoArcs := by
      rw [noArcs_iff, consistent_iff]
      refine ⟨⟨wX, fun a b c hg => ?_⟩, fun a b c hg => ?_⟩
      · have l := hc.label_of_glues hg
        rw [hX a l.1, hX b l.2.1, hX c l.2.2]
        intro _ _ _
        rcases tri a b c hg with ⟨e1, e2, e3⟩ | ⟨e1, e2, e3⟩ | ⟨e1, e2, e3⟩ | ⟨e1, e2, e3⟩ <;> rw [e1, e2, e3] <;> decide
      · have l := hc.label_of_glues hg
        rw [hX a l.1, hX b l.2.1, hX c l.2.2]
        rcases tri a b c hg with ⟨e1, e2, e3⟩ | ⟨e1, e2, e3⟩ | ⟨e1, e2, e3⟩ | ⟨e1, e2, e3⟩ <;> rw [e1, e2, e3] <;> decide
    have hd : (make s.tri u .integral).DisjointFrom s := by
      refine disjoint_of_support nX hs rfl hle (fun x hx px => ?_)
      rw [hX x hx] at px
      by_contra hne
      have hneg : s.w x < 0 := lt_of_le_of_ne (hle x hx) hne
      have hneg' : s.w (norm x) < 0 := by
        have e : norm (norm x) = norm x := by unfold norm Curver.inv; omega
        unfold Lam.w at hneg ⊢
        rw [e]
        exact hneg
      have z0 : z (norm x) = 0 := z1 _ (fun h => (t3 _ h).2 (by simp [index_norm hx, hneg']))
      have ni : norm x ≠ i := by
        rintro rfl
        omega
      simp only [u, z0, if_neg ni] at px
      revert px
      decide
    have := h _ nX hd i li
    rw [hX i li] at this
    have ei : norm i = i := by unfold norm Curver.inv; omega
    simp only [u, ei, z1 i q1] at this
    revert this
    decide
  · intro h X hX hd x hx
    have et : X.tri = s.tri := by
      obtain ⟨S, _, hu⟩ := hd
      exact hu.wf.2.2.1.trans hu.wf.2.2.2.symm
    by_contra q
    have q : 0 < X.w x := by have := hX.nonneg hx; omega
    refine beyond hT (fun i hi => (t3 i hi).1) t4 X.w (w_inv X) ?_ ?_ x (by rw [← et]; exact hx) q
    · intro y hy py
      rcases h _ (index_norm hy) with h | h
      · exact h
      · have : s.w y < 0 := by
          have e : norm (norm y) = norm y := by unfold norm inv; omega
          unfold Lam.w at h ⊢
          rw [e] at h
          exact h
        have := hd.zero hX hy this
        omega
    · intro a b c hg pa
      have := ((noArcs_iff.1 hX).2 a b c (by rw [et]; exact hg)).2
      omega

theorem Blank.same' (h : X.Blank) (e : Same X Y) : Y.Blank := e.blank h

theorem CutsIntoPolygons.same (h : L.CutsIntoPolygons) (e : Same L K) : K.CutsIntoPolygons := fun X hX hd => h X hX (hd.same .refl e.symm)

theorem CutsIntoPolygons.enc {h : Enc} (hp : L.CutsIntoPolygons) (hL : L.Consistent) (hh : h.Legal) (ha : h.applyLam L = .ok K) : K.CutsIntoPolygons := by
  intro X hX hd
  have u := hh.undo hL.1 ha
  obtain ⟨X', x1, x2⟩ := hd.enc hh.inv' u.2.1 u.2.2.2
  have hb := hp X' (hh.inv'.noArcs hX x1) x2
  have nX' := hh.inv'.noArcs hX x1
  have := hh.undo' hX.1 x1
  exact hb.enc hh nX'.1 this.2.2.2

/-- a closed component has a parallel copy -/
theorem not_cuts (hL : L.Consistent) (hX : L.HasPart X) (hn : X.NoArcs) : ¬ L.CutsIntoPolygons := by
  intro h
  obtain ⟨hc, N, hu⟩ := hX
  obtain ⟨S, s1, s2⟩ := hu.again hL
  exact hc.1 (h X hn ⟨S, s1, s2⟩)

end Lam
end Curver
