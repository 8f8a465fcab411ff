import Verif.Model.Homology
import Verif.Proofs.DualTree
import Verif.Proofs.HomFlip
import Mathlib.Algebra.BigOperators.Group.List.Basic
import Mathlib.Tactic.LinearCombination
import Mathlib.Data.Fintype.Pigeonhole

namespace Curver
open Triangulation Equiv Equiv.Perm

namespace Triangulation
variable {T : Triangulation}

theorem Complete.nxt_not_label (hT : T.Complete) {e : Int} (h : ¬ T.IsLabel e) : T.nxt e = e := by
  have := hT.corner_error h
  unfold corner at this
  rw [PyDict.get_eq_error_iff] at this
  unfold nxt
  rw [PyDict.get?_eq_none_iff.2 this.1]

theorem Complete.nxt3 (hT : T.Complete) (e : Int) : T.nxt (T.nxt (T.nxt e)) = e := by
  by_cases h : T.IsLabel e
  · exact hT.nxt_nxt_nxt h
  · rw [hT.nxt_not_label h, hT.nxt_not_label h, hT.nxt_not_label h]

/-- `nxt` as a permutation -/
def Complete.nxtPerm (hT : T.Complete) : Perm Int := ⟨T.nxt, fun e => T.nxt (T.nxt e), hT.nxt3, hT.nxt3⟩

/-- walking around the boundary of a neighbourhood of some dual edges -/
def Complete.treePerm (hT : T.Complete) : List Int → Perm Int
  | [] => hT.nxtPerm⁻¹
  | i :: l => swap i (inv i) * hT.treePerm l

variable (hT : T.Complete)

theorem Complete.treePerm_apply : ∀ (l : List Int), (∀ i ∈ l, 0 ≤ i) → l.Nodup → ∀ e,
    hT.treePerm l e = if norm (T.nxt (T.nxt e)) ∈ l then inv (T.nxt (T.nxt e)) else T.nxt (T.nxt e) := by
  intro l
  induction l with
  | nil => intro _ _ e; rfl
  | cons i l ih =>
    intro h0 hn e
    rw [List.nodup_cons] at hn
    have hi := h0 i (by simp)
    rw [treePerm, Perm.mul_apply, ih (fun j hj => h0 j (by simp [hj])) hn.2]
    generalize T.nxt (T.nxt e) = p
    by_cases hp : norm p ∈ l
    · have hne : norm p ≠ i := fun h => hn.1 (h ▸ hp)
      rw [if_pos hp, if_pos (by simp [hp])]
      apply swap_apply_of_ne_of_ne
      · intro h; apply hne; rw [← norm_inv, h, norm_of_nonneg hi]
      · intro h; apply hne; rw [← norm_inv, h, norm_inv, norm_of_nonneg hi]
    · rw [if_neg hp]
      by_cases hpi : norm p = i
      · rw [if_pos (by simp [hpi])]
        have : p = i ∨ p = inv i := by rw [← norm_eq_iff, hpi, norm_of_nonneg hi]
        rcases this with h | h
        · rw [h, swap_apply_left]
        · rw [h, swap_apply_right, inv_inv]
      · rw [if_neg (by simp [hp, hpi])]
        apply swap_apply_of_ne_of_ne
        · intro h; apply hpi; rw [h, norm_of_nonneg hi]
        · intro h; apply hpi; rw [h, norm_inv, norm_of_nonneg hi]

theorem Complete.treePerm_isLabel {l : List Int} (hl : ∀ i ∈ l, T.IsLabel i) {e : Int} (he : T.IsLabel e) :
    T.IsLabel (hT.treePerm l e) := by
  induction l with
  | nil => exact hT.isLabel_nxt (hT.isLabel_nxt he)
  | cons i l ih =>
    have := ih (fun j hj => hl j (by simp [hj]))
    have hi := hl i (by simp)
    rw [treePerm, Perm.mul_apply, swap_apply_def]
    split
    · exact isLabel_inv.2 hi
    · split
      · exact hi
      · exact this

theorem Complete.treePerm_pow_isLabel {l : List Int} (hl : ∀ i ∈ l, T.IsLabel i) {e : Int} (he : T.IsLabel e) (n : Nat) :
    T.IsLabel ((hT.treePerm l ^ n) e) := by
  induction n with
  | zero => exact he
  | succ n ih => rw [pow_succ', Perm.mul_apply]; exact hT.treePerm_isLabel hl ih

theorem Complete.treePerm_return {l : List Int} (hl : ∀ i ∈ l, T.IsLabel i) {e : Int} (he : T.IsLabel e) :
    ∃ n, 0 < n ∧ (hT.treePerm l ^ n) e = e := by
  have : Finite {x // T.IsLabel x} := by
    have : Finite {x // x ∈ T.labels} := inferInstance
    exact Finite.of_equiv _ (Equiv.subtypeEquivRight (fun x => mem_labels))
  obtain ⟨m, n, hmn, h⟩ := Finite.exists_ne_map_eq_of_infinite
    (fun n : Nat => (⟨(hT.treePerm l ^ n) e, hT.treePerm_pow_isLabel hl he n⟩ : {x // T.IsLabel x}))
  simp only [Subtype.mk.injEq] at h
  have key : ∀ m n, m < n → (hT.treePerm l ^ m) e = (hT.treePerm l ^ n) e → ∃ n, 0 < n ∧ (hT.treePerm l ^ n) e = e := by
    intro m n hmn h
    refine ⟨n - m, by omega, ?_⟩
    have : (hT.treePerm l ^ n) e = (hT.treePerm l ^ m) ((hT.treePerm l ^ (n - m)) e) := by
      rw [← Perm.mul_apply, ← pow_add, Nat.add_sub_cancel' (by omega)]
    rw [this] at h
    exact (Equiv.injective _ h).symm
  rcases Nat.lt_or_gt_of_ne hmn with h' | h'
  · exact key _ _ h' h
  · exact key _ _ h' h.symm

theorem Complete.sameCycle_nxt {x y : Int} (hx : T.IsLabel x) (hy : T.IsLabel y) :
    (hT.nxtPerm⁻¹).SameCycle x y ↔ T.triOf x = T.triOf y := by
  rw [Perm.sameCycle_inv]
  constructor
  · intro h
    have := sameCycle_of_step (r := fun x y => (T.IsLabel x ↔ T.IsLabel y) ∧ (T.IsLabel x → T.triOf x = T.triOf y))
      ⟨fun x => ⟨Iff.rfl, fun _ => rfl⟩, fun h => ⟨h.1.symm, fun hy => (h.2 (h.1.2 hy)).symm⟩,
        fun h h' => ⟨h.1.trans h'.1, fun hx => (h.2 hx).trans (h'.2 (h.1.1 hx))⟩⟩ ?_ h
    · exact this.2 hx
    · intro x
      change (T.IsLabel x ↔ T.IsLabel (T.nxt x)) ∧ (T.IsLabel x → T.triOf x = T.triOf (T.nxt x))
      refine ⟨⟨hT.isLabel_nxt, fun h => ?_⟩, fun h => (hT.triOf_nxt h).symm⟩
      by_contra hn
      rw [hT.nxt_not_label hn] at h
      exact hn h
  · intro h
    rw [hT.triOf_eq_iff' hx hy] at h
    rcases h with rfl | rfl | rfl
    · exact .refl _ _
    · exact sameCycle_step hT.nxtPerm x
    · exact (sameCycle_step hT.nxtPerm x).trans (sameCycle_step hT.nxtPerm (T.nxt x))

theorem Complete.sameCycle_treePerm : ∀ (l : List Int), (∀ i ∈ l, T.IsLabel i) →
    Forest T.triOf (fun i => T.triOf (inv i)) l → ∀ {x y : Int}, T.IsLabel x → T.IsLabel y →
    ((hT.treePerm l).SameCycle x y ↔ Conn T.triOf (fun i => T.triOf (inv i)) l (T.triOf x) (T.triOf y)) := by
  intro l
  induction l with
  | nil =>
    intro _ _ x y hx hy
    rw [treePerm, hT.sameCycle_nxt hx hy]
    constructor
    · intro h; rw [h]; exact .refl _
    · intro h
      unfold Conn at h
      have : ∀ s t, Relation.EqvGen (fun u v => ∃ i ∈ ([] : List Int), u = T.triOf i ∧ v = T.triOf (inv i)) s t → s = t := by
        intro s t h
        induction h with
        | rel _ _ h => obtain ⟨i, hi, _⟩ := h; simp at hi
        | refl _ => rfl
        | symm _ _ _ ih => exact ih.symm
        | trans _ _ _ _ _ ih1 ih2 => exact ih1.trans ih2
      exact this _ _ h
  | cons i l ih =>
    intro hl hf x y hx hy
    have hl' : ∀ j ∈ l, T.IsLabel j := fun j hj => hl j (by simp [hj])
    have hi := hl i (by simp)
    have hi' := isLabel_inv.2 hi
    have ih' := @ih hl' hf.2
    rw [treePerm, sameCycle_swap_mul (by rw [ih' hi hi']; exact hf.1) (hT.treePerm_return hl' hi), conn_cons, ih' hx hy, ih' hx hi,
      ih' hi' hy, ih' hx hi', ih' hi hy]

theorem sum_ind1 (q : List Int) (hq : q.Nodup) (u : Int) :
    (q.map (fun p => ind1 p u)).sum = (if u ∈ q then 1 else 0) - (if inv u ∈ q then 1 else 0) := by
  induction q with
  | nil => simp
  | cons p q ih =>
    rw [List.nodup_cons] at hq
    rw [List.map_cons, List.sum_cons, ih hq.2]
    unfold ind1
    have h1 := inv_ne u
    by_cases hu : u = p
    · subst hu
      have : u ≠ inv u := h1.symm
      simp [hq.1, this, h1]; ring
    · by_cases hu' : u = inv p
      · have : inv u = p := by rw [hu', inv_inv]
        simp [hu, this, hq.1, hu']
        rw [← hu']; simp [hu]; ring
      · have : ¬ inv u = p := fun h => hu' (by rw [← h, inv_inv])
        simp [hu, hu', this]

theorem gv_replicate (n : Nat) (u : Int) : gv (List.replicate n 0) u = 0 := by
  unfold gv
  rw [List.getElem?_replicate]
  split <;> simp

section
variable {hT} {tree : List Int} {i : Int}

/-- the walk from `i`: the side of the tree at `i` -/
theorem Complete.rowLoop_ok (htree : ∀ j ∈ tree, j ∈ T.indices) (hnd : tree.Nodup)
    (hbr : ¬ (hT.treePerm (tree.erase i)).SameCycle i (inv i)) (hi : i ∈ tree) {n : Nat}
    (hn0 : 0 < n) (hret : (hT.treePerm (tree.erase i) ^ n) i = i)
    (hmin : ∀ k, 0 < k → k < n → (hT.treePerm (tree.erase i) ^ k) i ≠ i) :
    ∀ (d j : Nat), j + d = n → 0 < d → ∀ (fuel : Nat), d ≤ fuel → ∀ (row : List Int), row.length = T.zeta →
    ∃ row', T.homologyRowLoop tree i fuel ((hT.treePerm (tree.erase i) ^ j) i) row = .ok row' ∧ row'.length = T.zeta ∧
      ∀ u, gv row' u = gv row u - ((((List.range' j d).map (fun k => T.nxt (T.nxt ((hT.treePerm (tree.erase i) ^ k) i)))).filter
        (fun p => norm p ∉ tree)).map (fun p => ind1 p u)).sum := by
  set g := hT.treePerm (tree.erase i) with hg
  have hli : ∀ j ∈ tree, T.IsLabel j := fun j hj => mem_indices_isLabel (htree j hj)
  have hle : ∀ j ∈ tree.erase i, T.IsLabel j := fun j hj => hli j (List.mem_of_mem_erase hj)
  have hap : ∀ e, g e = if norm (T.nxt (T.nxt e)) ∈ tree.erase i then inv (T.nxt (T.nxt e)) else T.nxt (T.nxt e) :=
    hT.treePerm_apply _ (fun j hj => (mem_indices.1 (htree j (List.mem_of_mem_erase hj))).1) (hnd.erase _)
  have hni : norm i = i := norm_of_nonneg (mem_indices.1 (htree i hi)).1
  have hmem : ∀ x, x ∈ tree.erase i ↔ x ≠ i ∧ x ∈ tree := fun x => hnd.mem_erase_iff
  intro d
  induction d with
  | zero => intro j _ h; omega
  | succ d ih =>
    intro j hjd _ fuel hfuel row hrow
    obtain ⟨fuel, rfl⟩ : ∃ k, fuel = k + 1 := ⟨fuel - 1, by omega⟩
    have hlab : T.IsLabel ((g ^ j) i) := hT.treePerm_pow_isLabel hle (hli i hi) j
    have hstep : (g ^ (j + 1)) i = g ((g ^ j) i) := by rw [pow_succ', Perm.mul_apply]
    have hlp : T.IsLabel (T.nxt (T.nxt ((g ^ j) i))) := hT.isLabel_nxt (hT.isLabel_nxt hlab)
    have hgp := hap ((g ^ j) i)
    rw [List.range'_succ]
    unfold homologyRowLoop
    rw [hT.corner_nxt hlab, py_bind_ok]
    dsimp only
    generalize hp : T.nxt (T.nxt ((g ^ j) i)) = p at hgp hlp
    simp only [List.map_cons, hp]
    by_cases hpt : norm p ∈ tree
    · rw [if_neg (by simpa using hpt), List.filter_cons_of_neg (by simpa using hpt)]
      by_cases hpi : norm p = i
      · have hgp' : g ((g ^ j) i) = p := by rw [hgp, if_neg (by rw [hmem]; simp [hpi])]
        have : p = i ∨ p = inv i := by rw [← norm_eq_iff, hpi, hni]
        rcases this with rfl | rfl
        · have hd : d = 0 := by
            by_contra hd
            exact hmin (j + 1) (by omega) (by omega) (by rw [hstep, hgp'])
          subst hd
          rw [if_pos rfl]
          exact ⟨row, rfl, hrow, by simp⟩
        · exact absurd (⟨(j + 1 : Nat), by rw [zpow_natCast, hstep, hgp']⟩ : g.SameCycle i (inv i)) hbr
      · have hgp' : g ((g ^ j) i) = inv p := by rw [hgp, if_pos (by rw [hmem]; exact ⟨hpi, hpt⟩)]
        have hne : inv p ≠ inv i := by
          intro h; rw [inv_inj] at h; rw [h] at hpi; exact hpi hni
        rw [if_neg hne]
        have hd : d ≠ 0 := by
          rintro rfl
          have : (g ^ (j + 1)) i = i := by rw [hjd]; exact hret
          rw [hstep, hgp'] at this
          apply hpi; rw [← norm_inv, this, hni]
        obtain ⟨row', h1, h2, h3⟩ := ih (j + 1) (by omega) (by omega) fuel (by omega) row hrow
        rw [hstep, hgp'] at h1
        exact ⟨row', h1, h2, h3⟩
    · rw [if_pos hpt, List.filter_cons_of_pos (by simpa using hpt)]
      have hgp' : g ((g ^ j) i) = p := by rw [hgp, if_neg (by rw [hmem]; exact fun h => hpt h.2)]
      obtain ⟨row1, k1, k2, k3⟩ := subAt_ok (g := row) (a := p) 1 (by rw [hrow]; exact idx_lt hlp)
      rw [k1, py_bind_ok]
      have hne : p ≠ inv i := by rintro rfl; rw [norm_inv, hni] at hpt; exact hpt hi
      rw [if_neg hne]
      have hd : d ≠ 0 := by
        rintro rfl
        have : (g ^ (j + 1)) i = i := by rw [hjd]; exact hret
        rw [hstep, hgp'] at this
        rw [this, hni] at hpt; exact hpt hi
      obtain ⟨row', h1, h2, h3⟩ := ih (j + 1) (by omega) (by omega) fuel (by omega) row1 (by rw [k2, hrow])
      rw [hstep, hgp'] at h1
      refine ⟨row', h1, h2, ?_⟩
      intro u
      rw [h3 u, k3 u, List.map_cons, List.sum_cons]
      ring

end

theorem conn_perm {ι κ : Type _} {a b : ι → κ} {l l' : List ι} (h : ∀ i, i ∈ l ↔ i ∈ l') {x y : κ} : Conn a b l x y ↔ Conn a b l' x y :=
  ⟨fun hc => hc.mono (fun i hi => (h i).1 hi), fun hc => hc.mono (fun i hi => (h i).2 hi)⟩

theorem homologyRowLoop_congr {tree tree' : List Int} (h : ∀ x, x ∈ tree ↔ x ∈ tree') (i : Int) : ∀ (fuel : Nat) (e : Int) (row : List Int),
    T.homologyRowLoop tree i fuel e row = T.homologyRowLoop tree' i fuel e row := by
  intro fuel
  induction fuel with
  | zero => intros; rfl
  | succ fuel ih => intro e row; simp only [homologyRowLoop, h, ih]

theorem homologyRow_congr {tree tree' : List Int} (h : ∀ x, x ∈ tree ↔ x ∈ tree') (i : Int) :
    T.homologyRow tree i = T.homologyRow tree' i := by
  simp only [homologyRow, h, homologyRowLoop_congr h]

theorem gv_set_one {n : Nat} {i : Int} (h0 : 0 ≤ i) (hn : i < n) (u : Int) : gv ((List.replicate n (0 : Int)).set i.toNat 1) u = ind1 i u := by
  unfold gv
  by_cases hu : norm u = i
  · rw [hu, List.getElem?_set_self (by simp; omega)]
    rcases (norm_eq_iff (y := i)).1 (by rw [hu, norm_of_nonneg h0] : norm u = norm i) with rfl | rfl
    · rw [sign_of_nonneg h0]; unfold ind1; simp [(inv_ne u).symm]
    · rw [sign_inv, sign_of_nonneg h0]; unfold ind1; simp [inv_ne i]
  · have h1 : i.toNat ≠ (norm u).toNat := by have := norm_nonneg u; omega
    have h2 : u ≠ i := by rintro rfl; exact hu (norm_of_nonneg h0)
    have h3 : u ≠ inv i := by rintro rfl; exact hu (by rw [norm_inv, norm_of_nonneg h0])
    rw [List.getElem?_set_ne h1, List.getElem?_replicate]
    unfold ind1
    rw [if_neg h2, if_neg h3]
    split <;> simp

include hT in
/-- a row of the matrix: the unit vector minus the row is a boundary and the row vanishes on the tree -/
theorem Complete.homologyRow_ok {avoid : List Int} {s : UnionFind Tri} {tree : List Int} (h : T.TreeInv avoid T.indices s tree) {i : Int}
    (hi : i ∈ T.indices) : ∃ row, T.homologyRow tree i = .ok row ∧ row.length = T.zeta ∧
      (∀ u, norm u ∈ tree → gv row u = 0) ∧ T.NullHomologous (fun u => ind1 i u - gv row u) := by
  have hi' := mem_indices.1 hi
  have hni : norm i = i := norm_of_nonneg hi'.1
  by_cases hit : i ∈ tree
  · rw [homologyRow_congr (tree' := tree.reverse) (by simp)]
    have hforest := h.forest
    have htree : ∀ j ∈ tree.reverse, j ∈ T.indices := fun j hj => h.sub.subset (by simpa using hj)
    have hnd : tree.reverse.Nodup := List.nodup_reverse.2 (h.sub.nodup nodup_indices)
    have hit' : i ∈ tree.reverse := by simpa using hit
    have hmemt : ∀ x, x ∈ tree ↔ x ∈ tree.reverse := by simp
    simp only [hmemt]
    clear hmemt hit h
    generalize tree.reverse = l at *
    have hli : ∀ j ∈ l, T.IsLabel j := fun j hj => mem_indices_isLabel (htree j hj)
    have hle : ∀ j ∈ l.erase i, T.IsLabel j := fun j hj => hli j (List.mem_of_mem_erase hj)
    have hfe := hforest.erase i
    have hil := hli i hit'
    have hsc : ∀ {x y}, T.IsLabel x → T.IsLabel y → ((hT.treePerm (l.erase i)).SameCycle x y ↔
      Conn T.triOf (fun i => T.triOf (inv i)) (l.erase i) (T.triOf x) (T.triOf y)) := hT.sameCycle_treePerm _ hle hfe
    have hbr : ¬ (hT.treePerm (l.erase i)).SameCycle i (inv i) := by
      rw [hsc hil (isLabel_inv.2 hil)]; exact hforest.bridge hit'
    obtain ⟨n, hn0, hret, hmin⟩ := exists_return (hT.treePerm_return hle hil)
    set g := hT.treePerm (l.erase i) with hg
    have hgl : ∀ k, T.IsLabel ((g ^ k) i) := hT.treePerm_pow_isLabel hle hil
    set ps := (List.range' 0 n).map (fun k => T.nxt (T.nxt ((g ^ k) i))) with hps
    have hmem : ∀ u, u ∈ ps ↔ T.IsLabel u ∧ g.SameCycle i u := by
      intro u
      rw [hps, List.mem_map]
      constructor
      · rintro ⟨k, _, rfl⟩
        have l1 := hT.isLabel_nxt (hgl k)
        refine ⟨hT.isLabel_nxt l1, ?_⟩
        rw [hsc hil (hT.isLabel_nxt l1), hT.triOf_nxt l1, hT.triOf_nxt (hgl k), ← hsc hil (hgl k)]
        exact ⟨k, by rw [zpow_natCast]⟩
      · rintro ⟨hu, hc⟩
        have : g.SameCycle i (T.nxt u) := by
          rw [hsc hil (hT.isLabel_nxt hu), hT.triOf_nxt hu, ← hsc hil hu]; exact hc
        obtain ⟨m, hm⟩ := this
        refine ⟨(m % n).toNat, ?_, ?_⟩
        · rw [List.mem_range'_1]
          have := Int.emod_lt_of_pos m (show (0 : Int) < n by omega)
          have := Int.emod_nonneg m (show (n : Int) ≠ 0 by omega)
          omega
        · have hk : (g ^ (m % n).toNat) i = T.nxt u := by
            rw [← hm, ← zpow_natCast, Int.toNat_of_nonneg (Int.emod_nonneg m (by omega))]
            conv_rhs => rw [← Int.emod_add_mul_ediv m n, zpow_add, Perm.mul_apply, zpow_mul]
            congr 1
            exact (Equiv.Perm.zpow_apply_eq_self_of_apply_eq_self (by rw [zpow_natCast]; exact hret) _).symm
          rw [hk, hT.nxt3]
    have hpsn : ps.Nodup := by
      rw [hps]
      refine List.Nodup.map_on ?_ List.nodup_range'
      intro a ha b hb hab
      rw [List.mem_range'_1] at ha hb
      have hab' : (g ^ a) i = (g ^ b) i := by
        have := congrArg T.nxt hab
        rwa [hT.nxt3, hT.nxt3] at this
      have key : ∀ a b, a < b → b < n → (g ^ a) i = (g ^ b) i → False := by
        intro a b hab hb h
        apply hmin (b - a) (by omega) (by omega)
        have : (g ^ b) i = (g ^ a) ((g ^ (b - a)) i) := by
          rw [← Perm.mul_apply, ← pow_add, Nat.add_sub_cancel' (by omega)]
        rw [this] at h
        exact (Equiv.injective _ h).symm
      rcases Nat.lt_trichotomy a b with h | h | h
      · exact (key a b h (by omega) hab').elim
      · exact h
      · exact (key b a h (by omega) hab'.symm).elim
    have hnle : n ≤ 2 * T.zeta := by
      have h1 : ps ⊆ T.labels := fun u hu => mem_labels.2 ((hmem u).1 hu).1
      have := (List.subperm_of_subset hpsn h1).length_le
      rw [length_labels] at this
      simpa [hps] using this
    obtain ⟨row, h1, h2, h3⟩ := Complete.rowLoop_ok (hT := hT) htree hnd hbr hit' hn0 hret hmin n 0 (by omega) hn0 (2 * T.zeta + 1)
      (by omega) (List.replicate T.zeta 0) (by simp)
    rw [← hg, ← hps] at h3
    have hrow : ∀ u, gv row u = - ((if u ∈ ps.filter (fun p => norm p ∉ l) then 1 else 0) -
        (if inv u ∈ ps.filter (fun p => norm p ∉ l) then 1 else 0)) := by
      intro u
      rw [h3 u, gv_replicate, sum_ind1 _ (hpsn.filter _)]; ring
    have hrow0 : ∀ u, norm u ∈ l → gv row u = 0 := by
      intro u hu
      rw [hrow u]
      simp [List.mem_filter, hu]
    refine ⟨row, ?_, h2, hrow0, ?_⟩
    · unfold homologyRow
      dsimp only
      rw [if_pos hit']
      exact h1
    · refine ⟨fun u => if u ∈ ps then 1 else 0, ?_, ?_⟩
      · intro a b c hgl
        have hl := hT.label_of_glues hgl
        obtain rfl := hT.nxt_of_glues hgl
        have : a ∈ ps ↔ T.nxt a ∈ ps := by
          rw [hmem, hmem, hsc hil hl.1, hsc hil hl.2.1, hT.triOf_nxt hl.1]
          simp [hl.1, hl.2.1]
        simp only [this]
      · intro e he
        have he' := isLabel_inv.2 he
        dsimp only
        by_cases hel : norm e ∈ l
        · rw [hrow0 e hel]
          by_cases hei : norm e = i
          · have hi1 : i ∈ ps := (hmem i).2 ⟨hil, .refl _ _⟩
            have hi2 : inv i ∉ ps := fun hh => hbr ((hmem _).1 hh).2
            rcases (norm_eq_iff (y := i)).1 (by rw [hei, hni] : norm e = norm i) with rfl | rfl
            · rw [if_pos hi1, if_neg hi2]; unfold ind1; simp [(inv_ne e).symm]
            · rw [inv_inv, if_pos hi1, if_neg hi2]; unfold ind1; simp [inv_ne i]
          · have h5 : e ≠ i := by rintro rfl; exact hei hni
            have h6 : e ≠ inv i := by rintro rfl; rw [norm_inv] at hei; exact hei hni
            have hc : Conn T.triOf (fun i => T.triOf (inv i)) (l.erase i) (T.triOf e) (T.triOf (inv e)) := by
              have hm : norm e ∈ l.erase i := (hnd.mem_erase_iff).2 ⟨hei, hel⟩
              have := Conn.edge (a := T.triOf) (b := fun i => T.triOf (inv i)) hm
              rcases lt_or_ge e 0 with h0 | h0
              · rw [norm_of_neg h0, inv_inv] at this; exact this.symm
              · rw [norm_of_nonneg h0] at this; exact this
            have : e ∈ ps ↔ inv e ∈ ps := by
              rw [hmem, hmem, hsc hil he, hsc hil he']
              simp only [he, he', true_and]
              exact ⟨fun h => h.trans _ _ _ hc, fun h => h.trans _ _ _ hc.symm⟩
            simp only [this]
            unfold ind1
            rw [if_neg h5, if_neg h6]; ring
        · have h5 : e ≠ i := by rintro rfl; exact hel (by rwa [hni])
          have h6 : e ≠ inv i := by rintro rfl; exact hel (by rw [norm_inv]; rwa [hni])
          have h7 : ind1 i e = 0 := by unfold ind1; rw [if_neg h5, if_neg h6]; rfl
          rw [hrow e, h7]
          simp only [List.mem_filter, hel, norm_inv]
          simp
  · refine ⟨(List.replicate T.zeta (0 : Int)).set i.toNat 1, ?_, by simp, ?_, ?_⟩
    · unfold homologyRow
      dsimp only
      rw [if_neg hit, pySet, if_pos (by simp; omega)]
    · intro u hu
      rw [gv_set_one hi'.1 hi'.2]
      unfold ind1
      have h1 : u ≠ i := by rintro rfl; rw [hni] at hu; exact hit hu
      have h2 : u ≠ inv i := by rintro rfl; rw [norm_inv, hni] at hu; exact hit hu
      rw [if_neg h1, if_neg h2]; rfl
    · refine NullHomologous.zero.congr ?_
      intro e _
      rw [gv_set_one hi'.1 hi'.2]; ring

end Triangulation
end Curver
