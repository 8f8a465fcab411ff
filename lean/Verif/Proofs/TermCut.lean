import Mathlib.Dynamics.PeriodicPts.Defs
import Verif.Proofs.TermRun

/-!
# The sequence along which `shorten` cuts exists
-/

namespace Curver
open Triangulation
namespace Lam
variable {L : Lam Int}

/-- there is nothing to flip -/
structure Smooth (L : Lam Int) : Prop where
  cons : L.Consistent
  flat : ∀ e, L.tri.IsLabel e → L.val e = 0

/-- the number of strands that turn right -/
def rt (L : Lam Int) (x : Int) : Int := L.lf (L.tri.nxt x)

theorem rt_eq (hL : L.WellFormed) {x y z : Int} (hg : L.tri.Glues x y z) : L.rt x = L.lf y := by
  unfold rt; rw [hL.1.comp.nxt_of_glues hg]

theorem Consistent.right (hL : L.Consistent) {x : Int} (hx : L.tri.IsLabel x) : L.rightWeight x = .ok (L.rt x) := by
  obtain ⟨y, z, hg⟩ := hL.1.1.comp.exists_glues hx
  rw [rightWeight_eq hL.1 hg, ← leftWeight_eq hL.1 hg.rot, rt_eq hL.1 hg]
  exact hL.left (hL.1.1.comp.label_of_glues hg).2.1

namespace Smooth

theorem corner (h : L.Smooth) {x y z : Int} (hg : L.tri.Glues x y z) : 0 ≤ L.lf x ∧ 0 ≤ L.lf y ∧ 0 ≤ L.lf z ∧ max (L.w x) 0 = L.lf x + L.lf y ∧ max (L.w y) 0 = L.lf y + L.lf z ∧
    max (L.w z) 0 = L.lf z + L.lf x ∧ ((L.lf x = 0 ∧ L.lf y = 0) ∨ (L.lf y = 0 ∧ L.lf z = 0) ∨ (L.lf z = 0 ∧ L.lf x = 0) ∨ (0 < L.lf x ∧ 0 < L.lf y ∧ 0 < L.lf z)) := by
  have hw := h.cons.1
  have l := hw.1.comp.label_of_glues hg
  have h1 := h.flat x l.1
  have h2 := h.flat y l.2.1
  have h3 := h.flat z l.2.2
  rw [val_eq hw hg] at h1
  rw [val_eq hw hg.rot] at h2
  rw [val_eq hw hg.rot.rot] at h3
  have hd := h.cons.lf_tri hg
  have n : ∀ u : Int, 0 ≤ max u 0 := fun u => le_max_right _ _
  have n1 := n (L.w x)
  have n2 := n (L.w y)
  have n3 := n (L.w z)
  generalize max (L.w x) 0 = a at *
  generalize max (L.w y) 0 = b at *
  generalize max (L.w z) 0 = c at *
  clear hg l
  unfold TriDual at hd
  split_ifs at h1 h2 h3 <;> first | (exfalso; omega) | (rcases hd with h | h | h | h <;> omega)

theorem noBipods (h : L.Smooth) : L.noBipods = .ok () := by
  have hc := h.cons.1.1.comp
  unfold Lam.noBipods
  have h1 : pyAllM (fun e => do
    let x ← L.leftWeight e
    return decide (0 ≤ x)) L.tri.labels = .ok true := by
    rw [pyAllM_ok_iff]
    intro x hx
    obtain ⟨y, z, hg⟩ := hc.exists_glues (mem_labels.1 hx)
    rw [h.cons.left (mem_labels.1 hx), py_bind_ok]
    have := (h.corner hg).1
    simp [this]
  have h2 : pyAllM (fun t : Tri => do
    let xs ← [t.x, t.y, t.z].mapM L.leftWeight
    return decide ((xs.filter (fun x => decide (0 < x))).length ≠ 2)) L.tri.triangles = .ok true := by
    rw [pyAllM_ok_iff]
    intro t ht
    have hg : L.tri.Glues t.x t.y t.z := by
      exact .inl ht
    have l := hc.label_of_glues hg
    rw [mapM_ok (g := L.lf)]
    · rw [py_bind_ok]
      have := h.corner hg
      congr 1
      rw [decide_eq_true_eq]
      simp only [List.map_cons, List.map_nil, List.filter_cons, List.filter_nil, decide_eq_true_eq]
      split_ifs <;> simp <;> omega
    · intro u hu
      simp only [List.mem_cons, List.not_mem_nil, or_false] at hu
      rcases hu with rfl | rfl | rfl
      · exact h.cons.left l.1
      · exact h.cons.left l.2.1
      · exact h.cons.left l.2.2
  rw [h1, py_bind_ok]
  simp only [pyAssert, if_true]
  rw [py_bind_ok, h2, py_bind_ok]
  rfl

end Smooth

/-- the edges with points -/
def Dom (L : Lam Int) (x : Int) : Prop := L.tri.IsLabel x ∧ 0 < L.w x

/-- the next edge on the leftmost strand -/
def nx (L : Lam Int) (e : Int) : Int := if 0 < L.lf (inv e) then L.tri.nxt (L.tri.nxt (inv e)) else L.tri.nxt (inv e)

/-- the edge before -/
def pv (L : Lam Int) (f : Int) : Int := if 0 < L.rt f then inv (L.tri.nxt f) else inv (L.tri.nxt (L.tri.nxt f))

theorem nx_eq (hL : L.WellFormed) {x y z : Int} (hg : L.tri.Glues x y z) : L.nx (inv x) = if 0 < L.lf x then z else y := by
  unfold nx
  rw [inv_inv, hL.1.comp.nxt_of_glues hg, hL.1.comp.nxt_of_glues hg.rot]

theorem pv_eq (hL : L.WellFormed) {x y z : Int} (hg : L.tri.Glues x y z) : L.pv x = if 0 < L.lf y then inv y else inv z := by
  unfold pv
  rw [rt_eq hL hg, hL.1.comp.nxt_of_glues hg, hL.1.comp.nxt_of_glues hg.rot]

namespace Smooth

theorem nx_dom (h : L.Smooth) {e : Int} (he : L.Dom e) : L.Dom (L.nx e) := by
  have hc := h.cons.1.1.comp
  have hg := hc.glues_nxt (isLabel_inv.2 he.1)
  have l := hc.label_of_glues hg
  have k := h.corner hg
  have h2 := he.2
  rw [w_inv] at k
  unfold nx
  split
  · exact ⟨l.2.2, by omega⟩
  · exact ⟨l.2.1, by omega⟩

theorem pv_dom (h : L.Smooth) {e : Int} (he : L.Dom e) : L.Dom (L.pv e) := by
  have hc := h.cons.1.1.comp
  have hg := hc.glues_nxt he.1
  have l := hc.label_of_glues hg
  have k := h.corner hg
  have h2 := he.2
  rw [pv_eq h.cons.1 hg]
  split
  · exact ⟨isLabel_inv.2 l.2.1, by rw [w_inv]; omega⟩
  · exact ⟨isLabel_inv.2 l.2.2, by rw [w_inv]; omega⟩

theorem pv_nx (h : L.Smooth) {e : Int} (he : L.Dom e) : L.pv (L.nx e) = e := by
  have hc := h.cons.1.1.comp
  have hg := hc.glues_nxt (isLabel_inv.2 he.1)
  have k := h.corner hg
  have h2 := he.2
  rw [w_inv] at k
  generalize L.tri.nxt (inv e) = y at *
  generalize L.tri.nxt y = z at *
  have := nx_eq h.cons.1 hg
  rw [inv_inv] at this
  rw [this]
  split
  · rw [pv_eq h.cons.1 hg.rot.rot, if_pos (by assumption), inv_inv]
  · rw [pv_eq h.cons.1 hg.rot, if_neg (by omega), inv_inv]

theorem nx_pv (h : L.Smooth) {e : Int} (he : L.Dom e) : L.nx (L.pv e) = e := by
  have hc := h.cons.1.1.comp
  have hg := hc.glues_nxt he.1
  have k := h.corner hg
  have h2 := he.2
  generalize L.tri.nxt e = y at *
  generalize L.tri.nxt y = z at *
  rw [pv_eq h.cons.1 hg]
  split
  · rw [nx_eq h.cons.1 hg.rot, if_pos (by assumption)]
  · rw [nx_eq h.cons.1 hg.rot.rot, if_neg (by omega)]

theorem iter_dom (h : L.Smooth) {e : Int} (he : L.Dom e) (n : Nat) : L.Dom (L.nx^[n] e) := by
  induction n with
  | zero => exact he
  | succ n ih => rw [Function.iterate_succ_apply']; exact h.nx_dom ih

theorem iter_inj (h : L.Smooth) {d e : Int} (hd : L.Dom d) (he : L.Dom e) : ∀ n : Nat, L.nx^[n] d = L.nx^[n] e → d = e
  | 0, q => q
  | n + 1, q => by
    rw [Function.iterate_succ_apply', Function.iterate_succ_apply'] at q
    have := congrArg L.pv q
    rw [h.pv_nx (h.iter_dom hd n), h.pv_nx (h.iter_dom he n)] at this
    exact iter_inj h hd he n this

theorem periodic (h : L.Smooth) {e : Int} (he : L.Dom e) : 0 < Function.minimalPeriod L.nx e := by
  have hf : Set.Finite {x | L.Dom x} := (List.finite_toSet L.tri.labels).subset (fun x hx => mem_labels.2 hx.1)
  obtain ⟨i, j, hij, e1⟩ := hf.exists_lt_map_eq_of_forall_mem (f := fun n : Nat => L.nx^[n] e) (fun n => h.iter_dom he n)
  refine Function.minimalPeriod_pos_of_mem_periodicPts ⟨j - i, by omega, ?_⟩
  have : L.nx^[i] e = L.nx^[i] (L.nx^[j - i] e) := by
    rw [← Function.iterate_add_apply, e1]; congr 1; omega
  exact (h.iter_inj he (h.iter_dom he _) i this).symm


theorem follow_run (h : L.Smooth) {start : Int} : ∀ (l : List Int) (edge : Int) (add : Bool) (used seq : List Int) (n : Nat), L.Dom edge →
    List.IsChain (fun a b => b = L.nx a) ((edge :: l) ++ [start]) → (∀ x ∈ l, x ≠ start) → l.length < n →
    L.follow start n edge add (used, seq) = .ok ((edge :: l).reverse ++ used, seq ++ (if add then edge :: l else l.dropWhile (fun x => decide (0 < L.rt x))))
  | l, edge, add, used, seq, 0, _, _, _, hn => by omega
  | l, edge, add, used, seq, n + 1, he, hch, hs, hn => by
    have hc := h.cons.1.1.comp
    have hg := hc.glues_nxt (isLabel_inv.2 he.1)
    have hl := (h.nx_dom he).1
    have hnx : (if 0 < L.lf (inv edge) then L.tri.nxt (L.tri.nxt (inv edge)) else L.tri.nxt (inv edge)) = L.nx edge := rfl
    have hadd : L.addNow add (L.nx edge) = .ok (add || decide (L.rt (L.nx edge) ≤ 0)) := by
      unfold Lam.addNow
      cases add
      · rw [h.cons.right hl, if_neg (by simp), py_bind_ok]; simp
      · rfl
    rw [Lam.follow]
    dsimp only
    rw [hc.corner_eq hg, py_bind_ok, h.cons.left (isLabel_inv.2 he.1), py_bind_ok]
    dsimp only
    rw [hnx, hadd, py_bind_ok]
    cases l with
    | nil =>
      simp only [List.cons_append, List.nil_append, List.isChain_cons_cons] at hch
      rw [if_pos hch.1.symm]
      cases add <;> simp
    | cons y l =>
      simp only [List.cons_append, List.isChain_cons_cons] at hch
      obtain ⟨rfl, hch⟩ := hch
      rw [if_neg (hs _ (by simp))]
      rw [follow_run h l _ _ _ _ n (h.nx_dom he) (by simpa using hch) (fun x hx => hs x (by simp [hx])) (by simp at hn; omega)]
      have e1 : (if add = true then seq ++ [edge] else seq) ++ (if (add || decide (L.rt (L.nx edge) ≤ 0)) = true then L.nx edge :: l else l.dropWhile (fun x => decide (0 < L.rt x))) =
          seq ++ (if add = true then edge :: L.nx edge :: l else (L.nx edge :: l).dropWhile (fun x => decide (0 < L.rt x))) := by
        cases add
        · by_cases q : 0 < L.rt (L.nx edge)
          · simp [q]
          · have q' : L.rt (L.nx edge) ≤ 0 := by omega
            simp [q']
        · simp
      rw [e1]
      simp

/-- the edges on the strand -/
noncomputable def _root_.Curver.Lam.orb (L : Lam Int) (e : Int) : List Int := (List.range (Function.minimalPeriod L.nx e)).map (fun i => L.nx^[i] e)

theorem mem_orb (h : L.Smooth) {e x : Int} (he : L.Dom e) : x ∈ L.orb e ↔ ∃ i : Nat, x = L.nx^[i] e := by
  unfold orb
  rw [List.mem_map]
  constructor
  · rintro ⟨i, -, rfl⟩; exact ⟨i, rfl⟩
  · rintro ⟨i, rfl⟩
    exact ⟨i % Function.minimalPeriod L.nx e, List.mem_range.2 (Nat.mod_lt _ (h.periodic he)), Function.iterate_mod_minimalPeriod_eq⟩

theorem orb_dom (h : L.Smooth) {e x : Int} (he : L.Dom e) (hx : x ∈ L.orb e) : L.Dom x := by
  obtain ⟨i, rfl⟩ := (h.mem_orb he).1 hx
  exact h.iter_dom he i

theorem orb_nx (h : L.Smooth) {e x : Int} (he : L.Dom e) (hx : L.Dom x) : L.nx x ∈ L.orb e ↔ x ∈ L.orb e := by
  rw [h.mem_orb he, h.mem_orb he]
  constructor
  · rintro ⟨i, q⟩
    cases i with
    | zero =>
      refine ⟨Function.minimalPeriod L.nx e - 1, ?_⟩
      have hp := h.periodic he
      have : L.nx x = L.nx (L.nx^[Function.minimalPeriod L.nx e - 1] e) := by
        rw [q, ← Function.iterate_succ_apply' L.nx, Nat.succ_eq_add_one, Nat.sub_add_cancel hp, Function.iterate_minimalPeriod]; rfl
      have := congrArg L.pv this
      rwa [h.pv_nx hx, h.pv_nx (h.iter_dom he _)] at this
    | succ i =>
      refine ⟨i, ?_⟩
      rw [Function.iterate_succ_apply'] at q
      have := congrArg L.pv q
      rwa [h.pv_nx hx, h.pv_nx (h.iter_dom he _)] at this
  · rintro ⟨i, rfl⟩
    exact ⟨i + 1, (Function.iterate_succ_apply' _ _ _).symm⟩

theorem orb_nodup (h : L.Smooth) {e : Int} (he : L.Dom e) : (L.orb e).Nodup := by
  unfold orb
  rw [List.nodup_map_iff_inj_on List.nodup_range]
  intro i hi j hj q
  rw [List.mem_range] at hi hj
  exact Function.iterate_injOn_Iio_minimalPeriod hi hj q

theorem orb_cons (h : L.Smooth) {e : Int} (he : L.Dom e) : ∃ l, L.orb e = e :: l ∧ List.IsChain (fun a b => b = L.nx a) ((e :: l) ++ [e]) ∧ (∀ x ∈ l, x ≠ e) := by
  have hp := h.periodic he
  obtain ⟨k, hk⟩ : ∃ k, Function.minimalPeriod L.nx e = k + 1 := ⟨_, (Nat.sub_add_cancel hp).symm⟩
  have e1 : L.orb e = e :: (List.range k).map (fun i => L.nx^[i + 1] e) := by
    unfold orb
    rw [hk, List.range_succ_eq_map]
    simp [Function.comp_def]
  refine ⟨_, e1, ?_, ?_⟩
  · have : (e :: (List.range k).map (fun i => L.nx^[i + 1] e)) ++ [e] = (List.range (k + 2)).map (fun i => L.nx^[i] e) := by
      rw [← e1, List.range_succ, List.map_append]
      unfold orb
      rw [hk, List.map_singleton, ← hk, Function.iterate_minimalPeriod]
    rw [this]
    rw [List.isChain_map]
    rw [List.isChain_iff_getElem]
    intro i hi
    simp [Function.iterate_succ_apply']
  · intro x hx q
    have := h.orb_nodup he
    rw [e1, List.nodup_cons] at this
    exact this.1 (q ▸ hx)

/-- what is known about the used edges and the sequence -/
structure _root_.Curver.Lam.CutInv (L : Lam Int) (st : List Int × List Int) : Prop where
  used : ∀ x ∈ st.1, L.Dom x
  closed : ∀ x, L.Dom x → (L.nx x ∈ st.1 ↔ x ∈ st.1)
  sub : ∀ x ∈ st.2, x ∈ st.1
  nodup : st.2.Nodup
  fwd : ∀ x ∈ st.2, L.nx x ∈ st.2 ∨ L.rt (L.nx x) ≤ 0
  bwd : ∀ x ∈ st.2, 0 < L.rt x → L.pv x ∈ st.2
  first : st.2 ≠ [] → ∃ f ∈ st.2, L.rt f ≤ 0 ∧ L.pv f ∉ st.2
  lonely : st.2 = [] → ∀ x ∈ st.1, L.rt x ≤ 0 → ∀ i : Nat, L.nx^[i] x ≠ x → 0 < L.rt (L.nx^[i] x)
  leaves : ∀ x ∈ st.2, ∃ i : Nat, L.nx^[i] x ∉ st.2

theorem chain_last {f : Int → Int} {s : Int} : ∀ {p : List Int}, List.IsChain (fun a b => b = f a) (p ++ [s]) → ∀ x ∈ p, ∃ i : Nat, f^[i] x = s
  | [], _, x, hx => by simp at hx
  | [a], h, x, hx => by
    simp only [List.cons_append, List.nil_append, List.isChain_cons_cons] at h
    rw [List.mem_singleton] at hx
    subst hx
    exact ⟨1, h.1.symm⟩
  | a :: b :: p, h, x, hx => by
    simp only [List.cons_append, List.isChain_cons_cons] at h
    rcases List.mem_cons.1 hx with rfl | hx
    · obtain ⟨i, hi⟩ := chain_last (p := b :: p) (by simpa using h.2) b (by simp)
      exact ⟨i + 1, by rw [Function.iterate_succ_apply, ← h.1]; exact hi⟩
    · exact chain_last (p := b :: p) (by simpa using h.2) x hx

theorem chain_fwd {f : Int → Int} {s : Int} : ∀ {p : List Int}, List.IsChain (fun a b => b = f a) (p ++ [s]) → ∀ x ∈ p, f x ∈ p ∨ f x = s
  | [], _, x, hx => by simp at hx
  | [a], h, x, hx => by
    simp only [List.cons_append, List.nil_append, List.isChain_cons_cons] at h
    simp only [List.mem_singleton] at hx
    subst hx; exact .inr h.1.symm
  | a :: b :: p, h, x, hx => by
    simp only [List.cons_append, List.isChain_cons_cons] at h
    rcases List.mem_cons.1 hx with rfl | hx
    · left; rw [← h.1]; simp
    · rcases chain_fwd (p := b :: p) (by simpa using h.2) x hx with k | k
      · left; exact List.mem_cons_of_mem _ k
      · exact .inr k

theorem chain_bwd {f : Int → Int} : ∀ {p : List Int} {a : Int}, List.IsChain (fun a b => b = f a) (a :: p) → ∀ x ∈ p, ∃ y ∈ a :: p, x = f y
  | [], _, _, x, hx => by simp at hx
  | b :: p, a, h, x, hx => by
    rw [List.isChain_cons_cons] at h
    rcases List.mem_cons.1 hx with rfl | hx
    · exact ⟨a, by simp, h.1⟩
    · obtain ⟨y, h1, h2⟩ := chain_bwd h.2 x hx
      exact ⟨y, List.mem_cons_of_mem _ h1, h2⟩

theorem _root_.Curver.Lam.CutInv.start (h : L.CutInv st) {e : Int} (hS : L.Smooth) (he : L.Dom e) (hn : e ∉ st.1) : ∀ x ∈ L.orb e, x ∉ st.1 := by
  intro x hx
  obtain ⟨i, rfl⟩ := (hS.mem_orb he).1 hx
  clear hx
  induction i with
  | zero => exact hn
  | succ i ih =>
    rw [Function.iterate_succ_apply', h.closed _ (hS.iter_dom he i)]; exact ih

theorem _root_.Curver.Lam.CutInv.add (h : L.CutInv st) {e : Int} (hS : L.Smooth) (he : L.Dom e) (hn : e ∉ st.1) (hr : L.rt e ≤ 0) {l : List Int} (hl : L.orb e = e :: l)
    (hch : List.IsChain (fun a b => b = L.nx a) ((e :: l) ++ [e])) (hne : ∀ x ∈ l, x ≠ e) :
    L.CutInv ((e :: l).reverse ++ st.1, st.2 ++ l.dropWhile (fun x => decide (0 < L.rt x))) := by
  have hdis := h.start hS he hn
  have hnd := hS.orb_nodup he
  obtain ⟨pre, part, h1, h2, h3, h4⟩ : ∃ pre part, l = pre ++ part ∧ l.dropWhile (fun x => decide (0 < L.rt x)) = part ∧ (∀ x ∈ pre, 0 < L.rt x) ∧ ∀ f p, part = f :: p → L.rt f ≤ 0 := by
    refine ⟨_, _, List.takeWhile_append_dropWhile.symm, rfl, ?_, ?_⟩
    · intro x hx; have := List.all_takeWhile (p := fun x => decide (0 < L.rt x)) (l := l); rw [List.all_eq_true] at this; simpa using this x hx
    · intro f p hp
      have := List.head_dropWhile_not (fun x => decide (0 < L.rt x)) (l := l) (by rw [hp]; simp)
      simp only [hp, List.head_cons, decide_eq_false_iff_not] at this
      omega
  rw [h2]
  have hpo : ∀ x ∈ part, x ∈ L.orb e := by intro x hx; rw [hl, h1]; simp [hx]
  have hpd : ∀ x ∈ part, L.Dom x := fun x hx => hS.orb_dom he (hpo x hx)
  have hchp : List.IsChain (fun a b => b = L.nx a) (part ++ [e]) := by
    rw [h1] at hch
    have : e :: (pre ++ part) ++ [e] = (e :: pre) ++ (part ++ [e]) := by simp
    rw [this] at hch
    exact hch.right_of_append
  have hin : ∀ x, x ∈ (e :: l).reverse ++ st.1 ↔ x ∈ L.orb e ∨ x ∈ st.1 := by intro x; rw [List.mem_append, List.mem_reverse, hl]
  have hfirst : ∀ f p, part = f :: p → L.pv f ∈ e :: pre := by
    intro f p hp
    rw [h1, hp] at hch
    have hch' : List.IsChain (fun a b => b = L.nx a) ((e :: pre) ++ [f]) := by
      have : e :: (pre ++ f :: p) ++ [e] = ((e :: pre) ++ [f]) ++ (p ++ [e]) := by simp
      rw [this] at hch
      exact hch.left_of_append
    rw [List.cons_append] at hch'
    obtain ⟨y, y1, y2⟩ := chain_bwd hch' f (by simp)
    have hfo := hpo f (by simp [hp])
    have hy : y ∈ e :: pre := by
      rcases List.mem_cons.1 y1 with rfl | y1
      · simp
      rcases List.mem_append.1 y1 with y1 | y1
      · simp [y1]
      · exfalso
        simp only [List.mem_singleton] at y1
        subst y1
        -- the point would be fixed, but `e` is on the same orbit
        obtain ⟨i, hi⟩ := (hS.mem_orb he).1 hfo
        have hfe : ∀ i, L.nx^[i] y = y := by
          intro i; induction i with
          | zero => rfl
          | succ i ih => rw [Function.iterate_succ_apply', ih, ← y2]
        have : L.nx^[i] y = L.nx^[i] e := by rw [hfe, ← hi]
        have := hS.iter_inj (hS.orb_dom he hfo) he i this
        subst this
        rw [hl, h1, hp] at hnd
        simp at hnd
    have : L.pv f = y := by
      rw [y2, hS.pv_nx]
      exact hS.orb_dom he (by rw [hl, h1]; rcases List.mem_cons.1 hy with rfl | hy <;> simp_all)
    rw [this]; exact hy
  refine ⟨?_, ?_, ?_, ?_, ?_, ?_, ?_, ?_, ?_⟩
  · intro x hx
    rcases (hin x).1 hx with hx | hx
    · exact hS.orb_dom he hx
    · exact h.used x hx
  · intro x hx
    dsimp only
    rw [hin, hin, hS.orb_nx he hx, h.closed x hx]
  · intro x hx
    dsimp only at hx ⊢
    rw [hin]
    rcases List.mem_append.1 hx with hx | hx
    · exact .inr (h.sub x hx)
    · exact .inl (hpo x hx)
  · dsimp only
    rw [List.nodup_append']
    refine ⟨h.nodup, ?_, ?_⟩
    · rw [hl, h1, ← List.cons_append, List.nodup_append'] at hnd
      exact hnd.2.1
    · intro x hx hx'
      exact hdis x (hpo x hx') (h.sub x hx)
  · intro x hx
    dsimp only at hx ⊢
    rcases List.mem_append.1 hx with hx | hx
    · rcases h.fwd x hx with k | k
      · left; simp [k]
      · exact .inr k
    · rcases chain_fwd hchp x hx with k | k
      · left; simp [k]
      · right; rw [k]; exact hr
  · intro x hx hx2
    dsimp only at hx ⊢
    rcases List.mem_append.1 hx with hx | hx
    · exact List.mem_append_left _ (h.bwd x hx hx2)
    · apply List.mem_append_right
      cases hp : part with
      | nil => rw [hp] at hx; simp at hx
      | cons f p =>
        rw [hp] at hx
        rcases List.mem_cons.1 hx with rfl | hx
        · have := h4 _ _ hp; omega
        · obtain ⟨y, y1, rfl⟩ := chain_bwd (p := p) (a := f) (by rw [hp] at hchp; exact hchp.left_of_append) x hx
          rw [hS.pv_nx (hpd y (by rw [hp]; exact y1))]
          exact y1
  · intro hne'
    dsimp only at hne' ⊢
    cases hp : part with
    | nil =>
      rw [hp, List.append_nil] at hne'
      obtain ⟨f, f1, f2⟩ := h.first hne'
      exact ⟨f, by simpa using f1, by simpa using f2⟩
    | cons f p =>
      refine ⟨f, by simp, h4 f p hp, ?_⟩
      have k := hfirst f p hp
      have ko : L.pv f ∈ L.orb e := by
        rw [hl, h1]
        rcases List.mem_cons.1 k with k | k <;> simp [k]
      intro q
      rcases List.mem_append.1 q with q | q
      · exact hdis _ ko (h.sub _ q)
      · rw [hl, h1, ← List.cons_append, List.nodup_append'] at hnd
        exact hnd.2.2 k (by rw [hp]; exact q)
  · intro hnil x hx hrx i hi
    dsimp only at hnil hx
    rw [List.append_eq_nil_iff] at hnil
    rcases (hin x).1 hx with hx | hx
    · have hall : ∀ y ∈ l, 0 < L.rt y := by
        intro y hy; rw [h1, hnil.2] at hy; exact h3 y (by simpa using hy)
      have : x = e := by
        rw [hl] at hx
        rcases List.mem_cons.1 hx with k | k
        · exact k
        · have := hall x k; omega
      subst this
      have k := (hS.mem_orb he).2 ⟨i, rfl⟩
      rw [hl] at k
      rcases List.mem_cons.1 k with k | k
      · exact absurd k hi
      · exact hall _ k
    · exact h.lonely hnil.1 x hx hrx i hi
  · intro x hx
    dsimp only at hx ⊢
    rcases List.mem_append.1 hx with hx | hx
    · obtain ⟨i, hi⟩ := h.leaves x hx
      refine ⟨i, ?_⟩
      intro q
      rcases List.mem_append.1 q with q | q
      · exact hi q
      · refine hdis _ (hpo _ q) ?_
        have hx1 := h.sub x hx
        have hd := h.used x hx1
        clear * - h hS hx1 hd
        induction i with
        | zero => exact hx1
        | succ i ih => rw [Function.iterate_succ_apply', h.closed _ (hS.iter_dom hd i)]; exact ih
    · obtain ⟨i, hi⟩ := chain_last hchp x hx
      refine ⟨i, ?_⟩
      rw [hi]
      intro q
      rcases List.mem_append.1 q with q | q
      · exact hn (h.sub e q)
      · exact hne e (by rw [h1]; simp [q]) rfl

/-- an edge at which a part of the sequence can start -/
def _root_.Curver.Lam.Starts (L : Lam Int) (e : Int) : Prop := L.tri.IsLabel e ∧ 0 < L.lf e ∧ L.rt e ≤ 0

instance (L : Lam Int) (e : Int) : Decidable (L.Starts e) := by unfold Lam.Starts; infer_instance

theorem step (hS : L.Smooth) {st : List Int × List Int} (h : L.CutInv st) {e : Int} (he : L.tri.IsLabel e) : ∃ st' N, L.CutInv st' ∧ (∀ x ∈ st.1, x ∈ st'.1) ∧ (L.Starts e → e ∈ st'.1) ∧
    ∀ n, N ≤ n → (do
      let b ← L.skipStart st.1 e
      if b then return st else follow L e n e false st) = Except.ok (ε := PyErr) st' := by
  have hsk : L.skipStart st.1 e = .ok (decide (¬ (e ∉ st.1 ∧ L.Starts e))) := by
    unfold Lam.skipStart Lam.Starts
    by_cases h1 : e ∈ st.1
    · simp [h1]
    rw [if_neg h1, hS.cons.left he, py_bind_ok]
    by_cases h2 : L.lf e ≤ 0
    · rw [if_pos h2]; congr 1; symm; rw [decide_eq_true_eq]; omega
    rw [if_neg h2, hS.cons.right he, py_bind_ok]
    congr 1
    rw [decide_eq_decide]
    constructor
    · intro k; omega
    · intro k; by_contra q; exact k ⟨h1, he, by omega, by omega⟩
  rw [hsk]
  by_cases q : e ∉ st.1 ∧ L.Starts e
  · have hd : L.Dom e := ⟨he, by
      have k := hS.corner (hS.cons.1.1.comp.glues_nxt he)
      have := q.2.2.1
      omega⟩
    obtain ⟨l, l1, l2, l3⟩ := hS.orb_cons hd
    refine ⟨_, l.length + 1, h.add hS hd q.1 q.2.2.2 l1 l2 l3, ?_, ?_, ?_⟩
    · intro x hx; simp [hx]
    · intro _; simp
    · intro n hn
      rw [py_bind_ok, if_neg (by simp [q.1, q.2]), show st = (st.1, st.2) from rfl, hS.follow_run l e false _ _ n hd l2 l3 (by omega)]
      simp
  · refine ⟨st, 0, h, fun x hx => hx, ?_, ?_⟩
    · intro k; by_contra k'; exact q ⟨k', k⟩
    · intro n _; rw [py_bind_ok, if_pos (by rw [decide_eq_true_eq]; exact q)]; rfl

theorem steps (hS : L.Smooth) : ∀ (l : List Int), (∀ x ∈ l, L.tri.IsLabel x) → ∀ {st : List Int × List Int}, L.CutInv st → ∃ st' N, L.CutInv st' ∧ (∀ x ∈ st.1, x ∈ st'.1) ∧
    (∀ x ∈ l, L.Starts x → x ∈ st'.1) ∧ ∀ n, N ≤ n → l.foldlM (fun (st : List Int × List Int) e => do
      let b ← L.skipStart st.1 e
      if b then return st else follow L e n e false st) st = Except.ok (ε := PyErr) st'
  | [], _, st, h => ⟨st, 0, h, fun x hx => hx, by simp, fun n _ => rfl⟩
  | e :: l, hl, st, h => by
    obtain ⟨s1, N1, a1, a2, a3, a4⟩ := hS.step h (hl e (by simp))
    obtain ⟨s2, N2, b1, b2, b3, b4⟩ := hS.steps l (fun x hx => hl x (by simp [hx])) a1
    refine ⟨s2, max N1 N2, b1, fun x hx => b2 x (a2 x hx), ?_, ?_⟩
    · intro x hx hs
      rcases List.mem_cons.1 hx with rfl | hx
      · exact b2 _ (a3 hs)
      · exact b3 x hx hs
    · intro n hn
      rw [List.foldlM_cons, a4 n (by omega), py_bind_ok]
      exact b4 n (by omega)

/-- what is known about the sequence -/
structure _root_.Curver.Lam.IsCut (L : Lam Int) (s : List Int) : Prop where
  dom : ∀ x ∈ s, L.Dom x
  nodup : s.Nodup
  fwd : ∀ x ∈ s, L.nx x ∈ s ∨ L.rt (L.nx x) ≤ 0
  bwd : ∀ x ∈ s, 0 < L.rt x → L.pv x ∈ s
  first : s ≠ [] → ∃ f ∈ s, L.rt f ≤ 0 ∧ L.pv f ∉ s
  lonely : s = [] → ∀ x, L.Starts x → ∀ i : Nat, L.nx^[i] x ≠ x → 0 < L.rt (L.nx^[i] x)
  leaves : ∀ x ∈ s, ∃ i : Nat, L.nx^[i] x ∉ s

theorem cutSequence (hS : L.Smooth) : ∃ s N, L.IsCut s ∧ ∀ n, N ≤ n → L.cutSequence n = .ok s := by
  obtain ⟨st, N, h1, -, h3, h4⟩ := hS.steps L.tri.labels (fun x hx => mem_labels.1 hx) (st := ([], []))
    ⟨by simp, by simp, by simp, by simp, by simp, by simp, by simp, by simp, by simp⟩
  refine ⟨st.2, N, ⟨fun x hx => h1.used x (h1.sub x hx), h1.nodup, h1.fwd, h1.bwd, h1.first, ?_, h1.leaves⟩, ?_⟩
  · intro hs x hx
    exact h1.lonely hs x (h3 x (mem_labels.2 hx.1) hx) hx.2.2
  · intro n hn
    unfold Lam.cutSequence
    rw [h4 n hn, py_bind_ok]
    rfl

end Smooth
end Lam
end Curver
