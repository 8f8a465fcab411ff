import Mathlib.Dynamics.PeriodicPts.Lemmas
import Mathlib.Data.Fintype.EquivFin
import Mathlib.Algebra.BigOperators.Group.Finset.Sigma
import Verif.Proofs.VertexCycles
import Verif.Proofs.CrushUnionUse

/-!
# Tracing closed walks
-/

namespace Curver
open Triangulation

/-- the orbit of a point under `σ`, and the same orbit backwards -/
theorem orbit_half {α : Type _} [DecidableEq α] (S : Finset α) (σ ι : α → α) (hσ : ∀ s ∈ S, σ s ∈ S) (hι : ∀ s ∈ S, ι s ∈ S) (hii : ∀ s ∈ S, ι (ι s) = s) (hrev : ∀ s ∈ S, σ (ι (σ s)) = ι s)
    (h1 : ∀ s ∈ S, ι s ≠ s) (h2 : ∀ s ∈ S, σ s ≠ ι s) {s : α} (hs : s ∈ S) : ∃ n, 0 < n ∧ σ^[n] s = s ∧ 2 * n ≤ S.card := by
  have inj : ∀ a ∈ S, ∀ b ∈ S, σ a = σ b → a = b := by
    intro a ha b hb e
    have : ι a = ι b := by rw [← hrev a ha, ← hrev b hb, e]
    rw [← hii a ha, this, hii b hb]
  have it : ∀ k a, a ∈ S → σ^[k] a ∈ S := by
    intro k
    induction k with
    | zero => exact fun a ha => ha
    | succ k ih => exact fun a ha => by rw [Function.iterate_succ_apply]; exact ih _ (hσ a ha)
  -- no orbit is its own reverse
  have apart : ∀ a ∈ S, ∀ m, ι a ≠ σ^[m] a := by
    intro a ha m e
    have key : ∀ j, j ≤ m → ι (σ^[j] a) = σ^[m - j] a := by
      intro j
      induction j with
      | zero => exact fun _ => e
      | succ j ih =>
        intro hj
        have h := ih (by omega)
        rw [show m - j = (m - (j + 1)) + 1 by omega, Function.iterate_succ_apply'] at h
        rw [Function.iterate_succ_apply']
        have hu := it j a ha
        exact inj _ (hι _ (hσ _ hu)) _ (it _ a ha) (by rw [hrev _ hu, h])
    have k := key (m / 2) (by omega)
    rcases Nat.even_or_odd' m with ⟨c, rfl | rfl⟩
    · rw [show 2 * c - 2 * c / 2 = 2 * c / 2 by omega] at k
      exact h1 _ (it _ a ha) k
    · rw [show 2 * c + 1 - (2 * c + 1) / 2 = (2 * c + 1) / 2 + 1 by omega, Function.iterate_succ_apply'] at k
      exact h2 _ (it _ a ha) k.symm
  let g : S → S := fun a => ⟨σ a.1, hσ a.1 a.2⟩
  have hg : Function.Injective g := fun a b e => Subtype.ext (inj _ a.2 _ b.2 (congrArg Subtype.val e))
  have git : ∀ k (a : S), (g^[k] a).1 = σ^[k] a.1 := by
    intro k
    induction k with
    | zero => exact fun _ => rfl
    | succ k ih => exact fun a => by rw [Function.iterate_succ_apply, ih, Function.iterate_succ_apply]
  have hp := hg.mem_periodicPts ⟨s, hs⟩
  have hpos := Function.minimalPeriod_pos_of_mem_periodicPts hp
  have hper := Function.iterate_minimalPeriod (f := g) (x := ⟨s, hs⟩)
  have hinj := Function.iterate_injOn_Iio_minimalPeriod (f := g) (x := (⟨s, hs⟩ : S))
  generalize Function.minimalPeriod g ⟨s, hs⟩ = n at hpos hper hinj
  have hper' : σ^[n] s = s := by rw [← git n ⟨s, hs⟩, hper]
  refine ⟨n, hpos, hper', ?_⟩
  have inj' : ∀ i < n, ∀ j < n, σ^[i] s = σ^[j] s → i = j := by
    intro i hi j hj e
    refine hinj hi hj (Subtype.ext ?_)
    show (g^[i] ⟨s, hs⟩).1 = (g^[j] ⟨s, hs⟩).1
    rw [git, git, e]
  let O := (Finset.range n).image (fun i => σ^[i] s)
  let O' := (Finset.range n).image (fun i => ι (σ^[i] s))
  have c1 : O.card = n := by
    rw [Finset.card_image_of_injOn, Finset.card_range]
    intro i hi j hj e
    exact inj' i (Finset.mem_range.1 hi) j (Finset.mem_range.1 hj) e
  have c2 : O'.card = n := by
    rw [Finset.card_image_of_injOn, Finset.card_range]
    intro i hi j hj e
    refine inj' i (Finset.mem_range.1 hi) j (Finset.mem_range.1 hj) ?_
    rw [← hii _ (it i s hs), ← hii _ (it j s hs)]
    exact congrArg ι e
  have dis : Disjoint O O' := by
    rw [Finset.disjoint_left]
    intro a ha hb
    obtain ⟨i, hi, rfl⟩ := Finset.mem_image.1 ha
    obtain ⟨j, hj, e⟩ := Finset.mem_image.1 hb
    have hj := Finset.mem_range.1 hj
    refine apart _ (it j s hs) (i + n - j) ?_
    rw [e, ← Function.iterate_add_apply, show i + n - j + j = i + n by omega, Function.iterate_add_apply, hper']
  have sub : O ∪ O' ⊆ S := by
    intro a ha
    rcases Finset.mem_union.1 ha with h | h
    · obtain ⟨i, -, rfl⟩ := Finset.mem_image.1 h
      exact it i s hs
    · obtain ⟨i, -, rfl⟩ := Finset.mem_image.1 h
      exact hι _ (it i s hs)
  have := Finset.card_le_card sub
  rw [Finset.card_union_of_disjoint dis] at this
  omega

namespace Lam
variable {L K A B : Lam Int}

/-- a closed walk -/
def ClosedWalk (L : Lam Int) (n : Nat) (f : Nat → Int) : Prop := 0 < n ∧ f n = f 0 ∧ ∀ i < n, L.Onward (f i) (f (i + 1))

/-- the next point on the strand through a point -/
def step (A : Lam Int) (s : (_ : Int) × Nat) : (_ : Int) × Nat :=
  if (s.2 : Int) < A.lf s.1 then ⟨inv (A.tri.nxt (A.tri.nxt s.1)), s.2⟩ else ⟨inv (A.tri.nxt s.1), ((A.w (A.tri.nxt s.1)) - 1 - (A.w s.1 - 1 - s.2)).toNat⟩

/-- the same point in the other direction -/
def flipped (A : Lam Int) (s : (_ : Int) × Nat) : (_ : Int) × Nat := ⟨inv s.1, (A.w s.1 - 1 - s.2).toNat⟩

/-- the points of a lamination -/
def points (A : Lam Int) : Finset ((_ : Int) × Nat) := A.tri.labels.toFinset.sigma (fun x => Finset.range (A.w x).toNat)

theorem mem_points {s : (_ : Int) × Nat} : s ∈ A.points ↔ A.tri.IsLabel s.1 ∧ (s.2 : Int) < A.w s.1 := by
  unfold points
  rw [Finset.mem_sigma, List.mem_toFinset, mem_labels, Finset.mem_range]
  constructor <;> rintro ⟨h1, h2⟩ <;> exact ⟨h1, by omega⟩

theorem sigma_ext {x y : Int} {t u : Nat} (h1 : x = y) (h2 : t = u) : (⟨x, t⟩ : (_ : Int) × Nat) = ⟨y, u⟩ := by rw [h1, h2]

/-- a non-blank multicurve has a closed walk that uses at most half of its points -/
theorem exists_walk (hA : A.NoArcs) (hb : ¬ A.Blank) : ∃ n f, A.ClosedWalk n f ∧ ((2 * n : Nat) : Int) ≤ ∑ x ∈ A.tri.labels.toFinset, A.w x := by
  have hc := hA.1.1.comp
  have W : ∀ x y z, A.tri.Glues x y z → A.tri.nxt x = y ∧ A.tri.nxt (A.tri.nxt x) = z ∧ A.tri.nxt y = z ∧ A.tri.nxt z = x ∧ A.tri.IsLabel x ∧ A.tri.IsLabel y ∧ A.tri.IsLabel z ∧
      A.lf x + A.lf x = A.w x + A.w z - A.w y ∧ A.lf y + A.lf y = A.w y + A.w x - A.w z ∧ A.lf z + A.lf z = A.w z + A.w y - A.w x ∧ 0 ≤ A.lf x ∧ 0 ≤ A.lf y ∧ 0 ≤ A.lf z := by
    intro x y z hg
    have l := hc.label_of_glues hg
    have n1 := (hc.glues_iff l.1).1 hg
    have n2 := (hc.glues_iff l.2.1).1 hg.rot
    have n3 := (hc.glues_iff l.2.2).1 hg.rot.rot
    have a1 := hA.lf_spec hg
    have a2 := hA.lf_spec hg.rot
    have a3 := hA.lf_spec hg.rot.rot
    exact ⟨n1.1.symm, n1.2.symm, n2.1.symm, n3.1.symm, l.1, l.2.1, l.2.2, a1.2.1, a2.2.1, a3.2.1, a1.2.2, a2.2.2, a3.2.2⟩
  -- one step
  have S : ∀ s ∈ A.points, A.step s ∈ A.points ∧ A.Onward s.1 (A.step s).1 ∧ A.step (A.flipped (A.step s)) = A.flipped s ∧ A.step s ≠ A.flipped s := by
    rintro ⟨x, t⟩ hs
    obtain ⟨hx, ht⟩ := mem_points.1 hs
    dsimp only at hx ht
    have hg := hc.glues_nxt hx
    generalize hy : A.tri.nxt x = y at hg
    generalize hz : A.tri.nxt y = z at hg
    obtain ⟨-, e2, -, e4, -, ly, lz, s1, s2, s3, p1, p2, p3⟩ := W x y z hg
    have gn := hc.glues_ne hg
    by_cases q : (t : Int) < A.lf x
    · have es : A.step ⟨x, t⟩ = ⟨inv z, t⟩ := by unfold step; rw [if_pos q]; dsimp only; rw [hy, hz]
      have ef : A.flipped ⟨inv z, t⟩ = ⟨z, (A.w z - 1 - t).toNat⟩ := by unfold flipped; dsimp only; rw [Curver.inv_inv, w_inv]
      rw [es, ef]
      refine ⟨mem_points.2 ⟨isLabel_inv.2 lz, by dsimp only; rw [w_inv]; omega⟩, ⟨y, z, hg, .inl ⟨by show A.lf x ≠ 0; omega, rfl⟩⟩, ?_, ?_⟩
      · unfold step flipped
        dsimp only
        rw [if_neg (by omega), e4]
        exact sigma_ext rfl (by omega)
      · intro e
        exact gn.2.2 (Curver.inv_inj.1 (congrArg Sigma.fst e))
    · have es : A.step ⟨x, t⟩ = ⟨inv y, (A.w y - 1 - (A.w x - 1 - t)).toNat⟩ := by unfold step; rw [if_neg q]; dsimp only; rw [hy]
      have ef : A.flipped ⟨inv y, (A.w y - 1 - (A.w x - 1 - t)).toNat⟩ = ⟨y, (A.w x - 1 - t).toNat⟩ := by
        unfold flipped; dsimp only; rw [Curver.inv_inv, w_inv]; exact sigma_ext rfl (by omega)
      rw [es, ef]
      refine ⟨mem_points.2 ⟨isLabel_inv.2 ly, by dsimp only; rw [w_inv]; omega⟩, ⟨y, z, hg, .inr ⟨by omega, rfl⟩⟩, ?_, ?_⟩
      · unfold step flipped
        dsimp only
        rw [if_pos (by omega), hz, e4]
      · intro e
        exact gn.1 (Curver.inv_inj.1 (congrArg Sigma.fst e)).symm
  -- a point to begin with
  obtain ⟨x, hx, h0⟩ : ∃ x, A.tri.IsLabel x ∧ A.w x ≠ 0 := by
    unfold Blank at hb
    push Not at hb
    exact hb
  have hs : (⟨x, 0⟩ : (_ : Int) × Nat) ∈ A.points := mem_points.2 ⟨hx, by have := hA.w_nonneg hx; dsimp only; omega⟩
  obtain ⟨n, h1, h2, h3⟩ := orbit_half A.points A.step A.flipped (fun s h => (S s h).1)
    (fun s h => by
      obtain ⟨a, b⟩ := mem_points.1 h
      exact mem_points.2 ⟨isLabel_inv.2 a, by unfold flipped; dsimp only; rw [w_inv]; omega⟩)
    (fun s h => by
      obtain ⟨a, b⟩ := mem_points.1 h
      unfold flipped
      dsimp only
      rw [Curver.inv_inv, w_inv]
      exact sigma_ext rfl (by omega))
    (fun s h => (S s h).2.2.1) (fun s h e => Curver.inv_ne _ (congrArg Sigma.fst e)) (fun s h => (S s h).2.2.2) hs
  have it : ∀ k, A.step^[k] ⟨x, 0⟩ ∈ A.points := by
    intro k
    induction k with
    | zero => exact hs
    | succ k ih => rw [Function.iterate_succ_apply']; exact (S _ ih).1
  refine ⟨n, fun i => (A.step^[i] ⟨x, 0⟩).1, ⟨h1, by dsimp only; rw [h2]; rfl, fun i _ => ?_⟩, ?_⟩
  · have := (S _ (it i)).2.1
    rw [← Function.iterate_succ_apply' A.step i] at this
    exact this
  · have : (A.points.card : Int) = ∑ x ∈ A.tri.labels.toFinset, A.w x := by
      unfold points
      rw [Finset.card_sigma]
      push_cast
      refine Finset.sum_congr rfl (fun y hy => ?_)
      rw [Finset.card_range, Int.toNat_of_nonneg (hA.w_nonneg (mem_labels.1 (List.mem_toFinset.1 hy)))]
    rw [← this]
    exact_mod_cast h3

theorem Onward.mono (hA : A.NoArcs) (hL : L.NoArcs) (ht : A.tri = L.tri) (h : ∀ x, L.tri.IsLabel x → A.lf x ≠ 0 → L.lf x ≠ 0) {p q : Int} (ho : A.Onward p q) : L.Onward p q := by
  obtain ⟨y, z, hg, k⟩ := ho
  rw [ht] at hg
  have l := hL.1.1.comp.label_of_glues hg
  exact ⟨y, z, hg, k.imp (fun k => ⟨h _ l.1 k.1, k.2⟩) (fun k => ⟨h _ l.2.1 k.1, k.2⟩)⟩

/-- a shortest closed walk is a simple cycle -/
theorem shortest_cycle (hL : L.NoArcs) (hb : ¬ L.Blank) : ∃ cyc : List Int, cyc ≠ [] ∧ cyc.Nodup ∧ (∀ p ∈ cyc.zip (cyc.rotate 1), L.Onward p.1 p.2) ∧ ∀ n f, L.ClosedWalk n f → cyc.length ≤ n := by
  classical
  obtain ⟨n0, f0, hw0, -⟩ := exists_walk hL hb
  have hex : ∃ n, ∃ f, L.ClosedWalk n f := ⟨n0, f0, hw0⟩
  obtain ⟨f, h1, h2, h3⟩ := Nat.find_spec hex
  have hmin : ∀ n f, L.ClosedWalk n f → Nat.find hex ≤ n := fun n f h => Nat.find_min' hex ⟨f, h⟩
  generalize Nat.find hex = k at h1 h2 h3 hmin
  have len : ((List.range k).map f).length = k := by simp
  refine ⟨(List.range k).map f, ?_, ?_, ?_, fun n g h => by rw [len]; exact hmin n g h⟩
  · intro e
    rw [e] at len
    simp at len
    omega
  · rw [List.nodup_map_iff_inj_on List.nodup_range]
    have key : ∀ i j, i < j → j < k → f i ≠ f j := by
      intro i j hij hj e
      have := hmin (j - i) (fun m => f (i + m)) ⟨by omega, by dsimp only; rw [show i + (j - i) = j by omega, Nat.add_zero, e], fun m hm => h3 (i + m) (by omega)⟩
      omega
    intro i hi j hj e
    rw [List.mem_range] at hi hj
    rcases Nat.lt_trichotomy i j with q | q | q
    · exact absurd e (key i j q hj)
    · exact q
    · exact absurd e.symm (key j i q hi)
  · intro p hp
    obtain ⟨i, hi, rfl⟩ := List.mem_iff_getElem.1 hp
    have hi' : i < k := by simpa using hi
    rw [List.getElem_zip, List.getElem_rotate]
    simp only [List.getElem_map, List.getElem_range, len]
    by_cases q : i + 1 = k
    · have := h3 i hi'
      rw [q, h2] at this
      rw [q, Nat.mod_self]
      exact this
    · rw [Nat.mod_eq_of_lt (by omega)]
      exact h3 i hi'

theorem cycle_labels (hL : L.NoArcs) {cyc : List Int} (h : ∀ p ∈ cyc.zip (cyc.rotate 1), L.Onward p.1 p.2) : ∀ x ∈ cyc, L.tri.IsLabel x := by
  have hc := hL.1.1.comp
  intro x hx
  have : 0 < cyc.count x := List.count_pos_iff.2 hx
  rw [(count_zip_rotate cyc x).1, List.countP_pos_iff] at this
  obtain ⟨p, hp, e⟩ := this
  obtain ⟨y, z, hg, -⟩ := h p hp
  rw [beq_iff_eq] at e
  rw [← e]
  exact (hc.label_of_glues hg).1

/-- the points of the curve along a cycle -/
theorem cycle_total (hL : L.NoArcs) {cyc : List Int} (h : ∀ p ∈ cyc.zip (cyc.rotate 1), L.Onward p.1 p.2) :
    ∑ x ∈ L.tri.labels.toFinset, (L.tri.curveFromCutSequence cyc : Lam Int).w x = ((2 * cyc.length : Nat) : Int) := by
  have e1 : ∑ x ∈ L.tri.labels.toFinset, cyc.count x = cyc.length := by
    have := Multiset.sum_count_eq_card (s := L.tri.labels.toFinset) (m := (cyc : Multiset Int)) (fun a ha => List.mem_toFinset.2 (mem_labels.2 (cycle_labels hL h a ha)))
    simpa only [Multiset.coe_count, Multiset.coe_card] using this
  have e2 : ∑ x ∈ L.tri.labels.toFinset, cyc.count (inv x) = ∑ x ∈ L.tri.labels.toFinset, cyc.count x := by
    refine Finset.sum_nbij' inv inv ?_ ?_ ?_ ?_ ?_
    · intro x hx; rw [List.mem_toFinset, mem_labels] at *; exact isLabel_inv.2 hx
    · intro x hx; rw [List.mem_toFinset, mem_labels] at *; exact isLabel_inv.2 hx
    · intro x _; exact Curver.inv_inv x
    · intro x _; exact Curver.inv_inv x
    · intro x _; rfl
  rw [Finset.sum_congr rfl (fun x hx => link_w cyc (mem_labels.1 (List.mem_toFinset.1 hx))), ← Nat.cast_sum, Finset.sum_add_distrib, e2, e1]
  congr 1
  omega

/-- a multicurve has a vertex cycle -/
theorem exists_cycle (hL : L.NoArcs) (hb : ¬ L.Blank) : ∃ cyc : List Int, cyc ≠ [] ∧ cyc.Nodup ∧ (∀ p ∈ cyc.zip (cyc.rotate 1), L.Onward p.1 p.2) ∧ (L.tri.curveFromCutSequence cyc : Lam Int).Connected := by
  obtain ⟨cyc, h1, h2, h3, h4⟩ := shortest_cycle hL hb
  refine ⟨cyc, h1, h2, h3, ?_⟩
  obtain ⟨na, sup⟩ := cycle_lam hL h3
  have hc := hL.1.1.comp
  have tot := cycle_total hL h3
  have hpos : 0 < cyc.length := List.length_pos_of_ne_nil h1
  refine ⟨?_, ?_⟩
  · intro q
    have : ∑ x ∈ L.tri.labels.toFinset, (L.tri.curveFromCutSequence cyc : Lam Int).w x = 0 := Finset.sum_eq_zero (fun x hx => q x (mem_labels.1 (List.mem_toFinset.1 hx)))
    omega
  · intro A B hu
    by_contra q
    push Not at q
    obtain ⟨nA, nB⟩ := hu.noArcs2 na
    obtain ⟨-, -, tA, tB⟩ := hu.wf
    change A.tri = L.tri at tA
    change B.tri = L.tri at tB
    obtain ⟨n, f, ⟨w1, w2, w3⟩, w4⟩ := exists_walk nA q.1
    have hs : ∀ x, L.tri.IsLabel x → (L.tri.curveFromCutSequence cyc : Lam Int).w x = A.w x + B.w x := fun x hx => hu.sum na.1 hx
    have lo := h4 n f ⟨w1, w2, fun i hi => (w3 i hi).mono nA hL tA ?_⟩
    · have hB : 0 < ∑ x ∈ L.tri.labels.toFinset, B.w x := by
        obtain ⟨x, hx, h0⟩ : ∃ x, B.tri.IsLabel x ∧ B.w x ≠ 0 := by
          have := q.2
          unfold Blank at this
          push Not at this
          exact this
        refine Finset.sum_pos' (fun y hy => nB.w_nonneg (by rw [tB]; exact mem_labels.1 (List.mem_toFinset.1 hy))) ⟨x, List.mem_toFinset.2 (mem_labels.2 (by rw [← tB]; exact hx)), ?_⟩
        have := nB.w_nonneg hx
        omega
      rw [Finset.sum_congr rfl (fun x hx => hs x (mem_labels.1 (List.mem_toFinset.1 hx))), Finset.sum_add_distrib] at tot
      rw [tA] at w4
      push_cast at tot w4
      omega
    · intro x hx h0
      refine sup x hx ?_
      obtain ⟨y, z, hg⟩ := hc.exists_glues hx
      have l := hc.label_of_glues hg
      have a := nA.lf_spec (by rw [tA]; exact hg)
      have b := nB.lf_spec (by rw [tB]; exact hg)
      have hg' : (L.tri.curveFromCutSequence cyc : Lam Int).tri.Glues x y z := hg
      have c := na.lf_spec hg'
      have s1 := hs x l.1
      have s2 := hs y l.2.1
      have s3 := hs z l.2.2
      omega

/-- the next node on a cycle, and the last one -/
theorem cycle_next {cyc : List Int} {x : Int} (hx : x ∈ cyc) : (∃ q ∈ cyc, (x, q) ∈ cyc.zip (cyc.rotate 1)) ∧ ∃ p ∈ cyc, (p, x) ∈ cyc.zip (cyc.rotate 1) := by
  have hpos : 0 < cyc.count x := List.count_pos_iff.2 hx
  constructor
  · rw [(count_zip_rotate cyc x).1, List.countP_pos_iff] at hpos
    obtain ⟨⟨p, q⟩, hp, e⟩ := hpos
    rw [beq_iff_eq] at e
    subst e
    exact ⟨q, List.mem_rotate.1 (List.of_mem_zip hp).2, hp⟩
  · rw [(count_zip_rotate cyc x).2, List.countP_pos_iff] at hpos
    obtain ⟨⟨p, q⟩, hp, e⟩ := hpos
    rw [beq_iff_eq] at e
    subst e
    exact ⟨p, (List.of_mem_zip hp).1, hp⟩

/-- a curve that meets each edge at most once is a simple cycle -/
theorem cycle_of_light (hK : K.NoArcs) (hc : K.Connected) (h1 : ∀ x, K.tri.IsLabel x → K.w x ≤ 1) : ∃ cyc : List Int, cyc ≠ [] ∧ cyc.Nodup ∧ (∀ p ∈ cyc.zip (cyc.rotate 1), K.Onward p.1 p.2) ∧
    ∀ x, K.tri.IsLabel x → (K.tri.curveFromCutSequence cyc : Lam Int).w x = K.w x := by
  obtain ⟨cyc, a1, a2, a3, a4⟩ := shortest_cycle hK hc.1
  refine ⟨cyc, a1, a2, a3, ?_⟩
  have hT := hK.1.1.comp
  obtain ⟨n, f, w1, w2⟩ := exists_walk hK hc.1
  have lo := a4 n f w1
  have tot := cycle_total hK a3
  -- the nodes of the cycle, in both directions
  let red : Int → Nat → Bool := fun x _ => decide (x ∈ cyc ∨ inv x ∈ cyc)
  have step : ∀ x y z, K.tri.Glues x y z → 0 < K.lf x → (x ∈ cyc → inv z ∈ cyc) ∧ (inv x ∈ cyc → z ∈ cyc) := by
    intro x y z hg h
    have l := hT.label_of_glues hg
    have s1 := hK.lf_spec hg
    have s2 := hK.lf_spec hg.rot
    have s3 := hK.lf_spec hg.rot.rot
    have b1 := h1 x l.1
    have b3 := h1 z l.2.2
    constructor
    · intro hx
      obtain ⟨⟨q, q1, q2⟩, -⟩ := cycle_next hx
      obtain ⟨y', z', g, k⟩ := a3 _ q2
      obtain ⟨rfl, rfl⟩ := hT.glues_unique g hg
      rcases k with ⟨-, k⟩ | ⟨k, -⟩
      · have : q = inv z' := k
        rwa [← this]
      · omega
    · intro hx
      obtain ⟨-, p, q1, q2⟩ := cycle_next hx
      obtain ⟨y', z', g, k⟩ := a3 _ q2
      dsimp only at g k
      rcases k with ⟨k, e⟩ | ⟨k, e⟩
      · obtain rfl : x = z' := Curver.inv_inj.1 e
        obtain ⟨rfl, rfl⟩ := hT.glues_unique g.rot.rot hg
        omega
      · obtain rfl : x = y' := Curver.inv_inj.1 e
        obtain ⟨rfl, rfl⟩ := hT.glues_unique g.rot hg
        exact q1
  have back : ∀ x y z, K.tri.Glues x y z → 0 < K.lf x → (inv z ∈ cyc → x ∈ cyc) ∧ (z ∈ cyc → inv x ∈ cyc) := by
    intro x y z hg h
    have l := hT.label_of_glues hg
    have s1 := hK.lf_spec hg
    have s2 := hK.lf_spec hg.rot
    have s3 := hK.lf_spec hg.rot.rot
    have b1 := h1 x l.1
    have b3 := h1 z l.2.2
    constructor
    · intro hx
      obtain ⟨-, p, q1, q2⟩ := cycle_next hx
      obtain ⟨y', z', g, k⟩ := a3 _ q2
      dsimp only at g k
      rcases k with ⟨k, e⟩ | ⟨k, e⟩
      · obtain rfl : z = z' := Curver.inv_inj.1 e
        obtain ⟨rfl, rfl⟩ := hT.glues_unique g.rot.rot hg.rot.rot
        exact q1
      · obtain rfl : z = y' := Curver.inv_inj.1 e
        obtain ⟨rfl, rfl⟩ := hT.glues_unique g.rot hg.rot.rot
        omega
    · intro hx
      obtain ⟨⟨q, q1, q2⟩, -⟩ := cycle_next hx
      obtain ⟨y', z', g, k⟩ := a3 _ q2
      obtain ⟨rfl, rfl⟩ := hT.glues_unique g hg.rot.rot
      rcases k with ⟨k, -⟩ | ⟨-, k⟩
      · dsimp only at k
        omega
      · have : q = inv y' := k
        rwa [← this]
  have col : K.Colouring red := by
    refine ⟨fun x t _ _ => ?_, fun x y z t hg t1 t2 t3 => ?_⟩
    · show decide _ = decide _
      rw [Curver.inv_inv, decide_eq_decide, or_comm]
    · have s1 := hK.lf_spec hg
      have b2 := hK.w_nonneg (hT.label_of_glues hg).1
      have b3 := hK.w_nonneg (hT.label_of_glues hg).2.1
      have b4 := hK.w_nonneg (hT.label_of_glues hg).2.2
      rw [max_eq_left b2, max_eq_left b3, max_eq_left b4] at t3
      have p : 0 < K.lf x := by omega
      have p1 := step x y z hg p
      have p2 := back x y z hg p
      show decide _ = decide _
      rw [Curver.inv_inv, decide_eq_decide]
      constructor
      · rintro (h | h)
        · exact .inl (p1.1 h)
        · exact .inr (p1.2 h)
      · rintro (h | h)
        · exact .inl (p2.1 h)
        · exact .inr (p2.2 h)
  obtain ⟨b, hb⟩ := hc.constant hK.1 col
  obtain ⟨x0, r0⟩ := List.exists_mem_of_ne_nil cyc a1
  have l0 := cycle_labels hK a3 x0 r0
  have pos0 : 0 < K.w x0 := by
    obtain ⟨⟨q, -, q2⟩, -⟩ := cycle_next r0
    obtain ⟨y', z', g, k⟩ := a3 _ q2
    have s1 := hK.lf_spec g
    have s2 := hK.lf_spec g.rot
    dsimp only at g k s1 s2
    rcases k with ⟨k, -⟩ | ⟨k, -⟩ <;> omega
  have hb0 := hb x0 0 l0 (by omega)
  have bt : b = true := by rw [← hb0]; exact decide_eq_true (.inl r0)
  have ge : ∀ x ∈ K.tri.labels.toFinset, K.w x ≤ (K.tri.curveFromCutSequence cyc : Lam Int).w x := by
    intro x hx
    have hx := mem_labels.1 (List.mem_toFinset.1 hx)
    rw [link_w cyc hx]
    have b1 := h1 x hx
    by_cases q : 0 < K.w x
    · have := hb x 0 hx (by omega)
      rw [bt] at this
      have this : x ∈ cyc ∨ inv x ∈ cyc := of_decide_eq_true this
      have : 0 < cyc.count x ∨ 0 < cyc.count (inv x) := this.imp List.count_pos_iff.2 List.count_pos_iff.2
      push_cast
      omega
    · push_cast
      omega
  intro x hx
  have all := (Finset.sum_eq_sum_iff_of_le ge).1 (le_antisymm (Finset.sum_le_sum ge) (by rw [tot]; push_cast at w2 ⊢; omega))
  exact (all x (List.mem_toFinset.2 (mem_labels.2 hx))).symm

end Lam
end Curver
