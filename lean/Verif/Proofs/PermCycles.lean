import Verif.Proofs.Permutation

namespace Curver
namespace Permutation
open Equiv Equiv.Perm Finset

variable {n : Nat}

/-- size of the cycle through `i` -/
noncomputable def cycLen (σ : Perm (Fin n)) (i : Fin n) : Nat := Function.minimalPeriod σ i

theorem cycLen_pos (σ : Perm (Fin n)) (i : Fin n) : 0 < cycLen σ i := by
  apply Function.minimalPeriod_pos_of_mem_periodicPts
  refine ⟨orderOf σ, orderOf_pos σ, ?_⟩
  unfold Function.IsPeriodicPt Function.IsFixedPt
  rw [Perm.iterate_eq_pow, pow_orderOf_eq_one]; rfl

theorem cycLen_le (σ : Perm (Fin n)) (i : Fin n) : cycLen σ i ≤ n := by
  -- the first `cycLen` iterates are distinct
  have h : Set.InjOn (fun k => σ^[k] i) (Finset.range (cycLen σ i) : Set ℕ) := by
    intro a ha b hb hab
    simp only [coe_range, Set.mem_Iio] at ha hb
    exact (Function.iterate_eq_iterate_iff_of_lt_minimalPeriod ha hb).1 hab
  have := Finset.card_le_card_of_injOn (s := Finset.range (cycLen σ i)) (t := (univ : Finset (Fin n)))
    (fun k => σ^[k] i) (by simp) h
  simpa using this

theorem cycleInner_spec {p : Permutation} {σ : Perm (Fin n)} (hp : p.Represents σ) (i : Fin n) (m : Nat)
    (seen : List Nat) : ∀ (k : Nat), 0 < k → k ≤ cycLen σ i → cycLen σ i < k + m →
    ∃ seen', cycleInner p i ((List.range' k m)) (σ^[k] i : Fin n) seen = .ok (some (cycLen σ i), seen') ∧
      ∀ x : Nat, x ∈ seen' ↔ x ∈ seen ∨ ∃ t, k < t ∧ t ≤ cycLen σ i ∧ x = (σ^[t] i : Fin n) := by
  induction m generalizing seen with
  | zero => intro k h1 h2 h3; omega
  | succ m ih =>
    intro k h1 h2 h3
    rw [List.range'_succ]
    unfold cycleInner
    by_cases h : (σ^[k] i : Fin n) = i
    · have hk : cycLen σ i ≤ k := Function.IsPeriodicPt.minimalPeriod_le h1 h
      have : k = cycLen σ i := le_antisymm h2 hk
      refine ⟨seen, by rw [if_pos (by rw [h]), this], ?_⟩
      intro x
      constructor
      · exact Or.inl
      · rintro (hx | ⟨t, ht, ht', _⟩)
        · exact hx
        · omega
    · have hne : ((σ^[k] i : Fin n) : Nat) ≠ i := fun e => h (Fin.ext e)
      have hk : k < cycLen σ i := by
        rcases Nat.lt_or_ge k (cycLen σ i) with h' | h'
        · exact h'
        · have : k = cycLen σ i := le_antisymm h2 h'
          rw [this] at h
          exact absurd (Function.iterate_minimalPeriod (f := σ) (x := i)) h
      rw [if_neg hne, hp.call]
      simp only [py_bind_ok]
      have e : σ (σ^[k] i) = σ^[k+1] i := (Function.iterate_succ_apply' σ k i).symm
      rw [e]
      obtain ⟨seen', hs, hs'⟩ := ih (((σ^[k+1] i : Fin n) : Nat) :: seen) (k + 1) (by omega) (by omega) (by omega)
      refine ⟨seen', hs, ?_⟩
      intro x
      rw [hs']
      constructor
      · rintro (hx | ⟨t, ht, ht', hx⟩)
        · rcases List.mem_cons.1 hx with rfl | hx
          · exact Or.inr ⟨k + 1, by omega, by omega, rfl⟩
          · exact Or.inl hx
        · exact Or.inr ⟨t, by omega, ht', hx⟩
      · rintro (hx | ⟨t, ht, ht', hx⟩)
        · exact Or.inl (List.mem_cons_of_mem _ hx)
        · rcases Nat.lt_or_ge (k + 1) t with h' | h'
          · exact Or.inr ⟨t, h', ht', hx⟩
          · have : t = k + 1 := by omega
            subst this
            exact Or.inl (by simp [hx])

theorem sameCycle_iff_iterate (σ : Perm (Fin n)) (i x : Fin n) :
    σ.SameCycle i x ↔ ∃ t, 0 < t ∧ t ≤ cycLen σ i ∧ x = σ^[t] i := by
  constructor
  · intro h
    obtain ⟨k, _, _, rfl⟩ := h.exists_pow_eq''
    · rcases this : k % cycLen σ i with _ | r
      · refine ⟨cycLen σ i, cycLen_pos σ i, le_refl _, ?_⟩
        have h0 : σ^[k] i = σ^[k % cycLen σ i] i := (Function.iterate_mod_minimalPeriod_eq).symm
        rw [← Perm.iterate_eq_pow, h0, this]
        exact (Function.iterate_minimalPeriod (f := σ) (x := i)).symm
      · refine ⟨r + 1, by omega, ?_, ?_⟩
        · have := Nat.mod_lt k (cycLen_pos σ i); omega
        · have h0 : σ^[k] i = σ^[k % cycLen σ i] i := (Function.iterate_mod_minimalPeriod_eq).symm
          rw [← Perm.iterate_eq_pow, h0, this]
  · rintro ⟨t, _, _, rfl⟩
    exact ⟨t, by rw [zpow_natCast, Perm.iterate_eq_pow]⟩

/-- least element of its cycle -/
def IsRep (σ : Perm (Fin n)) (i : Fin n) : Prop := ∀ j, σ.SameCycle i j → i ≤ j

theorem cycleOuter_spec {p : Permutation} {σ : Perm (Fin n)} (hp : p.Represents σ) :
    ∀ (m k : Nat) (lengths seen : List Nat), k + m = n →
    (∀ x : Fin n, (x : Nat) ∈ seen ↔ ∃ j : Fin n, (j : Nat) < k ∧ σ.SameCycle j x) →
    ∃ reps : List (Fin n), reps.Nodup ∧ (∀ i : Fin n, i ∈ reps ↔ k ≤ i ∧ IsRep σ i) ∧
      cycleOuter p (List.range' k m) lengths seen = .ok (lengths ++ reps.map (cycLen σ)) := by
  intro m
  induction m with
  | zero =>
    intro k lengths seen hk hseen
    refine ⟨[], by simp, ?_, by simp [cycleOuter]⟩
    intro i; have := i.isLt; simp; omega
  | succ m ih =>
    intro k lengths seen hk hseen
    have hkn : k < n := by omega
    let i : Fin n := ⟨k, hkn⟩
    rw [List.range'_succ]
    unfold cycleOuter
    have hrep : k ∈ seen ↔ ¬ IsRep σ i := by
      have := hseen i
      simp only [i] at this
      rw [this]
      unfold IsRep
      push Not
      constructor
      · rintro ⟨j, hj, hs⟩; exact ⟨j, hs.symm, hj⟩
      · rintro ⟨j, hs, hj⟩; exact ⟨j, hj, hs.symm⟩
    by_cases hmem : k ∈ seen
    · rw [if_pos hmem]
      obtain ⟨reps, h1, h2, h3⟩ := ih (k + 1) lengths seen (by omega) (by
        intro x
        rw [hseen]
        constructor
        · rintro ⟨j, hj, hs⟩; exact ⟨j, by omega, hs⟩
        · rintro ⟨j, hj, hs⟩
          rcases Nat.lt_or_ge (j : Nat) k with h | h
          · exact ⟨j, h, hs⟩
          · have hji : j = i := Fin.ext (by simp [i]; omega)
            subst hji
            obtain ⟨j', hj', hs'⟩ := (hseen i).1 hmem
            exact ⟨j', hj', hs'.trans hs⟩)
      refine ⟨reps, h1, ?_, h3⟩
      intro x
      rw [h2]
      constructor
      · rintro ⟨h, h'⟩; exact ⟨by omega, h'⟩
      · rintro ⟨h, h'⟩
        refine ⟨?_, h'⟩
        by_contra hc
        have : x = i := Fin.ext (by simp [i]; omega)
        subst this
        exact (hrep.1 hmem) h'
    · rw [if_neg hmem]
      have hcall := hp.call i
      simp only [i] at hcall
      rw [hcall]
      simp only [py_bind_ok]
      have hrange : (List.range p.len).map (· + 1) = List.range' 1 n := by
        rw [hp.len, List.range'_eq_map_range]; exact List.map_congr_left (fun a _ => by omega)
      obtain ⟨seen', hs, hs'⟩ := cycleInner_spec hp i n ((σ i : Nat) :: seen) 1 (by omega) (cycLen_pos σ i)
        (by have := cycLen_le σ i; omega)
      rw [hrange]
      have hs0 : cycleInner p k (List.range' 1 n) (σ ⟨k, hkn⟩ : Fin n) ((σ ⟨k, hkn⟩ : Nat) :: seen) =
        .ok (some (cycLen σ i), seen') := hs
      rw [hs0]
      simp only [py_bind_ok]
      obtain ⟨reps, h1, h2, h3⟩ := ih (k + 1) (lengths ++ [cycLen σ i]) seen' (by omega) (by
        intro x
        rw [hs']
        have hx : (∃ t, 0 < t ∧ t ≤ cycLen σ i ∧ x = σ^[t] i) ↔
            ((x : Nat) = (σ i : Nat) ∨ ∃ t, 1 < t ∧ t ≤ cycLen σ i ∧ (x : Nat) = (σ^[t] i : Fin n)) := by
          constructor
          · rintro ⟨t, ht, ht', hx⟩
            rcases Nat.lt_or_ge 1 t with h | h
            · exact Or.inr ⟨t, h, ht', by rw [hx]⟩
            · have : t = 1 := by omega
              subst this; left; rw [hx]; rfl
          · rintro (h | ⟨t, ht, ht', hx⟩)
            · exact ⟨1, by omega, cycLen_pos σ i, Fin.ext h⟩
            · exact ⟨t, by omega, ht', Fin.ext hx⟩
        have hx' := (sameCycle_iff_iterate σ i x).trans hx
        constructor
        · rintro (h | h)
          · rcases List.mem_cons.1 h with h | h
            · exact ⟨i, by simp [i], hx'.2 (Or.inl h)⟩
            · obtain ⟨j, hj, hjs⟩ := (hseen x).1 h
              exact ⟨j, by omega, hjs⟩
          · exact ⟨i, by simp [i], hx'.2 (Or.inr h)⟩
        · rintro ⟨j, hj, hjs⟩
          rcases Nat.lt_or_ge (j : Nat) k with h | h
          · left; exact List.mem_cons_of_mem _ ((hseen x).2 ⟨j, h, hjs⟩)
          · have hji : j = i := Fin.ext (by simp [i]; omega)
            subst hji
            rcases hx'.1 hjs with h | h
            · left; simp [h]
            · right; exact h)
      refine ⟨i :: reps, ?_, ?_, ?_⟩
      · rw [List.nodup_cons]
        refine ⟨fun h => ?_, h1⟩
        have := ((h2 i).1 h).1
        simp [i] at this
      · intro x
        rw [List.mem_cons, h2]
        constructor
        · rintro (rfl | ⟨h, h'⟩)
          · exact ⟨by simp [i], by by_contra hc; exact hmem (hrep.2 hc)⟩
          · exact ⟨by omega, h'⟩
        · rintro ⟨h, h'⟩
          rcases Nat.lt_or_ge k (x : Nat) with h'' | h''
          · exact Or.inr ⟨by omega, h'⟩
          · exact Or.inl (Fin.ext (by simp [i]; omega))
      · rw [h3]; simp

theorem cycleLengths_spec {p : Permutation} {σ : Perm (Fin n)} (hp : p.Represents σ) :
    ∃ l : List Nat, p.cycleLengths = .ok l ∧ l.Pairwise (· ≤ ·) ∧
      ∃ reps : List (Fin n), reps.Nodup ∧ (∀ i : Fin n, i ∈ reps ↔ IsRep σ i) ∧
        l.Perm (reps.map (cycLen σ)) := by
  obtain ⟨reps, h1, h2, h3⟩ := cycleOuter_spec hp n 0 [] [] (by simp) (by simp)
  refine ⟨(reps.map (cycLen σ)).insertionSort (· ≤ ·), ?_, ?_, reps, h1, by simpa using h2, ?_⟩
  · unfold cycleLengths
    rw [hp.len, List.range_eq_range', h3]
    rfl
  · exact List.pairwise_insertionSort _ _
  · simpa using List.perm_insertionSort (· ≤ ·) (reps.map (cycLen σ))

/-- every cycle has exactly one least element -/
theorem exists_rep (σ : Perm (Fin n)) (x : Fin n) : ∃ i, IsRep σ i ∧ σ.SameCycle i x := by
  classical
  let s := (univ : Finset (Fin n)).filter (fun j => σ.SameCycle x j)
  have hs : s.Nonempty := ⟨x, by simp [s, SameCycle.refl]⟩
  have hm := Finset.min'_mem s hs
  refine ⟨s.min' hs, ?_, ?_⟩
  · intro j hj
    apply Finset.min'_le
    simp only [s, mem_filter, mem_univ, true_and] at hm ⊢
    exact hm.trans hj
  · simp only [s, mem_filter, mem_univ, true_and] at hm
    exact hm.symm

theorem IsRep.unique {σ : Perm (Fin n)} {i j : Fin n} (hi : IsRep σ i) (hj : IsRep σ j) (h : σ.SameCycle i j) : i = j :=
  le_antisymm (hi j h) (hj i h.symm)

theorem cycLen_eq_card {σ : Perm (Fin n)} {i : Fin n} (h : σ i ≠ i) : cycLen σ i = (σ.cycleOf i).support.card := by
  classical
  have hmem : ∀ x, x ∈ (σ.cycleOf i).support ↔ ∃ t, 0 < t ∧ t ≤ cycLen σ i ∧ x = σ^[t] i := by
    intro x
    rw [mem_support_cycleOf_iff' h, sameCycle_iff_iterate]
  have himg : (σ.cycleOf i).support = (Finset.range (cycLen σ i)).image (fun k => σ^[k+1] i) := by
    ext x
    rw [hmem, Finset.mem_image]
    constructor
    · rintro ⟨t, h1, h2, rfl⟩; exact ⟨t - 1, by simp; omega, by congr 1; rw [Nat.sub_add_cancel h1]⟩
    · rintro ⟨k, hk, rfl⟩; simp at hk; exact ⟨k + 1, by omega, by omega, rfl⟩
  rw [himg, Finset.card_image_of_injOn, Finset.card_range]
  intro a ha b hb hab
  simp only [coe_range, Set.mem_Iio] at ha hb
  simp only [Function.iterate_succ_apply'] at hab
  exact (Function.iterate_eq_iterate_iff_of_lt_minimalPeriod ha hb).1 (σ.injective hab)

theorem cycLen_eq_one_iff {σ : Perm (Fin n)} {i : Fin n} : cycLen σ i = 1 ↔ σ i = i :=
  Function.minimalPeriod_eq_one_iff_isFixedPt

/-- the cycle lengths greater than one are the cycle type -/
theorem filter_eq_cycleType {σ : Perm (Fin n)} {reps : List (Fin n)} (h1 : reps.Nodup)
    (h2 : ∀ i, i ∈ reps ↔ IsRep σ i) :
    (((reps.map (cycLen σ)).filter (fun k => decide (k ≠ 1)) : List Nat) : Multiset Nat) = σ.cycleType := by
  classical
  have e0 : (reps.map (cycLen σ)).filter (fun k => decide (k ≠ 1)) =
      (reps.filter (fun i => decide (σ i ≠ i))).map (fun i => (σ.cycleOf i).support.card) := by
    rw [List.filter_map]
    have : reps.filter ((fun k => decide (k ≠ 1)) ∘ cycLen σ) = reps.filter (fun i => decide (σ i ≠ i)) := by
      apply List.filter_congr
      intro i _
      simp [cycLen_eq_one_iff]
    rw [this]
    apply List.map_congr_left
    intro i hi
    exact cycLen_eq_card (by simpa using (List.mem_filter.1 hi).2)
  rw [e0, cycleType_def]
  have e1 : σ.cycleFactorsFinset.val =
      (((reps.filter (fun i => decide (σ i ≠ i))).map (fun i => σ.cycleOf i) : List (Perm (Fin n))) : Multiset (Perm (Fin n))) := by
    apply (Multiset.Nodup.ext (Finset.nodup _) ?_).2
    · intro c
      simp only [Multiset.mem_coe, List.mem_map, List.mem_filter, Finset.mem_val, decide_eq_true_eq]
      constructor
      · intro hc
        have hc' := (mem_cycleFactorsFinset_iff.1 hc)
        obtain ⟨x, hx⟩ := hc'.1.nonempty_support
        obtain ⟨i, hi, his⟩ := exists_rep σ x
        have hcx : c = σ.cycleOf x := cycle_is_cycleOf hx hc
        have hxs : σ x ≠ x := by
          have := hc'.2 x hx
          rw [← this]; exact mem_support.1 hx
        refine ⟨i, ⟨(h2 i).2 hi, ?_⟩, ?_⟩
        · have : i ∈ σ.support := (his.mem_support_iff).2 (mem_support.2 hxs)
          exact mem_support.1 this
        · rw [hcx]; exact his.cycleOf_eq
      · rintro ⟨i, ⟨_, hi⟩, rfl⟩
        exact cycleOf_mem_cycleFactorsFinset_iff.2 (mem_support.2 hi)
    · rw [Multiset.coe_nodup]
      apply List.Nodup.map_on _ (h1.filter _)
      intro i hi j hj hij
      simp only [List.mem_filter, decide_eq_true_eq] at hi hj
      have hsame : σ.SameCycle i j := by
        have : j ∈ (σ.cycleOf i).support := by
          rw [hij, mem_support_cycleOf_iff]
          exact ⟨SameCycle.refl _ _, mem_support.2 hj.2⟩
        exact (mem_support_cycleOf_iff.1 this).1
      exact ((h2 i).1 hi.1).unique ((h2 j).1 hj.1) hsame
  rw [e1, Multiset.map_coe, List.map_map]
  rfl

/-- the number of ones among the cycle lengths is the number of fixed points -/
theorem count_ones {σ : Perm (Fin n)} {reps : List (Fin n)} (h1 : reps.Nodup)
    (h2 : ∀ i, i ∈ reps ↔ IsRep σ i) :
    ((reps.map (cycLen σ)).filter (fun k => decide (¬ k ≠ 1))).length = n - σ.support.card := by
  classical
  rw [List.filter_map, List.length_map]
  have e : (reps.filter ((fun k => decide (¬ k ≠ 1)) ∘ cycLen σ)).toFinset = σ.supportᶜ := by
    ext i
    simp only [List.mem_toFinset, List.mem_filter, Function.comp, ne_eq, not_not, decide_eq_true_eq, mem_compl,
      mem_support, h2, cycLen_eq_one_iff]
    constructor
    · exact fun h => h.2
    · intro h
      refine ⟨?_, h⟩
      intro j hj
      obtain ⟨k, rfl⟩ := hj
      rw [zpow_apply_eq_self_of_apply_eq_self h]
  rw [← List.toFinset_card_of_nodup (h1.filter _), e, Finset.card_compl, Fintype.card_fin]

theorem cycleLengths_eq_iff {σ τ : Perm (Fin n)} {rs rt : List (Fin n)} (hs : rs.Nodup) (hs' : ∀ i, i ∈ rs ↔ IsRep σ i)
    (ht : rt.Nodup) (ht' : ∀ i, i ∈ rt ↔ IsRep τ i) :
    (rs.map (cycLen σ)).Perm (rt.map (cycLen τ)) ↔ σ.cycleType = τ.cycleType := by
  constructor
  · intro h
    rw [← filter_eq_cycleType hs hs', ← filter_eq_cycleType ht ht']
    exact Multiset.coe_eq_coe.2 (h.filter _)
  · intro h
    have h3 : ((rs.map (cycLen σ)).filter (fun k => decide (k ≠ 1))).Perm
        ((rt.map (cycLen τ)).filter (fun k => decide (k ≠ 1))) := by
      rw [← Multiset.coe_eq_coe, filter_eq_cycleType hs hs', filter_eq_cycleType ht ht', h]
    have h4 : ((rs.map (cycLen σ)).filter (fun k => decide (¬ k ≠ 1))).length =
        ((rt.map (cycLen τ)).filter (fun k => decide (¬ k ≠ 1))).length := by
      rw [count_ones hs hs', count_ones ht ht', ← sum_cycleType, ← sum_cycleType, h]
    have hrep : ∀ l : List Nat, l.filter (fun k => decide (¬ k ≠ 1)) =
        List.replicate (l.filter (fun k => decide (¬ k ≠ 1))).length 1 := by
      intro l
      apply List.eq_replicate_of_mem
      intro b hb
      simpa using (List.mem_filter.1 hb).2
    have h5 : ((rs.map (cycLen σ)).filter (fun k => decide (¬ k ≠ 1))) =
        ((rt.map (cycLen τ)).filter (fun k => decide (¬ k ≠ 1))) := by
      rw [hrep (rs.map (cycLen σ)), h4, ← hrep]
    have split : ∀ l : List Nat, (l.filter (fun k => decide (k ≠ 1)) ++ l.filter (fun k => decide (¬ k ≠ 1))).Perm l := by
      intro l
      have := List.filter_append_perm (fun k => decide (k ≠ 1)) l
      simpa using this
    exact (split _).symm.trans ((h3.append (by rw [h5])).trans (split _))

end Permutation
end Curver
