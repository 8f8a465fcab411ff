import Verif.Spec.Permutation
import Verif.Proofs.PyLemmas
import Mathlib.GroupTheory.Perm.Fin
import Mathlib.GroupTheory.Perm.Cycle.Type
import Mathlib.Data.Fintype.EquivFin
import Mathlib.Tactic.Linarith

namespace Curver
namespace Permutation

theorem create_ok_iff {l : List Int} {p : Permutation} :
    create l = .ok p ↔ (∀ x ∈ l, 0 ≤ x ∧ x < l.length) ∧ (∀ i < l.length, (i : Int) ∈ l) ∧ p = ⟨l.map Int.toNat⟩ := by
  unfold create
  simp only [py_bind_eq_ok, pyAssert_ok_iff, Bool.and_eq_true, List.all_eq_true, decide_eq_true_eq,
    List.mem_map, List.mem_range, py_pure, Except.ok.injEq]
  constructor
  · rintro ⟨_, ⟨h1, h2⟩, rfl⟩
    refine ⟨?_, fun i hi => h2 i hi, rfl⟩
    intro x hx
    obtain ⟨i, hi, rfl⟩ := h1 x hx
    simp; omega
  · rintro ⟨h1, h2, rfl⟩
    refine ⟨(), ⟨?_, fun i hi => h2 i hi⟩, rfl⟩
    intro x hx
    obtain ⟨h3, h4⟩ := h1 x hx
    exact ⟨x.toNat, by omega, by simp [h3]⟩

theorem create_error {l : List Int} {e : PyErr} (h : create l = .error e) : e = .assertionError := by
  unfold create pyAssert at h
  split at h
  · simp at h
  · simp at h; exact h.symm

theorem createNat_ok_iff {l : List Nat} {p : Permutation} :
    createNat l = .ok p ↔ (∀ x ∈ l, x < l.length) ∧ (∀ i < l.length, i ∈ l) ∧ p = ⟨l⟩ := by
  unfold createNat
  rw [create_ok_iff]
  simp only [List.mem_map, List.length_map, List.map_map, forall_exists_index, and_imp,
    forall_apply_eq_imp_iff₂]
  have : l.map (Int.toNat ∘ Int.ofNat) = l := by
    rw [show (Int.toNat ∘ Int.ofNat) = id from by funext x; simp]; simp
  rw [this]
  constructor
  · rintro ⟨h1, h2, h3⟩
    refine ⟨fun x hx => ?_, fun i hi => ?_, h3⟩
    · have := h1 x hx; simp at this; omega
    · obtain ⟨a, ha, hb⟩ := h2 i hi
      simp at hb; rw [← hb]; exact ha
  · rintro ⟨h1, h2, h3⟩
    refine ⟨fun x hx => ?_, fun i hi => ⟨i, h2 i hi, rfl⟩, h3⟩
    have := h1 x hx; simp; omega

/-- the lists accepted by the constructor -/
theorem valid_iff_represents {l : List Nat} :
    ((∀ x ∈ l, x < l.length) ∧ (∀ i < l.length, i ∈ l)) ↔ ∃ σ : Equiv.Perm (Fin l.length), Represents ⟨l⟩ σ := by
  constructor
  · rintro ⟨h1, h2⟩
    let f : Fin l.length → Fin l.length := fun i => ⟨l[i], h1 _ (List.getElem_mem _)⟩
    have hs : Function.Surjective f := by
      intro ⟨i, hi⟩
      obtain ⟨j, hj, e⟩ := List.mem_iff_getElem.1 (h2 i hi)
      exact ⟨⟨j, hj⟩, by simp [f, e]⟩
    have hb : Function.Bijective f := Finite.surjective_iff_bijective.1 hs
    refine ⟨Equiv.ofBijective f hb, ?_⟩
    unfold Represents
    apply List.ext_getElem
    · simp
    · intro i h1 h2; simp [f]
  · rintro ⟨σ, h⟩
    unfold Represents at h
    simp only at h
    constructor
    · intro x hx
      rw [h] at hx
      obtain ⟨i, rfl⟩ := (List.mem_ofFn' ..).1 hx
      exact (σ i).isLt
    · intro i hi
      rw [h]
      exact (List.mem_ofFn' ..).2 ⟨σ.symm ⟨i, hi⟩, by simp⟩

theorem Represents.len {p : Permutation} {n : Nat} {σ : Equiv.Perm (Fin n)} (h : p.Represents σ) : p.len = n := by
  unfold Represents at h; simp [Permutation.len, h]

theorem Represents.eq {p q : Permutation} {n : Nat} {σ : Equiv.Perm (Fin n)} (h : p.Represents σ) (h' : q.Represents σ) :
    p = q := by
  cases p; cases q; unfold Represents at h h'; simp_all

theorem Represents.inj {p : Permutation} {n : Nat} {σ τ : Equiv.Perm (Fin n)} (h : p.Represents σ) (h' : p.Represents τ) :
    σ = τ := by
  unfold Represents at h h'
  rw [h] at h'
  ext i
  have := congrFun (List.ofFn_injective h') i
  exact this

theorem Represents.call {p : Permutation} {n : Nat} {σ : Equiv.Perm (Fin n)} (h : p.Represents σ) (i : Fin n) :
    p.call i = .ok (σ i : Nat) := by
  unfold Represents at h
  unfold Permutation.call
  rw [pyGet_ok_iff, h]
  simp

theorem createNat_ofFn {n : Nat} (σ : Equiv.Perm (Fin n)) :
    createNat (List.ofFn (fun i => (σ i : Nat))) = .ok ⟨List.ofFn (fun i => (σ i : Nat))⟩ := by
  rw [createNat_ok_iff]
  refine ⟨?_, ?_, rfl⟩
  · intro x hx
    obtain ⟨i, rfl⟩ := (List.mem_ofFn' ..).1 hx
    simp
  · intro i hi
    simp at hi
    exact (List.mem_ofFn' ..).2 ⟨σ.symm ⟨i, hi⟩, by simp⟩

theorem exists_represents {p : Permutation} {l : List Int} (h : create l = .ok p) :
    ∃ σ : Equiv.Perm (Fin p.len), p.Represents σ := by
  rw [create_ok_iff] at h
  obtain ⟨h1, h2, rfl⟩ := h
  apply valid_iff_represents.1
  simp only [List.mem_map, List.length_map, forall_exists_index, and_imp, forall_apply_eq_imp_iff₂]
  refine ⟨fun x hx => ?_, fun i hi => ⟨i, h2 i hi, by simp⟩⟩
  have := h1 x hx; omega

theorem exists_represents_nat {p : Permutation} {l : List Nat} (h : createNat l = .ok p) :
    ∃ σ : Equiv.Perm (Fin p.len), p.Represents σ := exists_represents h

theorem range_map_eq_ofFn {α : Type _} (n : Nat) (f : Nat → α) :
    (List.range n).map f = List.ofFn (fun i : Fin n => f i) := by
  apply List.ext_getElem <;> simp

theorem identity_represents (n : Nat) : ∃ p, identity n = .ok p ∧ p.Represents (1 : Equiv.Perm (Fin n)) := by
  have h : List.range n = List.ofFn (fun i : Fin n => ((1 : Equiv.Perm (Fin n)) i : Nat)) := by
    rw [← List.map_id (List.range n), range_map_eq_ofFn]; rfl
  refine ⟨⟨List.range n⟩, ?_, h⟩
  unfold identity
  rw [h]; exact createNat_ofFn _

theorem mul_represents {p q : Permutation} {n : Nat} {σ τ : Equiv.Perm (Fin n)} (hp : p.Represents σ)
    (hq : q.Represents τ) : ∃ r, p.mul q = .ok r ∧ r.Represents (σ * τ) := by
  refine ⟨⟨List.ofFn (fun i => ((σ * τ) i : Nat))⟩, ?_, rfl⟩
  unfold mul
  rw [if_neg (by rw [hp.len, hq.len]; simp), hp.len]
  have : (List.range n).mapM (fun i => do let j ← q.call i; p.call j) =
      .ok (List.ofFn (fun i => ((σ * τ) i : Nat))) := by
    have e := range_map_eq_ofFn n (fun i => if h : i < n then ((σ * τ) ⟨i, h⟩ : Nat) else 0)
    simp only [Fin.is_lt, dif_pos, Fin.eta] at e
    rw [← e]
    apply mapM_ok
    intro i hi
    have hi : i < n := List.mem_range.1 hi
    rw [hq.call ⟨i, hi⟩]
    simp only [py_bind_ok, hp.call, hi, dif_pos]
    rfl
  rw [this]
  exact createNat_ofFn _

theorem eq_represents {p q : Permutation} {n : Nat} {σ τ : Equiv.Perm (Fin n)} (hp : p.Represents σ)
    (hq : q.Represents τ) : p.eq q = .ok (decide (σ = τ)) := by
  unfold Permutation.eq
  rw [if_neg (by rw [hp.len, hq.len]; simp)]
  congr 1
  rw [Bool.eq_iff_iff]
  simp only [beq_iff_eq, decide_eq_true_eq]
  constructor
  · intro h
    have : p = q := by cases p; cases q; simpa using h
    subst this; exact hp.inj hq
  · rintro rfl
    rw [hp.eq hq]

theorem powLoop_represents {p r : Permutation} {n : Nat} {σ ρ : Equiv.Perm (Fin n)} (k : Nat)
    (hp : p.Represents σ) (hr : r.Represents ρ) : ∃ s, powLoop p r k = .ok s ∧ s.Represents (ρ * σ ^ k) := by
  induction k using Nat.strong_induction_on generalizing p r σ ρ with
  | _ k ih =>
    unfold powLoop
    split
    next h => subst h; exact ⟨r, rfl, by simpa using hr⟩
    next h =>
      obtain ⟨pp, hpp, hpp'⟩ := mul_represents hp hp
      by_cases hk : k % 2 = 1
      · obtain ⟨rp, hrp, hrp'⟩ := mul_represents hr hp
        obtain ⟨s, hs, hs'⟩ := ih (k / 2) (by omega) hpp' hrp'
        refine ⟨s, by simp [hk, hrp, hpp, hs], ?_⟩
        have e : σ ^ k = σ * (σ * σ) ^ (k / 2) := by
          rw [← pow_two, ← pow_mul, ← pow_succ']; congr 1; omega
        rw [e, ← mul_assoc]; exact hs'
      · obtain ⟨s, hs, hs'⟩ := ih (k / 2) (by omega) hpp' hr
        refine ⟨s, by simp [hk, hpp, hs], ?_⟩
        have e : σ ^ k = (σ * σ) ^ (k / 2) := by
          rw [← pow_two, ← pow_mul]; congr 1; omega
        rw [e]; exact hs'

theorem inverse_represents {p : Permutation} {n : Nat} {σ : Equiv.Perm (Fin n)} (hp : p.Represents σ) :
    ∃ r, p.inverse = .ok r ∧ r.Represents σ⁻¹ := by
  refine ⟨⟨List.ofFn (fun i => (σ⁻¹ i : Nat))⟩, ?_, rfl⟩
  unfold inverse
  have key : (List.range p.len).insertionSort (fun i j => p.perm[i]?.getD 0 ≤ p.perm[j]?.getD 0)
      = List.ofFn (fun i => (σ⁻¹ i : Nat)) := by
    rw [hp.len]
    have hval : ∀ i (hi : i < n), p.perm[i]?.getD 0 = (σ ⟨i, hi⟩ : Nat) := by
      intro i hi
      have := hp; unfold Represents at this
      rw [this]; simp [hi]
    -- both lists are sorted for the same order and permutations of each other
    let f : Nat → Nat := fun i => p.perm[i]?.getD 0
    have hperm : List.Perm ((List.range n).insertionSort (fun i j => f i ≤ f j)) (List.ofFn (fun i => (σ⁻¹ i : Nat))) := by
      refine (List.perm_insertionSort _ _).trans ?_
      apply (List.perm_ext_iff_of_nodup List.nodup_range ?_).2
      · intro a
        simp only [List.mem_range, List.mem_ofFn']
        constructor
        · intro h; exact ⟨σ ⟨a, h⟩, by simp⟩
        · rintro ⟨i, rfl⟩; exact Fin.isLt _
      · rw [List.nodup_ofFn]
        intro i j h
        exact σ⁻¹.injective (Fin.ext h)
    have hs1 : ((List.range n).insertionSort (fun i j => f i ≤ f j)).Pairwise (fun i j => f i ≤ f j) := by
      have : Std.Total (fun i j : Nat => f i ≤ f j) := ⟨fun a b => le_total _ _⟩
      have : IsTrans Nat (fun i j : Nat => f i ≤ f j) := ⟨fun a b c => le_trans⟩
      exact List.pairwise_insertionSort _ _
    have hs2 : (List.ofFn (fun i => (σ⁻¹ i : Nat))).Pairwise (fun i j => f i ≤ f j) := by
      rw [List.pairwise_ofFn]
      intro i j hij
      have h1 : f (σ⁻¹ i : Nat) = i := by
        have := hval (σ⁻¹ i : Nat) (Fin.isLt _); simp only [f, this]; simp
      have h2 : f (σ⁻¹ j : Nat) = j := by
        have := hval (σ⁻¹ j : Nat) (Fin.isLt _); simp only [f, this]; simp
      rw [h1, h2]; exact hij.le
    refine List.Perm.eq_of_pairwise ?_ hs1 hs2 hperm
    intro a b ha hb hab hba
    have ha' : a < n := by
      have := (List.perm_insertionSort (fun i j => f i ≤ f j) (List.range n)).mem_iff.1 ha
      simpa using this
    have hb' : b < n := by
      obtain ⟨i, rfl⟩ := (List.mem_ofFn' ..).1 hb; exact Fin.isLt _
    have := le_antisymm hab hba
    simp only [f, hval a ha', hval b hb'] at this
    have := σ.injective (Fin.ext this)
    simpa using this
  rw [key]
  exact createNat_ofFn _

theorem pow_represents {p : Permutation} {n : Nat} {σ : Equiv.Perm (Fin n)} (k : Int) (hp : p.Represents σ) :
    ∃ r, p.pow k = .ok r ∧ r.Represents (σ ^ k) := by
  unfold pow
  split
  next h =>
    obtain ⟨q, hq, hq'⟩ := inverse_represents hp
    obtain ⟨o, ho, ho'⟩ := identity_represents n
    obtain ⟨s, hs, hs'⟩ := powLoop_represents (-k).toNat hq' ho'
    refine ⟨s, by simp [hq, hq'.len, ho, hs], ?_⟩
    have e : σ ^ k = 1 * σ⁻¹ ^ (-k).toNat := by
      rw [one_mul, ← zpow_natCast, Int.toNat_of_nonneg (by omega), inv_zpow', neg_neg]
    rw [e]; exact hs'
  next h =>
    obtain ⟨o, ho, ho'⟩ := identity_represents n
    obtain ⟨s, hs, hs'⟩ := powLoop_represents k.toNat hp ho'
    refine ⟨s, by simp [hp.len, ho, hs], ?_⟩
    have e : σ ^ k = 1 * σ ^ k.toNat := by
      rw [one_mul, ← zpow_natCast, Int.toNat_of_nonneg (by omega)]
    rw [e]; exact hs'

theorem orderLoop_represents {p o power : Permutation} {n : Nat} {σ : Equiv.Perm (Fin n)}
    (hp : p.Represents σ) (ho : o.Represents (1 : Equiv.Perm (Fin n))) (i : Nat) (hpow : power.Represents (σ ^ i))
    (hi : 0 < i) (hlt : i ≤ orderOf σ) (fuel : Nat) (hf : orderOf σ < i + fuel) :
    orderLoop p o fuel power i = .ok (some (orderOf σ)) := by
  induction fuel generalizing power i with
  | zero => omega
  | succ fuel ih =>
    unfold orderLoop
    rw [eq_represents hpow ho]
    by_cases h : σ ^ i = 1
    · have : i = orderOf σ := le_antisymm hlt (orderOf_le_of_pow_eq_one hi h)
      simp [this]
    · obtain ⟨r, hr, hr'⟩ := mul_represents hpow hp
      simp only [h, decide_false, py_bind_ok, Bool.false_eq_true, if_false, hr]
      rw [← pow_succ] at hr'
      refine ih (i + 1) hr' (by omega) ?_ (by omega)
      rcases Nat.lt_or_ge i (orderOf σ) with h1 | h1
      · exact h1
      · have : i = orderOf σ := le_antisymm hlt h1
        rw [this, pow_orderOf_eq_one] at h; exact absurd rfl h

theorem orderLoop_none {p o power : Permutation} {n : Nat} {σ : Equiv.Perm (Fin n)}
    (hp : p.Represents σ) (ho : o.Represents (1 : Equiv.Perm (Fin n))) (i : Nat) (hpow : power.Represents (σ ^ i))
    (hi : 0 < i) (fuel : Nat) (hf : i + fuel ≤ orderOf σ) :
    orderLoop p o fuel power i = .ok none := by
  induction fuel generalizing power i with
  | zero => rfl
  | succ fuel ih =>
    unfold orderLoop
    rw [eq_represents hpow ho]
    have h : σ ^ i ≠ 1 := fun h => by
      have := orderOf_le_of_pow_eq_one hi h; omega
    obtain ⟨r, hr, hr'⟩ := mul_represents hpow hp
    simp only [h, decide_false, py_bind_ok, Bool.false_eq_true, if_false, hr]
    rw [← pow_succ] at hr'
    exact ih (i + 1) hr' (by omega) (by omega)

end Permutation
end Curver
