import Verif.Proofs.PermIndex
import Verif.Proofs.PermSign
import Verif.Proofs.PermCycles

/-!
# Properties of permutations: C03, C24, C25, C26

`p.Represents σ` (Spec/Permutation.lean) says that the list of `p` is `σ 0, σ 1, …, σ (n-1)` for a mathematical
permutation `σ` of `n` points.  `C24_constructor` shows that these are exactly the objects the constructor accepts.
-/

namespace Curver
namespace Permutation
open Equiv

variable {n : Nat} {p q : Permutation} {σ τ : Perm (Fin n)}

/-! ## C24 group operations -/

/-- C24: the constructor accepts a list of integers iff it lists the values of a permutation of its positions. -/
theorem C24_constructor (l : List Int) (p : Permutation) :
    create l = .ok p ↔ ∃ σ : Perm (Fin l.length), p.Represents σ ∧ l = p.perm.map Int.ofNat := by
  constructor
  · intro h
    obtain ⟨h1, h2, h3⟩ := create_ok_iff.1 h
    have hl : l = p.perm.map Int.ofNat := by
      subst h3
      rw [List.map_map]
      conv_lhs => rw [← List.map_id l]
      apply List.map_congr_left
      intro x hx
      have := (h1 x hx).1
      simp [this]
    obtain ⟨σ, hσ⟩ := exists_represents h
    have hlen : p.len = l.length := by rw [hl]; simp [len]
    revert σ
    rw [hlen]
    exact fun σ hσ => ⟨σ, hσ, hl⟩
  · rintro ⟨σ, hσ, hl⟩
    obtain ⟨h1, h2⟩ := (createNat_ok_iff.1 (createNat_ofFn σ)).imp_right And.left
    have hp : p.perm = List.ofFn (fun i => (σ i : Nat)) := hσ
    have : createNat p.perm = .ok p := by
      rw [createNat_ok_iff, hp]
      exact ⟨h1, h2, by cases p; simpa using hp⟩
    rw [hl]; exact this

/-- C24: anything else is rejected by the assertion. -/
theorem C24_constructor_error (l : List Int) (h : ∀ σ : Perm (Fin l.length), l ≠ List.ofFn (fun i => ((σ i : Nat) : Int))) :
    create l = .error .assertionError := by
  cases hc : create l with
  | error e => rw [create_error hc]
  | ok p =>
    obtain ⟨σ, h1, h2⟩ := (C24_constructor l p).1 hc
    refine absurd ?_ (h σ)
    have hp : p.perm = List.ofFn (fun i => (σ i : Nat)) := h1
    rw [hp, List.map_ofFn] at h2
    exact h2

/-- C24: `p * q` is "first `q` then `p`". -/
theorem C24_mul (hp : p.Represents σ) (hq : q.Represents τ) :
    ∃ r, p.mul q = .ok r ∧ r.Represents (σ * τ) := mul_represents hp hq

/-- C24: sizes must agree. -/
theorem C24_mul_size (p q : Permutation) (h : p.len ≠ q.len) :
    p.mul q = .error .valueError ∧ p.eq q = .error .valueError := by
  simp [mul, eq, h]

/-- C24: `==` decides equality of the permutations. -/
theorem C24_eq (hp : p.Represents σ) (hq : q.Represents τ) : p.eq q = .ok (decide (σ = τ)) := eq_represents hp hq

/-- C24: `~p` is the two sided inverse. -/
theorem C24_inverse (hp : p.Represents σ) :
    ∃ r, p.inverse = .ok r ∧ r.Represents σ⁻¹ ∧ p.mul r = identity n ∧ r.mul p = identity n := by
  obtain ⟨r, h1, h2⟩ := inverse_represents hp
  obtain ⟨o, h3, h4⟩ := identity_represents n
  obtain ⟨a, ha, ha'⟩ := mul_represents hp h2
  obtain ⟨b, hb, hb'⟩ := mul_represents h2 hp
  refine ⟨r, h1, h2, ?_, ?_⟩
  · rw [ha, h3, (show a.Represents 1 by simpa using ha').eq h4]
  · rw [hb, h3, (show b.Represents 1 by simpa using hb').eq h4]

/-- C24: composition is associative. -/
theorem C24_assoc {r : Permutation} {ρ : Perm (Fin n)} (hp : p.Represents σ) (hq : q.Represents τ) (hr : r.Represents ρ) :
    (do let qr ← q.mul r; p.mul qr) = (do let pq ← p.mul q; pq.mul r) := by
  obtain ⟨a, ha, ha'⟩ := mul_represents hq hr
  obtain ⟨b, hb, hb'⟩ := mul_represents hp hq
  obtain ⟨c, hc, hc'⟩ := mul_represents hp ha'
  obtain ⟨d, hd, hd'⟩ := mul_represents hb' hr
  simp only [ha, hb, py_bind_ok, hc, hd]
  rw [mul_assoc] at hd'
  rw [hc'.eq hd']

/-- C24: `p ** k` is the `k`-th power for every integer `k`, negative ones included. -/
theorem C24_pow (hp : p.Represents σ) (k : Int) : ∃ r, p.pow k = .ok r ∧ r.Represents (σ ^ k) := pow_represents k hp

/-- C24: the exponent law. -/
theorem C24_pow_add (hp : p.Represents σ) (j k : Int) :
    p.pow (j + k) = (do let a ← p.pow j; let b ← p.pow k; a.mul b) := by
  obtain ⟨a, ha, ha'⟩ := pow_represents j hp
  obtain ⟨b, hb, hb'⟩ := pow_represents k hp
  obtain ⟨c, hc, hc'⟩ := pow_represents (j + k) hp
  obtain ⟨d, hd, hd'⟩ := mul_represents ha' hb'
  rw [zpow_add] at hc'
  simp only [ha, hb, hc, py_bind_ok, hd, hc'.eq hd']

/-- C24: `from_dict` reads a self-map of the items of `ordering` as a permutation of their positions. -/
theorem C24_from_dict {κ : Type _} [DecidableEq κ] (d : PyDict κ κ) (ordering : List κ) (hn : ordering.Nodup)
    (hl : ordering.length = n) (σ : Perm (Fin n))
    (hd : ∀ i : Fin n, d.get? (ordering[i]'(by simp [hl])) = some (ordering[σ i]'(by simp [hl]))) :
    ∃ p, fromDict d (some ordering) = .ok p ∧ p.Represents σ := by
  refine ⟨⟨List.ofFn (fun i => (σ i : Nat))⟩, ?_, rfl⟩
  unfold fromDict
  have hkeys : (ordering.zipIdx.map Prod.fst).Nodup := by rw [List.zipIdx_map_fst]; exact hn
  have : ordering.mapM (fun item => do
      let v ← d.get item
      (PyDict.ofList ordering.zipIdx).get v) = .ok (List.ofFn (fun i => (σ i : Nat))) := by
    rw [mapM_ok_iff, List.forall₂_iff_get]
    refine ⟨by simp [hl], ?_⟩
    intro i h1 h2
    have hi : i < n := by omega
    have h3 := hd ⟨i, hi⟩
    simp only [Fin.getElem_fin] at h3
    simp only [List.get_eq_getElem, PyDict.get_eq_ok_iff.2 h3, py_bind_ok, List.getElem_ofFn]
    rw [PyDict.get_eq_ok_iff, PyDict.get?_ofList_iff hkeys]
    rw [List.mem_zipIdx_iff_getElem?]
    simp [hl]
  simp only [Option.getD_some]
  rw [this]
  exact createNat_ofFn σ

example : (⟨[1, 2, 0]⟩ : Permutation).Represents (finRotate 3) := by
  simp [Represents, List.ofFn_succ]
example : (⟨[1, 2, 0]⟩ : Permutation).pow (-4) = .ok ⟨[2, 0, 1]⟩ := by decide +kernel
example : create [1, 1, 0] = .error .assertionError := by decide +kernel

/-! ## C03 index -/

/-- C03: the index is below `n!` and `from_index` inverts it. -/
theorem C03_roundtrip (hp : p.Represents σ) :
    p.index < n.factorial ∧ fromIndex n p.index = .ok p := by
  obtain ⟨h1, h2⟩ := sorted_perm_range hp
  have hlen : p.perm.length = n := hp.len
  have h3 := rankL_lt _ _ List.pairwise_lt_range h2
  have h4 := fromIndexLoop_rank _ _ List.pairwise_lt_range h2
  rw [hlen] at h3 h4
  rw [index_eq_rank hp]
  refine ⟨h3, ?_⟩
  unfold fromIndex
  rw [h4]
  have hpp : p.perm = List.ofFn (fun i => (σ i : Nat)) := hp
  rw [hpp]
  simp only [py_bind_ok, createNat_ofFn]
  cases p; simp at hpp; rw [hpp]

/-- C03: every number below `n!` is the index of the permutation `from_index` makes from it. -/
theorem C03_surjective (n idx : Nat) (h : idx < n.factorial) :
    ∃ (p : Permutation) (σ : Perm (Fin n)), fromIndex n idx = .ok p ∧ p.Represents σ ∧ p.index = idx := by
  obtain ⟨l, h1, h2, h3⟩ := fromIndexLoop_ok n (List.range n) idx List.pairwise_lt_range (by simp) h
  have hlen : l.length = n := by simpa using h2.length_eq
  have hc : createNat l = .ok ⟨l⟩ := by
    rw [createNat_ok_iff]
    refine ⟨fun x hx => ?_, fun i hi => ?_, rfl⟩
    · have := h2.mem_iff.1 hx; rw [hlen]; simpa using this
    · exact h2.mem_iff.2 (by rw [hlen] at hi; simpa using hi)
  obtain ⟨σ, hσ⟩ := exists_represents_nat hc
  have hl2 : (⟨l⟩ : Permutation).len = n := hlen
  revert σ
  rw [hl2]
  intro σ hσ
  refine ⟨⟨l⟩, σ, by simp [fromIndex, h1, hc], hσ, ?_⟩
  rw [index_eq_rank hσ]; exact h3

/-- C03: an index that is too large is an IndexError. -/
theorem C03_too_large (n idx : Nat) (h : n.factorial ≤ idx) (hn : 0 < n) :
    fromIndex n idx = .error .indexError := by
  obtain ⟨m, rfl⟩ : ∃ m, n = m + 1 := ⟨n - 1, by omega⟩
  unfold fromIndex
  rw [fromIndexLoop_error m (List.range (m + 1)) idx (by simp) h]
  rfl

/-- C03: the index orders permutations lexicographically. -/
theorem C03_lexicographic (hp : p.Represents σ) (hq : q.Represents τ) :
    p.index < q.index ↔ List.Lex (· < ·) p.perm q.perm := by
  have h1 := (sorted_perm_range hp).2
  have h2 := (sorted_perm_range hq).2
  rw [index_eq_rank hp, index_eq_rank hq]
  constructor
  · intro h
    rcases lt_trichotomy p.perm q.perm with h' | h' | h'
    · exact h'
    · rw [h'] at h; omega
    · have := rankL_lex _ _ _ List.pairwise_lt_range h2 h1 h'; omega
  · exact rankL_lex _ _ _ List.pairwise_lt_range h1 h2

example : (⟨[2, 0, 1]⟩ : Permutation).index = 4 := by decide +kernel
example : fromIndex 3 4 = .ok ⟨[2, 0, 1]⟩ := by decide +kernel
example : fromIndex 3 6 = .error .indexError := by decide +kernel

/-! ## C25 order, parity, matrix -/

/-- C25: the order loop terminates, and what it returns is the least positive `k` with `p ** k` trivial:
with fewer iterations there is no answer, with that many or more it is the order. -/
theorem C25_order (hp : p.Represents σ) :
    ∃ k, (∀ fuel, k ≤ fuel → p.order fuel = .ok (some k)) ∧ (∀ fuel < k, p.order fuel = .ok none) ∧
      0 < k ∧ σ ^ k = 1 ∧ ∀ j, 0 < j → σ ^ j = 1 → k ≤ j := by
  obtain ⟨o, h3, h4⟩ := identity_represents n
  have hpos : 0 < orderOf σ := orderOf_pos σ
  have h1 : p.Represents (σ ^ 1) := by simpa using hp
  refine ⟨orderOf σ, ?_, ?_, hpos, pow_orderOf_eq_one σ, fun j hj h => orderOf_le_of_pow_eq_one hj h⟩
  · intro fuel hf
    unfold order
    rw [hp.len, h3]
    exact orderLoop_represents hp h4 1 h1 (by omega) hpos fuel (by omega)
  · intro fuel hf
    unfold order
    rw [hp.len, h3]
    exact orderLoop_none hp h4 1 h1 (by omega) fuel (by omega)

/-- C25: `is_even` is the sign of the permutation. -/
theorem C25_is_even (hp : p.Represents σ) : p.isEven = true ↔ Perm.sign σ = 1 := isEven_iff_sign hp

/-- C25: hence a product is even iff both or none of the factors are. -/
theorem C25_is_even_mul {r : Permutation} (hp : p.Represents σ) (hq : q.Represents τ) (hr : p.mul q = .ok r) :
    r.isEven = (p.isEven == q.isEven) := by
  obtain ⟨r', h1, h2⟩ := mul_represents hp hq
  rw [h1] at hr; cases hr
  rw [Bool.eq_iff_iff, isEven_iff_sign h2, beq_iff_eq, Bool.eq_iff_iff, isEven_iff_sign hp, isEven_iff_sign hq,
    Perm.sign_mul]
  rcases Int.units_eq_one_or (Perm.sign σ) with h | h <;> rcases Int.units_eq_one_or (Perm.sign τ) with h' | h' <;>
    rw [h, h'] <;> decide

/-- C25: a transposition is odd. -/
theorem C25_transposition (i j : Fin n) (hij : i ≠ j) (hp : p.Represents (swap i j)) : p.isEven = false := by
  rw [← Bool.not_eq_true, isEven_iff_sign hp, Perm.sign_swap hij]; decide

/-- C25: column `j` of the matrix is the basis vector `σ j`: `M e_j = e_{σ j}`. -/
theorem C25_matrix (hp : p.Represents σ) (i j : Fin n) :
    ∃ row, p.matrix[i.val]? = some row ∧ row[j.val]? = some (if i = σ j then 1 else 0) ∧ row.length = n :=
  matrix_entries hp i j

example : (⟨[1, 2, 0]⟩ : Permutation).order 3 = .ok (some 3) := by decide +kernel
example : (⟨[1, 0, 2]⟩ : Permutation).isEven = false := by decide +kernel

/-! ## C26 conjugacy -/

/-- C26: `cycle_lengths` is the sorted list of all cycle lengths, fixed points included:
as a multiset it is the cycle type together with one `1` for every fixed point. -/
theorem C26_cycle_lengths (hp : p.Represents σ) :
    ∃ l : List Nat, p.cycleLengths = .ok l ∧ l.Pairwise (· ≤ ·) ∧
      (l : Multiset Nat) = σ.cycleType + Multiset.replicate (n - σ.support.card) 1 := by
  obtain ⟨l, h1, h2, reps, h3, h4, h5⟩ := cycleLengths_spec hp
  refine ⟨l, h1, h2, ?_⟩
  rw [Multiset.coe_eq_coe.2 h5, ← filter_eq_cycleType h3 h4, ← count_ones h3 h4]
  have hrep : ∀ l : List Nat, l.filter (fun k => decide (¬ k ≠ 1)) =
      List.replicate (l.filter (fun k => decide (¬ k ≠ 1))).length 1 := by
    intro l
    apply List.eq_replicate_of_mem
    intro b hb
    simpa using (List.mem_filter.1 hb).2
  rw [← Multiset.coe_replicate, ← hrep, Multiset.coe_add, Multiset.coe_eq_coe]
  have := List.filter_append_perm (fun k => decide (k ≠ 1)) (reps.map (cycLen σ))
  simpa using this.symm

/-- C26: `is_conjugate_to` holds iff a conjugating permutation exists. -/
theorem C26_conjugate (hp : p.Represents σ) (hq : q.Represents τ) :
    ∃ b, p.isConjugateTo q = .ok b ∧ (b = true ↔ ∃ ρ : Perm (Fin n), ρ * σ * ρ⁻¹ = τ) := by
  obtain ⟨l, h1, h2, reps, h3, h4, h5⟩ := cycleLengths_spec hp
  obtain ⟨l', h1', h2', reps', h3', h4', h5'⟩ := cycleLengths_spec hq
  refine ⟨l == l', ?_, ?_⟩
  · unfold isConjugateTo
    rw [if_neg (by rw [hp.len, hq.len]; simp), h1, h1']
    rfl
  · rw [← isConj_iff, Perm.isConj_iff_cycleType_eq, ← cycleLengths_eq_iff h3 h4 h3' h4', beq_iff_eq]
    constructor
    · rintro rfl; exact h5.symm.trans h5'
    · intro h
      refine List.Perm.eq_of_pairwise ?_ h2 h2' (h5.trans (h.trans h5'.symm))
      intro a b _ _ h1 h2; exact le_antisymm h1 h2

/-- C26: permutations of different sizes are never conjugate. -/
theorem C26_size (p q : Permutation) (h : p.len ≠ q.len) : p.isConjugateTo q = .ok false := by
  simp [isConjugateTo, h]

example : (⟨[1, 0, 3, 4, 2, 5]⟩ : Permutation).cycleLengths = .ok [1, 2, 3] := by decide +kernel
example : (⟨[1, 0, 2]⟩ : Permutation).isConjugateTo ⟨[0, 2, 1]⟩ = .ok true := by decide +kernel

end Permutation
end Curver
