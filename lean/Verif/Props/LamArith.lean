import Verif.Proofs.LamArith
import Verif.Props.Flips

/-!
# C40: arithmetic of laminations

`P` is the (arbitrary) function which chooses the class of an integral lamination when it is promoted.
-/

namespace Curver
open Triangulation

variable {R : Type} [CommRing R] [LinearOrder R] [Halvable R] [IntTest R]

/-- C40: the weights of `a + b` are the sums of the weights. -/
theorem C40_add (P : Lam R → Py LamClass) (L L' M : Lam R) (hL : L.WellFormed) (hL' : L'.WellFormed) (h : L.add P L' = .ok M) :
    L'.tri = L.tri ∧ M.tri = L.tri ∧ M.geometric.length = L.tri.zeta ∧ ∀ e, L.tri.IsLabel e → M.w e = L.w e + L'.w e := by
  unfold Lam.add at h
  by_cases ht : L'.tri = L.tri
  · rw [if_neg (by simpa using ht)] at h
    obtain ⟨h1, h2, h3⟩ := lamination_ok h
    refine ⟨ht, h2, by rw [h3, h1], ?_⟩
    intro e he
    have hi := idx_lt he
    rw [Lam.w_eq, Lam.w_eq, Lam.w_eq, h3]
    have k1 := hL.2
    have k2 := hL'.2
    rw [ht] at k2
    rw [List.getElem?_eq_getElem (by rw [h1]; exact hi), List.getElem?_eq_getElem (by rw [k1]; exact hi), List.getElem?_eq_getElem (by rw [k2]; exact hi)]
    simp
  · rw [if_pos (by simpa using ht)] at h
    cases h

/-- C40: laminations on other triangulations cannot be added. -/
theorem C40_add_other (P : Lam R → Py LamClass) (L L' : Lam R) (h : L'.tri ≠ L.tri) : L.add P L' = .error .valueError := by
  unfold Lam.add
  rw [if_pos (by simpa using h)]

/-- C40: addition is commutative, including the class of the result and the errors raised. -/
theorem C40_add_comm (P : Lam R → Py LamClass) (L L' : Lam R) : L.add P L' = L'.add P L := by
  by_cases h : L'.tri = L.tri
  · unfold Lam.add
    rw [if_neg (by simpa using h), if_neg (by simpa using h.symm), h, List.zipWith_comm_of_comm (fun x y => add_comm x y)]
  · rw [C40_add_other P L L' h, C40_add_other P L' L (fun h' => h h'.symm)]

/-- C40: addition is associative. -/
theorem C40_add_assoc (P : Lam R → Py LamClass) (L L' L'' A B C D : Lam R) (h1 : L.add P L' = .ok A) (h2 : A.add P L'' = .ok B)
    (h3 : L'.add P L'' = .ok C) (h4 : L.add P C = .ok D) : B = D := by
  have key : ∀ {L L' M : Lam R}, L.add P L' = .ok M → L'.tri = L.tri ∧ M.tri = L.tri ∧ M.geometric = List.zipWith (· + ·) L.geometric L'.geometric ∧
      L.tri.lamination P (List.zipWith (· + ·) L.geometric L'.geometric) = .ok M := by
    intro L L' M h
    by_cases ht : L'.tri = L.tri
    · unfold Lam.add at h
      rw [if_neg (by simpa using ht)] at h
      obtain ⟨_, h2, h3⟩ := lamination_ok h
      exact ⟨ht, h2, h3, h⟩
    · rw [C40_add_other P L L' ht] at h; cases h
  obtain ⟨a1, a2, a3, _⟩ := key h1
  obtain ⟨b1, b2, b3, b4⟩ := key h2
  obtain ⟨c1, c2, c3, _⟩ := key h3
  obtain ⟨d1, d2, d3, d4⟩ := key h4
  rw [a2, a3] at b4
  rw [c3] at d4
  refine lamination_eq (?_ : L.tri.lamination P _ = .ok B) d4
  rw [← b4]
  congr 1
  rw [List.zipWith_zipWith_left, List.zipWith_zipWith_right]
  simp only [add_assoc]

/-- C40: the weights of `n * a` are the multiples of the weights; only non-negative multiples exist. -/
theorem C40_multiple (P : Lam R → Py LamClass) (L M : Lam R) (n : Int) (h : L.mul P n = .ok M) :
    0 ≤ n ∧ M.tri = L.tri ∧ ∀ e, M.w e = n * L.w e := by
  unfold Lam.mul at h
  by_cases h0 : 0 ≤ n
  · simp only [h0, decide_true, pyAssert, if_true, py_bind_ok] at h
    have key : M.tri = L.tri ∧ M.geometric = L.geometric.map (fun x => (n : R) * x) := by
      rcases hc : L.cls
      all_goals
        rw [hc] at h
        dsimp only at h
        repeat' split at h
        all_goals first
          | (cases h; exact ⟨rfl, rfl⟩)
          | exact (lamination_ok h).2
    refine ⟨h0, key.1, ?_⟩
    intro e
    rw [Lam.w_eq, Lam.w_eq, key.2, List.getElem?_map]
    cases L.geometric[(norm e).toNat]? <;> simp
  · simp [h0, pyAssert] at h

/-- C40: `sum` of a dictionary of multiplicities is the weighted sum of the weights; dropping empty laminations and multiplicity zero
does not matter. -/
theorem C40_sum (P : Lam R → Py LamClass) (T : Triangulation) (ls : List (Lam R × R)) (M : Lam R) (hls : ∀ p ∈ ls, p.1.geometric.length = T.zeta)
    (h : T.sumDict P ls = .ok M) : (∀ p ∈ ls, p.1.tri = T ∧ 0 ≤ p.2) ∧ M.tri = T ∧ M.geometric.length = T.zeta ∧
      ∀ e, T.IsLabel e → M.w e = (ls.map (fun p => p.1.w e * p.2)).sum := by
  unfold sumDict at h
  split at h
  · cases h
  rename_i h1
  split at h
  · cases h
  rename_i h2
  have k1 : ∀ p ∈ ls, p.1.tri = T := by simpa using h1
  have k2 : ∀ p ∈ ls, 0 ≤ p.2 := by simpa using h2
  refine ⟨fun p hp => ⟨k1 p hp, k2 p hp⟩, ?_⟩
  have hs := sum_keepNonempty ls k2
  split at h
  · rename_i h3
    cases h
    refine ⟨rfl, by simp [emptyLamination], ?_⟩
    intro e he
    have := hs (norm e).toNat
    rw [List.isEmpty_iff.1 h3] at this
    rw [Lam.w_eq]
    simp only [emptyLamination, List.getElem?_replicate, idx_lt he, if_true, Option.getD_some]
    exact this
  · rename_i h3
    obtain ⟨h4, h5, h6⟩ := lamination_ok h
    refine ⟨h5, by rw [h6, h4], ?_⟩
    intro e he
    rw [Lam.w_eq, h6, weighted_getElem? (ls := keepNonempty ls) (n := T.zeta) (by simpa using h3) (fun p hp => hls p (List.mem_of_mem_filter hp)) (idx_lt he)]
    exact hs _

theorem weighted_perm {ls ls' : List (Lam R × R)} (h : ls.Perm ls') : weighted ls = weighted ls' := by
  unfold weighted
  have h1 : (ls.map (fun p => p.1.geometric.length)).min? = (ls'.map (fun p => p.1.geometric.length)).min? := by
    have hp := h.map (fun p : Lam R × R => p.1.geometric.length)
    rcases hm : (ls.map (fun p => p.1.geometric.length)).min? with _ | m
    · rw [List.min?_eq_none_iff] at hm
      rw [hm] at hp
      rw [hm, ← hp.nil_eq]
    · symm
      rw [hm]
      rw [List.min?_eq_some_iff] at hm ⊢
      exact ⟨hp.mem_iff.1 hm.1, fun b hb => hm.2 b (hp.mem_iff.2 hb)⟩
  rw [h1]
  apply List.map_congr_left
  intro i _
  exact (h.map _).sum_eq

/-- C40: the order of the summands does not matter, for `sum`: neither for the result nor for the errors. -/
theorem C40_sum_order (P : Lam R → Py LamClass) (T : Triangulation) (ls ls' : List (Lam R × R)) (h : ls.Perm ls') : T.sumDict P ls = T.sumDict P ls' := by
  unfold sumDict
  have hk : (keepNonempty ls).Perm (keepNonempty ls') := h.filter _
  have e1 : ls.any (fun p => p.1.tri != T) = ls'.any (fun p => p.1.tri != T) := h.any_eq
  have e2 : ls.any (fun p => decide (p.2 < 0)) = ls'.any (fun p => decide (p.2 < 0)) := h.any_eq
  have e3 : (keepNonempty ls).isEmpty = (keepNonempty ls').isEmpty := by
    rw [Bool.eq_iff_iff, List.isEmpty_iff, List.isEmpty_iff]
    exact ⟨fun h => by rw [h] at hk; exact hk.nil_eq.symm, fun h => by rw [h] at hk; exact hk.eq_nil⟩
  rw [e1, e2, e3, weighted_perm hk]

/-- C40: a lamination on another triangulation and a negative multiplicity are rejected. -/
theorem C40_sum_rejects (P : Lam R → Py LamClass) (T : Triangulation) (ls : List (Lam R × R))
    (h : ∃ p ∈ ls, p.1.tri ≠ T ∨ p.2 < 0) : T.sumDict P ls = .error .valueError ∧ T.disjointSumDict P ls = .error .valueError := by
  obtain ⟨p, hp, h⟩ := h
  by_cases h1 : ls.any (fun p => p.1.tri != T) = true
  · constructor
    · unfold sumDict; rw [if_pos h1]
    · unfold disjointSumDict; rw [if_pos h1]
  · have h2 : ls.any (fun p => decide (p.2 < 0)) = true := by
      rw [List.any_eq_true]
      rcases h with h | h
      · exact absurd (List.any_eq_true.2 ⟨p, hp, by simpa using h⟩) h1
      · exact ⟨p, hp, by simpa using h⟩
    constructor
    · unfold sumDict; rw [if_neg h1, if_pos h2]
    · unfold disjointSumDict; rw [if_neg h1, if_pos h2]

/-- C40: the empty sum is the empty lamination, whatever the class function. -/
theorem C40_empty_sum (P : Lam R → Py LamClass) (T : Triangulation) : T.sumDict P [] = .ok T.emptyLamination ∧ T.disjointSumDict P [] = .ok T.emptyLamination ∧
    T.sumList P [] = .ok T.emptyLamination ∧ T.disjointSumList P [] = .ok T.emptyLamination ∧
    ∀ e, (T.emptyLamination (R := R)).w e = 0 := by
  refine ⟨rfl, rfl, rfl, rfl, ?_⟩
  intro e
  rw [Lam.w_eq]
  simp only [emptyLamination, List.getElem?_replicate]
  split <;> rfl

/-- C40: `disjoint_sum` has the weights of `sum`. -/
theorem C40_disjoint_sum (P : Lam R → Py LamClass) (T : Triangulation) (ls : List (Lam R × R)) (M : Lam R) (hls : ∀ p ∈ ls, p.1.geometric.length = T.zeta)
    (h : T.disjointSumDict P ls = .ok M) : (∀ p ∈ ls, p.1.tri = T ∧ 0 ≤ p.2) ∧ M.tri = T ∧ M.geometric.length = T.zeta ∧
      ∀ e, T.IsLabel e → M.w e = (ls.map (fun p => p.1.w e * p.2)).sum := by
  have h' := h
  unfold disjointSumDict at h
  split at h
  · cases h
  rename_i h1
  split at h
  · cases h
  rename_i h2
  have k1 : ∀ p ∈ ls, p.1.tri = T := by simpa using h1
  have k2 : ∀ p ∈ ls, 0 ≤ p.2 := by simpa using h2
  refine ⟨fun p hp => ⟨k1 p hp, k2 p hp⟩, ?_⟩
  have hs := sum_keepNonempty ls k2
  split at h
  · rename_i h3
    refine (C40_sum P T ls M hls ?_).2
    unfold sumDict
    rw [if_neg h1, if_neg h2, if_pos h3]; exact h
  · rename_i h3
    rcases hb : pyAllM (fun p => p.1.isIntegral) (keepNonempty ls) with err | b
    · rw [hb] at h; cases h
    · rw [hb, py_bind_ok] at h
      cases b
      · obtain ⟨_, h5, h6, h7⟩ := C40_sum P T (keepNonempty ls) M (fun p hp => hls p (List.mem_of_mem_filter hp)) h
        exact ⟨h5, h6, fun e he => (h7 e he).trans (hs _)⟩
      · cases h
        have hl := length_weighted (ls := keepNonempty ls) (n := T.zeta) (by simpa using h3) (fun p hp => hls p (List.mem_of_mem_filter (l := ls) hp))
        refine ⟨rfl, hl, ?_⟩
        intro e he
        rw [Lam.w_eq, weighted_getElem? (ls := keepNonempty ls) (n := T.zeta) (by simpa using h3) (fun p hp => hls p (List.mem_of_mem_filter hp)) (idx_lt he)]
        exact hs _

/-- C40: an iterable of pairwise different laminations is summed with multiplicity one each. -/
theorem C40_sum_iterable (P : Lam R → Py LamClass) (T : Triangulation) (ls : List (Lam R)) (M : Lam R) (hls : ∀ L ∈ ls, L.geometric.length = T.zeta)
    (hd : ls.Pairwise (fun L L' => L.eqv L' = false)) (h : T.sumList P ls = .ok M ∨ T.disjointSumList P ls = .ok M) :
    M.tri = T ∧ M.geometric.length = T.zeta ∧ ∀ e, T.IsLabel e → M.w e = (ls.map (fun L => L.w e)).sum := by
  have key : ∀ (ls ks : List (Lam R)), (ks ++ ls).Pairwise (fun L L' => L.eqv L' = false) →
      ls.foldl (fun ks L => if ks.any (fun K => K.eqv L) then ks else ks ++ [L]) ks = ks ++ ls := by
    intro ls
    induction ls with
    | nil => intro ks _; simp
    | cons L ls ih =>
      intro ks hp
      have : ks.any (fun K => K.eqv L) = false := by
        rw [List.any_eq_false]
        intro K hK
        have := (List.pairwise_append.1 hp).2.2 K hK L (by simp)
        simpa using this
      simp only [List.foldl_cons, this]
      rw [if_neg (by simp), ih]
      · simp
      · simpa using hp
  have hdict : dictOfIterable ls = ls.map (fun L => (L, (1 : R))) := by
    unfold dictOfIterable
    rw [key ls [] (by simpa using hd)]
    simp
  have hl : ∀ p ∈ dictOfIterable ls, p.1.geometric.length = T.zeta := by
    rw [hdict]; intro p hp
    obtain ⟨L, hL, rfl⟩ := List.mem_map.1 hp
    exact hls L hL
  have fin : ∀ e, ((dictOfIterable ls).map (fun p => p.1.w e * p.2)).sum = (ls.map (fun L => L.w e)).sum := by
    intro e
    rw [hdict, List.map_map]
    simp [Function.comp_def]
  rcases h with h | h
  · unfold sumList at h
    split at h
    · cases h
    · obtain ⟨_, h1, h2, h3⟩ := C40_sum P T _ M hl h
      exact ⟨h1, h2, fun e he => (h3 e he).trans (fin e)⟩
  · unfold disjointSumList at h
    split at h
    · cases h
    · obtain ⟨_, h1, h2, h3⟩ := C40_disjoint_sum P T _ M hl h
      exact ⟨h1, h2, fun e he => (h3 e he).trans (fin e)⟩

theorem pyAllM_perm {α : Type _} {f : α → Py Bool} {l l' : List α} (hp : l.Perm l') (hf : ∀ x ∈ l, ∃ b, f x = .ok b) : pyAllM f l = pyAllM f l' := by
  have ok : ∀ l : List α, (∀ x ∈ l, ∃ b, f x = .ok b) → ∃ b, pyAllM f l = .ok b := by
    intro l
    induction l with
    | nil => intro _; exact ⟨true, rfl⟩
    | cons a l ih =>
      intro h
      obtain ⟨b, hb⟩ := h a (by simp)
      obtain ⟨c, hc⟩ := ih (fun x hx => h x (by simp [hx]))
      cases b
      · exact ⟨false, by simp [pyAllM, hb]⟩
      · exact ⟨c, by simp [pyAllM, hb, hc]⟩
  obtain ⟨b, hb⟩ := ok l hf
  obtain ⟨b', hb'⟩ := ok l' (fun x hx => hf x (hp.mem_iff.2 hx))
  have : b = true ↔ b' = true := by
    constructor
    · rintro rfl
      have := pyAllM_ok_iff.2 (fun x hx => pyAllM_ok_iff.1 hb x (hp.mem_iff.2 hx))
      rw [hb'] at this; cases this; rfl
    · rintro rfl
      have := pyAllM_ok_iff.2 (fun x hx => pyAllM_ok_iff.1 hb' x (hp.mem_iff.1 hx))
      rw [hb] at this; cases this; rfl
  rw [hb, hb', Bool.eq_iff_iff.2 this]

/-- C40: the order of the summands does not matter, for `disjoint_sum` of consistent laminations. -/
theorem C40_disjoint_sum_order (P : Lam R → Py LamClass) (T : Triangulation) (ls ls' : List (Lam R × R)) (h : ls.Perm ls')
    (hc : ∀ p ∈ ls, p.1.Consistent) : T.disjointSumDict P ls = T.disjointSumDict P ls' := by
  have hk : (keepNonempty ls).Perm (keepNonempty ls') := h.filter _
  have e1 : ls.any (fun p => p.1.tri != T) = ls'.any (fun p => p.1.tri != T) := h.any_eq
  have e2 : ls.any (fun p => decide (p.2 < 0)) = ls'.any (fun p => decide (p.2 < 0)) := h.any_eq
  have e3 : (keepNonempty ls).isEmpty = (keepNonempty ls').isEmpty := by
    rw [Bool.eq_iff_iff, List.isEmpty_iff, List.isEmpty_iff]
    exact ⟨fun h => by rw [h] at hk; exact hk.nil_eq.symm, fun h => by rw [h] at hk; exact hk.eq_nil⟩
  have e4 : pyAllM (fun p : Lam R × R => p.1.isIntegral) (keepNonempty ls) = pyAllM (fun p => p.1.isIntegral) (keepNonempty ls') := by
    apply pyAllM_perm hk
    intro p hp
    have hp := hc p (List.mem_of_mem_filter hp)
    unfold Lam.isIntegral
    split
    · have : ∀ l : List Int, (∀ e ∈ l, p.1.tri.IsLabel e) → ∃ b, pyAllM (fun e => do
          let d ← p.1.dualWeight e
          return IntTest.isInt d) l = .ok b := by
        intro l
        induction l with
        | nil => intro _; exact ⟨true, rfl⟩
        | cons a l ih =>
          intro hl
          obtain ⟨c, hc⟩ := ih (fun x hx => hl x (by simp [hx]))
          obtain ⟨w, hw⟩ := hp.2 a (hl a (by simp))
          rcases hb : IntTest.isInt w
          · exact ⟨false, by simp [pyAllM, hw, hb]⟩
          · exact ⟨c, by simp only [pyAllM, hw, hb, py_bind_ok, if_true, pure, Except.pure]; exact hc⟩
      exact this _ (fun e he => mem_labels.1 he)
    · exact ⟨false, rfl⟩
  have e5 : disjointClass (keepNonempty ls) = disjointClass (keepNonempty ls') := by
    unfold disjointClass
    rw [(hk.map Prod.snd).sum_eq, hk.all_eq, hk.all_eq, hk.all_eq]
  unfold disjointSumDict
  rw [e1, e2, e3, e4, e5, weighted_perm hk, C40_sum_order P T _ _ hk]

/-! ### examples, and what the code does that one would not expect -/

/-- the model with a fixed class for promoted laminations -/
def fixedClass : Lam Int → Py LamClass := fun _ => .ok .multicurve

/-- a weighted sum on the torus -/
example : torus.sumDict fixedClass [(⟨torus, [1, 1, 0], .curve⟩, 2), (⟨torus, [0, 1, 1], .curve⟩, 3)] = .ok ⟨torus, [2, 5, 3], .multicurve⟩ ∧
    (⟨torus, [1, 1, 0], .curve⟩ : Lam Int).add fixedClass ⟨torus, [0, 1, 1], .curve⟩ = .ok ⟨torus, [1, 2, 1], .multicurve⟩ ∧
    (⟨torus, [1, 1, 0], .curve⟩ : Lam Int).mul fixedClass 3 = .ok ⟨torus, [3, 3, 0], .multicurve⟩ := by decide +kernel

/-- C40: an iterable with a repeated lamination is NOT summed with its multiplicity: `T.sum([c, c])` is `c`, not `2 * c`. -/
theorem C40_repeats_are_lost (P : Lam Int → Py LamClass) (T : Triangulation) (c : Lam Int) :
    T.sumList P [c, c] = T.sumList P [c] ∧ T.disjointSumList P [c, c] = T.disjointSumList P [c] := by
  have h : dictOfIterable [c, c] = dictOfIterable [c] := by
    have : c.eqv c = true := by simp [Lam.eqv]
    simp [dictOfIterable, this]
  constructor
  · unfold sumList; rw [h]; simp
  · unfold disjointSumList; rw [h]; simp

/-- C40: a multiple of an integral lamination with both arcs and curves is a bare `Lamination`, which has no `components()`. -/
theorem C40_multiple_loses_class (P : Lam R → Py LamClass) (L : Lam R) (n : Int) (hn : 1 < n) (hc : L.cls = .integral) :
    ∃ M, L.mul P n = .ok M ∧ M.cls = .lamination := by
  refine ⟨⟨L.tri, L.geometric.map (fun x => (n : R) * x), .lamination⟩, ?_, rfl⟩
  unfold Lam.mul
  have h0 : 0 ≤ n := by omega
  have h1 : n ≠ 0 := by omega
  have h2 : n ≠ 1 := by omega
  simp [h0, h1, h2, hc, pyAssert, LamClass.isMultiArc, LamClass.isMultiCurve]

end Curver
