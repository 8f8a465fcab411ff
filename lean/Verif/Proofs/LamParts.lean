import Verif.Proofs.ShortenClass
import Verif.Model.LamParts

/-!
# Methods that are built on `components()`
-/

namespace Curver
open Triangulation
namespace Lam
variable {L L' M N X Y Z s : Lam Int} {P : Lam Int → Py LamClass} {dflt : Int → Int → Bool} {fuel : Nat} {cs ds as bs : List (Lam Int × Int)} {Xs Ys D : List (Lam Int)}

theorem Unions.peels (h : L.Unions (Xs ++ Ys)) : ∃ M, L.Peels Xs M ∧ M.Unions Ys := by
  induction Xs generalizing L with
  | nil => exact ⟨L, .nil L, h⟩
  | cons X Xs ih =>
    cases h with
    | cons h1 h2 =>
      obtain ⟨M, m1, m2⟩ := ih h2
      exact ⟨M, .cons h1 m1, m2⟩

theorem Unions.split (hL : L.Consistent) (h : L.Unions (Xs ++ Ys)) : ∃ Z M, L.IsUnion Z M ∧ Z.Unions Xs ∧ M.Unions Ys := by
  obtain ⟨M, m1, m2⟩ := h.peels
  obtain ⟨Z, z1, z2⟩ := m1.join hL
  exact ⟨Z, M, z1, z2, m2⟩

theorem flat_append : flat (as ++ bs) = flat as ++ flat bs := List.flatMap_append

theorem flat_perm (h : as.Perm bs) : (flat as).Perm (flat bs) := List.Perm.flatMap_right _ h

theorem flat_connected (h : L.IsComponents cs) : ∀ Y ∈ flat cs, Y.Connected := by
  intro Y hY
  obtain ⟨q, hq, e⟩ := List.mem_flatMap.1 hY
  rw [List.eq_of_mem_replicate e]
  exact h.connected q hq

theorem flat_length : ∀ {cs : List (Lam Int × Int)}, (∀ p ∈ cs, 0 < p.2) → ((flat cs).length : Int) = (cs.map Prod.snd).sum
  | [], _ => rfl
  | p :: cs, h => by
    have ih := flat_length (cs := cs) (fun q hq => h q (by simp [hq]))
    have := h p (by simp)
    unfold flat at ih ⊢
    rw [List.flatMap_cons, List.length_append, List.length_replicate, Nat.cast_add, ih, List.map_cons, List.sum_cons]
    omega

/-- the dictionary of some of the components -/
theorem IsComponents.some (h : L.IsComponents cs) (hs : as.Sublist cs) (hZ : Z.Unions (flat as)) : Z.IsComponents as :=
  ⟨hZ, fun p hp => h.connected p (hs.subset hp), fun p hp => h.mult p (hs.subset hp), h.apart.sublist hs, fun p hp => h.cls p (hs.subset hp)⟩

theorem IsComponents.same (h : L.IsComponents cs) (e : Same L M) : M.IsComponents cs := ⟨h.union.same e, h.connected, h.mult, h.apart, h.cls⟩

theorem IsComponents.hasPart_iff (h : L.IsComponents cs) (hL : L.Consistent) : L.HasPart X ↔ ∃ p ∈ cs, Same p.1 X := by
  rw [h.union.hasPart_iff hL (flat_connected h)]
  constructor
  · rintro ⟨Y, y1, y2⟩
    obtain ⟨q, hq, e⟩ := List.mem_flatMap.1 y1
    rw [List.eq_of_mem_replicate e] at y2
    exact ⟨q, hq, y2⟩
  · rintro ⟨p, p1, p2⟩
    exact ⟨p.1, mem_flat p1 (h.mult p p1), p2⟩

theorem IsComponents.describes (h : L.IsComponents cs) (hL : L.Consistent) : ∀ p ∈ cs, p.1.Describes p.1.cls := by
  intro p hp
  rcases h.cls p hp with ⟨q, q'⟩ | ⟨q, q'⟩ <;> rw [q] <;> exact ⟨h.connected p hp, q'⟩

/-- `disjoint_sum` of components -/
theorem IsComponents.sum (h : Z.IsComponents as) (hZ : Z.Consistent) (hs : Z.tri.disjointSumDict P as = .ok s) : Same Z s ∧ s.Consistent ∧ s.IsComponents as ∧ s.Describes s.cls := by
  obtain ⟨h1, h2⟩ := disjointSum_right P hZ h.union (fun p hp => by
    have := h.sub hZ hp
    rw [this.1.1.2, this.2]) (fun p hp _ _ => h.describes hZ p hp) hs
  have hc : s.Consistent := by
    have : s = ⟨Z.tri, Z.geometric, s.cls⟩ := by rw [h1.1, h1.2]
    rw [this]; exact hZ
  exact ⟨h1, hc, h.same h1, h2⟩

/-- `disjoint_sum` of some of the components -/
theorem IsComponents.sub_sum (h : L.IsComponents cs) (hL : L.Consistent) (hp : cs.Perm (as ++ bs)) (hs : L.tri.disjointSumDict P as = .ok s) :
    ∃ M, L.IsUnion s M ∧ s.IsComponents as ∧ M.IsComponents bs ∧ s.Describes s.cls := by
  have hu : L.Unions (flat as ++ flat bs) := by
    rw [← flat_append]; exact Unions.perm (flat_perm hp) hL h.union
  obtain ⟨Z, M, z1, z2, z3⟩ := hu.split hL
  have hc := z1.consistent hL
  have pw : (as ++ bs).Pairwise (fun p q => p.1.eqv q.1 = false) := (hp.pairwise_iff (fun {p q} hpq => by rw [eqv_comm]; exact hpq)).1 h.apart
  have all : ∀ p, p ∈ as ∨ p ∈ bs → p ∈ cs := fun p q => hp.mem_iff.2 (List.mem_append.2 q)
  have hZ : Z.IsComponents as := ⟨z2, fun p q => h.connected p (all p (.inl q)), fun p q => h.mult p (all p (.inl q)), (List.pairwise_append.1 pw).1, fun p q => h.cls p (all p (.inl q))⟩
  have hM : M.IsComponents bs := ⟨z3, fun p q => h.connected p (all p (.inr q)), fun p q => h.mult p (all p (.inr q)), (List.pairwise_append.1 pw).2.1, fun p q => h.cls p (all p (.inr q))⟩
  rw [← z1.wf.2.2.1] at hs
  obtain ⟨s1, s2, s3, s4⟩ := hZ.sum hc.1 hs
  exact ⟨M, z1.same z1.wf.1 z1.wf.2.1 .refl s1 .refl, s3, hM, s4⟩

/-- one copy of each -/
def ones (cs : List (Lam Int × Int)) : List (Lam Int × Int) := cs.map (fun p => (p.1, 1))

theorem flat_ones : ∀ {cs : List (Lam Int × Int)}, flat (ones cs) = cs.map Prod.fst
  | [] => rfl
  | p :: cs => by
    have := flat_ones (cs := cs)
    unfold flat ones at this ⊢
    rw [List.map_cons, List.flatMap_cons, this]
    rfl

theorem flat_perm_ones : ∀ {cs : List (Lam Int × Int)}, (∀ p ∈ cs, 0 < p.2) → ∃ Ys, (flat cs).Perm (flat (ones cs) ++ Ys)
  | [], _ => ⟨[], .refl _⟩
  | p :: cs, h => by
    obtain ⟨Ys, hY⟩ := flat_perm_ones (cs := cs) (fun q hq => h q (by simp [hq]))
    have hp := h p (by simp)
    refine ⟨List.replicate (p.2.toNat - 1) p.1 ++ Ys, ?_⟩
    rw [flat_ones] at hY ⊢
    unfold flat at hY ⊢
    rw [List.flatMap_cons, List.map_cons, show p.2.toNat = (p.2.toNat - 1) + 1 by omega, List.replicate_succ, List.cons_append, List.cons_append]
    refine .cons _ ?_
    have e : p.2.toNat - 1 + 1 - 1 = p.2.toNat - 1 := by omega
    rw [e]
    refine (List.Perm.append_left _ hY).trans ?_
    rw [← List.append_assoc, ← List.append_assoc]
    exact List.Perm.append_right _ List.perm_append_comm

theorem dict_of_apart : ∀ {Xs ks : List (Lam Int)}, (ks ++ Xs).Pairwise (fun X Y => X.eqv Y = false) →
    Xs.foldl (fun ks L => if ks.any (fun K => K.eqv L) then ks else ks ++ [L]) ks = ks ++ Xs
  | [], ks, _ => by simp
  | X :: Xs, ks, h => by
    rw [List.foldl_cons, if_neg, dict_of_apart (by simpa using h)]
    · simp
    · rw [List.any_eq_true]
      rintro ⟨K, k1, k2⟩
      have := (List.pairwise_append.1 h).2.2 K k1 X (by simp)
      rw [this] at k2; cases k2

theorem IsComponents.ones (h : L.IsComponents cs) (hL : L.Consistent) (hp : cs.Perm (as ++ bs)) : ∃ Z M, L.IsUnion Z M ∧ Z.IsComponents (ones as) := by
  obtain ⟨Ys, hY⟩ := flat_perm_ones (cs := as) (fun p q => h.mult p (hp.mem_iff.2 (by simp [q])))
  have hu : L.Unions (flat (Lam.ones as) ++ (Ys ++ flat bs)) := by
    refine Unions.perm ?_ hL h.union
    refine (flat_perm hp).trans ?_
    rw [flat_append, ← List.append_assoc]
    exact List.Perm.append_right _ hY
  obtain ⟨Z, M, z1, z2, -⟩ := hu.split hL
  have pw : (as ++ bs).Pairwise (fun p q => p.1.eqv q.1 = false) := (hp.pairwise_iff (fun {p q} hpq => by rw [eqv_comm]; exact hpq)).1 h.apart
  have all : ∀ p, p ∈ as → p ∈ cs := fun p q => hp.mem_iff.2 (List.mem_append.2 (.inl q))
  refine ⟨Z, M, z1, z2, ?_, ?_, ?_, ?_⟩
  · intro p hp
    obtain ⟨q, q1, rfl⟩ := List.mem_map.1 hp
    exact h.connected q (all q q1)
  · intro p hp
    obtain ⟨q, q1, rfl⟩ := List.mem_map.1 hp
    exact one_pos
  · unfold Lam.ones
    rw [List.pairwise_map]
    exact (List.pairwise_append.1 pw).1
  · intro p hp
    obtain ⟨q, q1, rfl⟩ := List.mem_map.1 hp
    exact h.cls q (all q q1)

theorem disjointSumList_eq {T : Triangulation} (h : (as.map Prod.fst).Pairwise (fun X Y => X.eqv Y = false)) (hs : T.disjointSumList P (as.map Prod.fst) = .ok s) : T.disjointSumDict P (ones as) = .ok s := by
  unfold disjointSumList at hs
  split at hs
  · cases hs
  · unfold dictOfIterable at hs
    rw [dict_of_apart (by simpa using h), List.nil_append, List.map_map] at hs
    exact hs

/-- `disjoint_sum` of an iterable of some of the components -/
theorem IsComponents.list_sum (h : L.IsComponents cs) (hL : L.Consistent) (hp : cs.Perm (as ++ bs)) (hs : L.tri.disjointSumList P (as.map Prod.fst) = .ok s) :
    ∃ M, L.IsUnion s M ∧ s.Consistent ∧ s.IsComponents (Lam.ones as) ∧ s.Describes s.cls := by
  obtain ⟨Z, M, z1, z2⟩ := h.ones hL hp
  have pw : (as ++ bs).Pairwise (fun p q => p.1.eqv q.1 = false) := (hp.pairwise_iff (fun {p q} hpq => by rw [eqv_comm]; exact hpq)).1 h.apart
  have hs := disjointSumList_eq (by rw [List.pairwise_map]; exact (List.pairwise_append.1 pw).1) hs
  rw [← z1.wf.2.2.1] at hs
  obtain ⟨s1, s2, s3, s4⟩ := z2.sum (z1.consistent hL).1 hs
  exact ⟨M, z1.same z1.wf.1 z1.wf.2.1 .refl s1 .refl, s2, s3, s4⟩

/-- the dictionary determines the lamination -/
theorem IsComponents.determines (h : L.IsComponents cs) (h' : M.IsComponents ds) (hL : L.Consistent) (hM : M.Consistent) (ht : L.tri = M.tri) (hp : cs.Perm ds) : Same L M := by
  refine same_of_w hL.1 hM.1 ht ?_
  intro x hx
  rw [h.union.w hL.1 hx, h'.union.w hM.1 (by rw [← ht]; exact hx)]
  exact ((flat_perm hp).map _).sum_eq

end Lam
end Curver
