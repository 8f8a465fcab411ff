import Verif.Proofs.UnionAssoc

/-!
# The class of a disjoint sum
-/

namespace Curver
open Triangulation
namespace Lam
variable {L M s : Lam Int} {ls : List (Lam Int × Int)} {T : Triangulation} {D : List (Lam Int)}

theorem isIntegral_int {b : Bool} (h : L.isIntegral = .ok b) : b = true := by
  unfold isIntegral at h
  have : L.geometric.all IntTest.isInt = true := by
    rw [List.all_eq_true]; intro x _; rfl
  rw [if_pos this] at h
  generalize L.tri.labels = es at h
  induction es with
  | nil => injection h with h; exact h.symm
  | cons e es ih =>
    unfold pyAllM at h
    simp only [py_bind_eq_ok] at h
    obtain ⟨b', ⟨d, d1, d2⟩, h⟩ := h
    injection d2 with d2
    have : b' = true := by rw [← d2]; rfl
    rw [if_pos this] at h
    exact ih h

theorem pyAllM_isIntegral : ∀ {ls : List (Lam Int × Int)} {b : Bool}, pyAllM (fun p => p.1.isIntegral) ls = .ok b → b = true
  | [], b, h => by injection h with h; exact h.symm
  | p :: ls, b, h => by
    unfold pyAllM at h
    simp only [py_bind_eq_ok] at h
    obtain ⟨c, c1, c2⟩ := h
    have := isIntegral_int c1
    rw [if_pos this] at c2
    exact pyAllM_isIntegral c2

/-- the weights of a disjoint union -/
theorem Unions.w {Xs : List (Lam Int)} {L : Lam Int} (h : L.Unions Xs) : L.WellFormed → ∀ {x : Int}, L.tri.IsLabel x → L.w x = (Xs.map (fun X => X.w x)).sum := by
  induction h with
  | nil hb => exact fun _ _ hx => hb _ hx
  | cons h1 _ ih =>
    intro hw x hx
    rw [h1.sum hw hx, ih h1.wf.2.1 (by rw [h1.wf.2.2.2]; exact hx)]
    rfl

theorem sum_flat {x : Int} : ∀ {ls : List (Lam Int × Int)}, (∀ p ∈ ls, 0 ≤ p.2) → ((flat ls).map (fun X => X.w x)).sum = (ls.map (fun p => p.1.w x * p.2)).sum
  | [], _ => rfl
  | p :: ls, h => by
    have ih := sum_flat (x := x) (ls := ls) (fun q hq => h q (by simp [hq]))
    unfold flat at ih ⊢
    have := h p (by simp)
    rw [List.flatMap_cons, List.map_append, List.sum_append, ih, List.map_cons, List.sum_cons, List.map_replicate, List.sum_replicate, nsmul_eq_mul]
    congr 1
    rw [mul_comm]
    congr 1
    omega

theorem isEmpty_iff (hL : L.WellFormed) : L.isEmpty = true ↔ L.Blank := by
  exact Lam.all_zero_iff hL

/-- the parts of the parts -/
theorem flat_keep (D : Lam Int → List (Lam Int)) : ∀ {ls : List (Lam Int × Int)}, (∀ p ∈ ls, 0 < p.2 → p.1.isEmpty = true → D p.1 = []) →
    (flat ls).flatMap D = (flat (keepNonempty ls)).flatMap D
  | [], _ => rfl
  | p :: ls, h => by
    have ih := flat_keep D (ls := ls) (fun q hq => h q (by simp [hq]))
    have hp := h p (by simp)
    unfold flat keepNonempty at ih ⊢
    rw [List.flatMap_cons, List.flatMap_append, ih, List.filter_cons]
    split_ifs with q
    · rw [List.flatMap_cons, List.flatMap_append]
    · have : (List.replicate p.2.toNat p.1).flatMap D = [] := by
        rw [List.flatMap_eq_nil_iff]
        intro X hX
        rw [List.eq_of_mem_replicate hX]
        have pos : 0 < p.2 := by
          by_contra hn
          rw [show p.2.toNat = 0 by omega] at hX
          simp at hX
        refine hp pos ?_
        simpa [pos] using q
      rw [this, List.nil_append]

theorem length_flat (D : Lam Int → List (Lam Int)) : ∀ {ls : List (Lam Int × Int)}, (∀ p ∈ ls, 0 < p.2) →
    (((flat ls).flatMap D).length : Int) = (ls.map (fun p => p.2 * ((D p.1).length : Int))).sum
  | [], _ => rfl
  | p :: ls, h => by
    have ih := length_flat D (ls := ls) (fun q hq => h q (by simp [hq]))
    have hp := h p (by simp)
    unfold flat at ih ⊢
    rw [List.flatMap_cons, List.flatMap_append, List.length_append, Nat.cast_add, ih, List.map_cons, List.sum_cons]
    congr 1
    rw [List.length_flatMap, List.map_replicate, List.sum_replicate]
    simp only [smul_eq_mul, Nat.cast_mul]
    congr 1
    omega

theorem mem_flat_iff (D : Lam Int → List (Lam Int)) (h : ∀ p ∈ ls, 0 < p.2) {Y : Lam Int} : Y ∈ (flat ls).flatMap D ↔ ∃ p ∈ ls, Y ∈ D p.1 := by
  constructor
  · intro hY
    obtain ⟨X, x1, x2⟩ := List.mem_flatMap.1 hY
    obtain ⟨p, p1, p2⟩ := List.mem_flatMap.1 x1
    rw [List.eq_of_mem_replicate p2] at x2
    exact ⟨p, p1, x2⟩
  · rintro ⟨p, p1, p2⟩
    exact List.mem_flatMap.2 ⟨p.1, mem_flat p1 (h p p1), p2⟩

theorem sum_ge {f : Lam Int × Int → Int} : ∀ {ls : List (Lam Int × Int)}, (∀ p ∈ ls, 0 < p.2 ∧ 1 ≤ f p) →
    (ls.length : Int) ≤ (ls.map Prod.snd).sum ∧ (ls.map Prod.snd).sum ≤ (ls.map (fun p => p.2 * f p)).sum ∧ ∀ p ∈ ls, f p ≤ (ls.map (fun p => p.2 * f p)).sum
  | [], _ => ⟨le_rfl, le_rfl, by simp⟩
  | p :: ls, h => by
    obtain ⟨i1, i2, i3⟩ := sum_ge (f := f) (ls := ls) (fun q hq => h q (by simp [hq]))
    obtain ⟨p1, p2⟩ := h p (by simp)
    have e1 : p.2 * 1 ≤ p.2 * f p := mul_le_mul_of_nonneg_left p2 p1.le
    have e2 : 1 * f p ≤ p.2 * f p := mul_le_mul_of_nonneg_right (by omega) (by omega)
    simp only [List.map_cons, List.sum_cons, List.length_cons, Nat.cast_add, Nat.cast_one]
    generalize p.2 * f p = m at *
    have l0 : (0 : Int) ≤ ls.length := by omega
    refine ⟨by omega, by omega, ?_⟩
    intro q hq
    rcases List.mem_cons.1 hq with rfl | hq
    · omega
    · have := i3 q hq
      omega

/-- triangulation.py:614-629 -/
theorem kind_disjointClass (D : Lam Int → List (Lam Int)) (hne : ls ≠ []) (h : ∀ p ∈ ls, 0 < p.2 ∧ D p.1 ≠ [] ∧ Kind (D p.1) p.1.cls) :
    Kind ((flat ls).flatMap D) (disjointClass ls) := by
  have pos : ∀ p ∈ ls, 0 < p.2 := fun p hp => (h p hp).1
  have len := length_flat D pos
  have mem := fun Y => mem_flat_iff D pos (Y := Y)
  obtain ⟨g1, g2, g3⟩ := sum_ge (f := fun p => ((D p.1).length : Int)) (ls := ls) (fun p hp => ⟨pos p hp, by
    have := List.length_pos_iff.2 (h p hp).2.1; omega⟩)
  rw [← len] at g2 g3
  have l1 : 1 ≤ ls.length := List.length_pos_iff.2 hne
  have hcon : (decide ((ls.map Prod.snd).sum = 1) && ls.all (fun p => p.1.cls.isConnected)) = true → ((flat ls).flatMap D).length = 1 := by
    intro q
    rw [Bool.and_eq_true, decide_eq_true_eq, List.all_eq_true] at q
    have : (((flat ls).flatMap D).length : Int) = 1 := by
      rw [len, ← q.1]
      congr 1
      apply List.map_congr_left
      intro p hp
      have k := (h p hp).2.2
      have c := q.2 p hp
      cases hcls : p.1.cls <;> rw [hcls] at k c <;> first | (cases c; done) | (rw [k.1]; simp)
    omega
  have hmul : ¬ (decide ((ls.map Prod.snd).sum = 1) && ls.all (fun p => p.1.cls.isConnected)) = true → (∀ p ∈ ls, p.1.cls ≠ .integral) → 2 ≤ ((flat ls).flatMap D).length := by
    intro q hi
    rw [Bool.and_eq_true, decide_eq_true_eq, List.all_eq_true, not_and_or] at q
    rcases q with q | q
    · omega
    · push Not at q
      obtain ⟨p, p1, p2⟩ := q
      have k := (h p p1).2.2
      have := g3 p p1
      have : 2 ≤ (D p.1).length := by
        have hi := hi p p1
        cases hcls : p.1.cls <;> rw [hcls] at k p2 hi
        all_goals first | exact k.elim | exact absurd rfl hi | exact k.1 | exact absurd rfl p2
      omega
  unfold disjointClass
  dsimp only
  split_ifs with h1 h2 h3 h4
  all_goals first
    | (rw [List.all_eq_true] at h1
       have all : ∀ Y ∈ (flat ls).flatMap D, ¬ Y.NoArcs := by
         intro Y hY
         obtain ⟨p, p1, p2⟩ := (mem Y).1 hY
         have k := (h p p1).2.2
         have c := h1 p p1
         cases hcls : p.1.cls <;> rw [hcls] at k c <;> first | (cases c; done) | exact k.2 Y p2
       first
         | exact ⟨hcon h2, all⟩
         | exact ⟨hmul h2 (fun p hp e => by have := h1 p hp; rw [e] at this; cases this), all⟩)
    | (rw [List.all_eq_true] at h3
       have all : ∀ Y ∈ (flat ls).flatMap D, Y.NoArcs := by
         intro Y hY
         obtain ⟨p, p1, p2⟩ := (mem Y).1 hY
         have k := (h p p1).2.2
         have c := h3 p p1
         cases hcls : p.1.cls <;> rw [hcls] at k c <;> first | (cases c; done) | exact k.2 Y p2
       first
         | exact ⟨hcon h4, all⟩
         | exact ⟨hmul h4 (fun p hp e => by have := h3 p hp; rw [e] at this; cases this), all⟩)
    | skip
  right
  simp only [List.all_eq_true, not_forall] at h1 h3
  constructor
  · obtain ⟨p, p1, p2⟩ := h1
    obtain ⟨_, n, k⟩ := h p p1
    obtain ⟨Y, hY⟩ := List.exists_mem_of_ne_nil _ n
    cases hcls : p.1.cls <;> rw [hcls] at k p2
    · exact k.elim
    · obtain ⟨Z, z1, z2⟩ := (k.resolve_left n).1
      exact ⟨Z, (mem Z).2 ⟨p, p1, z1⟩, z2⟩
    all_goals first | exact ⟨Y, (mem Y).2 ⟨p, p1, hY⟩, k.2 Y hY⟩ | exact absurd rfl p2
  · obtain ⟨p, p1, p2⟩ := h3
    obtain ⟨_, n, k⟩ := h p p1
    obtain ⟨Y, hY⟩ := List.exists_mem_of_ne_nil _ n
    cases hcls : p.1.cls <;> rw [hcls] at k p2
    · exact k.elim
    · obtain ⟨Z, z1, z2⟩ := (k.resolve_left n).2
      exact ⟨Z, (mem Z).2 ⟨p, p1, z1⟩, z2⟩
    all_goals first | exact ⟨Y, (mem Y).2 ⟨p, p1, hY⟩, k.2 Y hY⟩ | exact absurd rfl p2

/-- `disjoint_sum` of disjoint laminations whose classes are right is their union and its class is right -/
theorem disjointSum_right (P : Lam Int → Py LamClass) (hM : M.Consistent) (hu : M.Unions (flat ls)) (hl : ∀ p ∈ ls, p.1.geometric.length = M.tri.zeta)
    (hd : ∀ p ∈ ls, 0 < p.2 → ¬ p.1.Blank → p.1.Describes p.1.cls) (h : M.tri.disjointSumDict P ls = .ok s) : Same M s ∧ s.Describes s.cls := by
  obtain ⟨c1, c2, c3, c4⟩ := C40_disjoint_sum P M.tri ls s hl h
  have hs : Same M s := by
    refine same_of_w hM.1 ⟨by rw [c2]; exact hM.1.1, by rw [c2, c3]⟩ c2.symm ?_
    intro x hx
    rw [hu.w hM.1 hx, c4 x hx, sum_flat (fun p hp => (c1 p hp).2)]
  refine ⟨hs, ?_⟩
  have hsc : s.Consistent := by
    have : s = ⟨M.tri, M.geometric, s.cls⟩ := by rw [hs.1, hs.2]
    rw [this]; exact hM
  have con : ∀ p ∈ ls, 0 < p.2 → p.1.Consistent := fun p hp h0 => (hu.consistent hM _ (mem_flat hp h0)).1
  classical
  let D : Lam Int → List (Lam Int) := fun X => if q : X.Consistent then Classical.choose (exists_unions q) else []
  have hD : ∀ X : Lam Int, X.Consistent → X.Unions (D X) ∧ ∀ Y ∈ D X, Y.Connected := by
    intro X hX
    simp only [D, dif_pos hX]
    exact Classical.choose_spec (exists_unions hX)
  have hcon : ∀ X ∈ flat ls, X.Consistent := fun X hX => (hu.consistent hM X hX).1
  have hU : M.Unions ((flat ls).flatMap D) := hu.flat_map D hM (fun X hX => (hD X (hcon X hX)).1)
  rw [(hU.same hs).describes_iff hsc (fun Y hY => by
    obtain ⟨X, x1, x2⟩ := List.mem_flatMap.1 hY
    exact (hD X (hcon X x1)).2 Y x2)]
  rw [flat_keep D (fun p hp h0 he => by
    have c := con p hp h0
    exact ((hD _ c).1.blank_iff c (hD _ c).2).1 ((isEmpty_iff c.1).1 he))]
  unfold disjointSumDict at h
  split at h
  · cases h
  split at h
  · cases h
  split at h
  · rename_i _ _ he
    rw [List.isEmpty_iff] at he
    rw [he]
    injection h with h
    rw [← h]
    exact .inl rfl
  · rename_i _ _ he
    rw [List.isEmpty_iff] at he
    simp only [py_bind_eq_ok] at h
    obtain ⟨b, b1, b2⟩ := h
    have := pyAllM_isIntegral b1
    subst this
    rw [if_neg (by simp)] at b2
    injection b2 with b2
    rw [← b2]
    refine kind_disjointClass D he ?_
    intro p hp
    unfold keepNonempty at hp
    rw [List.mem_filter, Bool.and_eq_true, decide_eq_true_eq, Bool.not_eq_true'] at hp
    obtain ⟨p1, p2, p3⟩ := hp
    have c := con p p1 p3
    have nb : ¬ p.1.Blank := by rw [← isEmpty_iff c.1, p2]; simp
    refine ⟨p3, ?_, ?_⟩
    · exact fun e => nb (((hD _ c).1.blank_iff c (hD _ c).2).2 e)
    · rw [← (hD _ c).1.describes_iff c (hD _ c).2]
      exact hd p p1 p3 nb

end Lam
end Curver
