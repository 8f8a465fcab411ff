import Verif.Proofs.LamComponents
import Verif.Spec.LamClass

/-!
# Disjoint unions of disjoint unions
-/

namespace Curver
open Triangulation
namespace Lam
variable {L M N X Y Z : Lam Int} {Xs Ys D : List (Lam Int)}

theorem IsUnion.assoc (hL : L.Consistent) (h1 : L.IsUnion X N) (h2 : N.IsUnion Y M) : ∃ Z, L.IsUnion Z M ∧ Z.IsUnion X Y := by
  obtain ⟨K, k1, k2⟩ := h1.swap hL h2.symm
  exact ⟨K, k1.symm, k2⟩

theorem IsUnion.assoc' (hL : L.Consistent) (h1 : L.IsUnion Z M) (h2 : Z.IsUnion X Y) : ∃ N, L.IsUnion X N ∧ N.IsUnion Y M := by
  obtain ⟨K, k1, k2⟩ := h1.symm.swap hL h2
  exact ⟨K, k1, k2.symm⟩

theorem union_blank (hL : L.WellFormed) : ∃ Z, Z.Blank ∧ L.IsUnion Z L := by
  have hc : L.Colouring (fun _ _ => false) := ⟨fun _ _ _ _ => rfl, fun _ _ _ _ _ _ _ _ => rfl⟩
  obtain ⟨Z, h1, -⟩ := hc.exists_part hL true .integral
  refine ⟨Z, h1.blank_iff.2 (fun _ _ _ _ => rfl), _, hc, h1, hL, rfl, ?_⟩
  intro x _
  have : Nat.count (fun t => (fun (_ : Int) (_ : Nat) => false) x t = false) (L.w x).natAbs = (L.w x).natAbs := Nat.count_iff_forall.2 (fun _ _ => rfl)
  rw [this, Int.sign_mul_natAbs]

theorem IsUnion.same_of_blank (hL : L.WellFormed) (h : L.IsUnion Z M) (hZ : Z.Blank) : Same M L := by
  have w := h.wf
  refine same_of_w w.2.1 hL w.2.2.2 ?_
  intro x hx
  rw [w.2.2.2] at hx
  rw [h.sum hL hx, hZ x (by rw [w.2.2.1]; exact hx), zero_add]

theorem Peels.join (h : L.Peels Xs M) : L.Consistent → ∃ Y, L.IsUnion Y M ∧ Y.Unions Xs := by
  induction h with
  | nil L =>
    intro hL
    obtain ⟨Z, h1, h2⟩ := union_blank hL.1
    exact ⟨Z, h2, .nil h1⟩
  | cons h1 _ ih =>
    intro hL
    obtain ⟨Y, y1, y2⟩ := ih (h1.consistent hL).2
    obtain ⟨Z, z1, z2⟩ := h1.assoc hL y1
    exact ⟨Z, z1, .cons z2 y2⟩

theorem Unions.glue (h : Z.Unions Xs) : ∀ {L : Lam Int}, L.Consistent → L.IsUnion Z M → M.Unions Ys → L.Unions (Xs ++ Ys) := by
  induction h with
  | nil hb =>
    intro L hL hu hM
    exact hM.same (hu.same_of_blank hL.1 hb)
  | cons h1 _ ih =>
    intro L hL hu hM
    obtain ⟨N, n1, n2⟩ := hu.assoc' hL h1
    exact .cons n1 (ih (n1.consistent hL).2 n2 hM)

/-- if the parts are unions, then the whole is a union of the parts of the parts -/
theorem Unions.flat_map (D : Lam Int → List (Lam Int)) (h : L.Unions Xs) : L.Consistent → (∀ X ∈ Xs, X.Unions (D X)) → L.Unions (Xs.flatMap D) := by
  induction h with
  | nil hb => exact fun _ _ => .nil hb
  | cons h1 _ ih =>
    intro hL hD
    rw [List.flatMap_cons]
    exact (hD _ (by simp)).glue hL h1 (ih (h1.consistent hL).2 (fun X hX => hD X (by simp [hX])))

/-- the number of points of intersection with the edges -/
def size (L : Lam Int) : Nat := ((List.range L.tri.zeta).map (fun (i : Nat) => (L.w i).natAbs)).sum

theorem size_eq_zero : L.size = 0 ↔ L.Blank := by
  unfold size
  rw [List.sum_eq_zero_iff]
  simp only [List.mem_map, List.mem_range, forall_exists_index, and_imp, forall_apply_eq_imp_iff₂, Int.natAbs_eq_zero]
  constructor
  · intro h x hx
    obtain ⟨h1, h2⟩ := hx
    rcases lt_or_ge x 0 with h0 | h0
    · rw [← w_inv]
      have := h (inv x).toNat (by unfold inv; omega)
      rwa [Int.toNat_of_nonneg (by unfold inv; omega)] at this
    · have := h x.toNat (by omega)
      rwa [Int.toNat_of_nonneg h0] at this
  · intro h i hi
    exact h i (by unfold IsLabel; omega)

theorem IsUnion.size (hL : L.WellFormed) (h : L.IsUnion X Y) : L.size = X.size + Y.size := by
  have w := h.wf
  unfold Lam.size
  rw [w.2.2.1, w.2.2.2, ← List.sum_map_add]
  congr 1
  apply List.map_congr_left
  intro i hi
  have hx : L.tri.IsLabel (i : Int) := by rw [List.mem_range] at hi; unfold IsLabel; omega
  have hs := h.sum hL hx
  obtain ⟨red, h1, h2, h3⟩ := h
  have e2 := h2.sgn hx
  have e3 := h3.not.sgn hx
  rcases lt_trichotomy (L.w i) 0 with q | q | q
  · rw [Int.sign_eq_neg_one_of_neg q] at e2 e3
    omega
  · rw [q, Int.sign_zero] at e2 e3
    omega
  · rw [Int.sign_eq_one_of_pos q] at e2 e3
    omega

/-- every lamination is a disjoint union of connected ones -/
theorem exists_unions (hL : L.Consistent) : ∃ D, L.Unions D ∧ ∀ Y ∈ D, Y.Connected := by
  generalize hn : L.size = n
  induction n using Nat.strong_induction_on generalizing L with
  | _ n ih =>
    by_cases hb : L.Blank
    · exact ⟨[], .nil hb, by simp⟩
    by_cases hc : L.Connected
    · obtain ⟨Z, z1, z2⟩ := union_blank hL.1
      exact ⟨[L], .cons z2.symm (.nil z1), by simpa using hc⟩
    · unfold Connected at hc
      push Not at hc
      obtain ⟨X, Y, h1, h2, h3⟩ := hc hb
      have e := h1.size hL.1
      have c := h1.consistent hL
      rw [← size_eq_zero] at h2 h3
      obtain ⟨D1, a1, a2⟩ := ih X.size (by omega) c.1 rfl
      obtain ⟨D2, b1, b2⟩ := ih Y.size (by omega) c.2 rfl
      refine ⟨D1 ++ D2, a1.glue hL h1 b1, ?_⟩
      intro W hW
      rcases List.mem_append.1 hW with hW | hW
      · exact a2 W hW
      · exact b2 W hW

/-! ## the class -/

theorem Same.noArcs (h : Same X Y) (hX : X.NoArcs) : Y.NoArcs := hX.cls_irrel h.1.symm h.2.symm

/-- what a class says about the list of the connected parts -/
def Kind (D : List (Lam Int)) : LamClass → Prop
  | .curve => D.length = 1 ∧ ∀ Y ∈ D, Y.NoArcs
  | .arc => D.length = 1 ∧ ∀ Y ∈ D, ¬ Y.NoArcs
  | .multicurve => 2 ≤ D.length ∧ ∀ Y ∈ D, Y.NoArcs
  | .multiarc => 2 ≤ D.length ∧ ∀ Y ∈ D, ¬ Y.NoArcs
  | .integral => D = [] ∨ (∃ Y ∈ D, Y.NoArcs) ∧ ∃ Y ∈ D, ¬ Y.NoArcs
  | .lamination => False

theorem Unions.blank_iff (hL : L.Consistent) (h : L.Unions D) (hD : ∀ Y ∈ D, Y.Connected) : L.Blank ↔ D = [] := by
  constructor
  · intro hb
    cases h with
    | nil => rfl
    | @cons _ X N Xs h1 h2 =>
      exfalso
      have e := h1.size hL.1
      rw [size_eq_zero.2 hb] at e
      exact (hD X (by simp)).1 (size_eq_zero.1 (by omega))
  · rintro rfl
    cases h with
    | nil hb => exact hb

theorem Unions.connected_iff (hL : L.Consistent) (h : L.Unions D) (hD : ∀ Y ∈ D, Y.Connected) : L.Connected ↔ D.length = 1 := by
  constructor
  · intro hc
    cases h with
    | nil hb => exact absurd hb hc.1
    | @cons _ X N Xs h1 h2 =>
      have := (hc.2 _ _ h1).resolve_left (hD X (by simp)).1
      rw [Unions.blank_iff (h1.consistent hL).2 h2 (fun Y hY => hD Y (by simp [hY]))] at this
      simp [this]
  · intro hl
    cases h with
    | nil hb => simp at hl
    | @cons _ X N Xs h1 h2 =>
      have : Xs = [] := by simpa using hl
      subst this
      cases h2 with
      | nil hb => exact (hD X (by simp)).same (h1.symm.same_of_blank hL.1 hb)

theorem Unions.hasPart_iff (hL : L.Consistent) (h : L.Unions D) (hD : ∀ Y ∈ D, Y.Connected) : L.HasPart X ↔ ∃ Y ∈ D, Same Y X := by
  constructor
  · rintro ⟨hX, N, hN⟩
    obtain ⟨Ys1, Y, Ys2, e, hs, -⟩ := h.find hL hD hN hX
    exact ⟨Y, by rw [e]; simp, hs.symm⟩
  · rintro ⟨Y, hY, hs⟩
    obtain ⟨N, hN⟩ := h.pull hL hY
    exact ⟨(hD Y hY).same hs, N, hN.same hN.wf.1 hN.wf.2.1 .refl hs .refl⟩

theorem Unions.describes_iff (hL : L.Consistent) (h : L.Unions D) (hD : ∀ Y ∈ D, Y.Connected) (c : LamClass) : L.Describes c ↔ Kind D c := by
  have all : ∀ (Q : Lam Int → Prop), (∀ X Y, Same X Y → Q X → Q Y) → ((∀ X, L.HasPart X → Q X) ↔ ∀ Y ∈ D, Q Y) := by
    intro Q hQ
    constructor
    · exact fun q Y hY => q Y ((h.hasPart_iff hL hD).2 ⟨Y, hY, .refl⟩)
    · intro q X hX
      obtain ⟨Y, y1, y2⟩ := (h.hasPart_iff hL hD).1 hX
      exact hQ Y X y2 (q Y y1)
  have some : ∀ (Q : Lam Int → Prop), (∀ X Y, Same X Y → Q X → Q Y) → ((∃ X, L.HasPart X ∧ Q X) ↔ ∃ Y ∈ D, Q Y) := by
    intro Q hQ
    constructor
    · rintro ⟨X, hX, q⟩
      obtain ⟨Y, y1, y2⟩ := (h.hasPart_iff hL hD).1 hX
      exact ⟨Y, y1, hQ X Y y2.symm q⟩
    · rintro ⟨Y, hY, q⟩
      exact ⟨Y, (h.hasPart_iff hL hD).2 ⟨Y, hY, .refl⟩, q⟩
  have s1 : ∀ X Y : Lam Int, Same X Y → X.NoArcs → Y.NoArcs := fun _ _ e h => e.noArcs h
  have s2 : ∀ X Y : Lam Int, Same X Y → ¬ X.NoArcs → ¬ Y.NoArcs := fun _ _ e h q => h (e.symm.noArcs q)
  have one : D.length = 1 → ∀ Q : Lam Int → Prop, (∀ X Y, Same X Y → Q X → Q Y) → (Q L ↔ ∀ Y ∈ D, Q Y) := by
    intro hl Q hQ
    cases h with
    | nil hb => simp at hl
    | @cons _ X N Xs h1 h2 =>
      have : Xs = [] := by simpa using hl
      subst this
      cases h2 with
      | nil hb =>
        have s := h1.symm.same_of_blank hL.1 hb
        simp only [List.mem_singleton, forall_eq]
        exact ⟨hQ _ _ s.symm, hQ _ _ s⟩
  have len : (¬ L.Blank ∧ ¬ L.Connected) ↔ 2 ≤ D.length := by
    rw [h.blank_iff hL hD, h.connected_iff hL hD, ← List.length_eq_zero_iff]
    omega
  cases c with
  | curve =>
    unfold Describes Kind
    rw [h.connected_iff hL hD]
    exact and_congr_right (fun e => one e _ s1)
  | arc =>
    unfold Describes Kind
    rw [h.connected_iff hL hD]
    exact and_congr_right (fun e => one e (fun X => ¬ X.NoArcs) s2)
  | multicurve =>
    unfold Describes Kind
    rw [← and_assoc, len, all _ s1]
  | multiarc =>
    change (¬ L.Blank ∧ ¬ L.Connected ∧ ∀ X, L.HasPart X → ¬ X.NoArcs) ↔ (2 ≤ D.length ∧ ∀ Y ∈ D, ¬ Y.NoArcs)
    rw [← and_assoc, len, all (fun X => ¬ X.NoArcs) s2]
  | integral =>
    unfold Describes Kind
    rw [h.blank_iff hL hD, some _ s1, some (fun X => ¬ X.NoArcs) s2]
  | lamination => exact Iff.rfl

/-- exactly one class describes a lamination -/
theorem Describes.unique (hL : L.Consistent) {c c' : LamClass} (h : L.Describes c) (h' : L.Describes c') : c = c' := by
  obtain ⟨D, h1, h2⟩ := exists_unions hL
  rw [h1.describes_iff hL h2] at h h'
  have mem : ∀ {n}, n ≤ D.length → 0 < n → ∃ Y, Y ∈ D := fun q q' => List.exists_mem_of_length_pos (by omega)
  cases c <;> cases c' <;> first
    | rfl
    | exact h.elim
    | exact h'.elim
    | (unfold Kind at h h'; have := h.1; have := h'.1; omega)
    | (unfold Kind at h h'
       exfalso
       obtain ⟨Y, hY⟩ := mem h.1.ge (by omega)
       exact h.2 Y hY (h'.2 Y hY))
    | (unfold Kind at h h'
       exfalso
       obtain ⟨Y, hY⟩ := mem h.1.ge (by omega)
       exact h'.2 Y hY (h.2 Y hY))
    | (unfold Kind at h h'
       exfalso
       obtain ⟨Y, hY⟩ := mem h.1 (by omega)
       exact h'.2 Y hY (h.2 Y hY))
    | (unfold Kind at h h'
       exfalso
       obtain ⟨Y, hY⟩ := mem h.1 (by omega)
       exact h.2 Y hY (h'.2 Y hY))
    | (unfold Kind at h h'
       exfalso
       rcases h' with rfl | ⟨⟨Y, y1, y2⟩, ⟨Z, z1, z2⟩⟩
       · have := h.1; simp at this
       · first | exact z2 (h.2 Z z1) | exact h.2 Y y1 y2)
    | (unfold Kind at h h'
       exfalso
       rcases h with rfl | ⟨⟨Y, y1, y2⟩, ⟨Z, z1, z2⟩⟩
       · have := h'.1; simp at this
       · first | exact z2 (h'.2 Z z1) | exact h'.2 Y y1 y2)

/-- some class describes it -/
theorem exists_describes (hL : L.Consistent) : ∃ c, L.Describes c := by
  obtain ⟨D, h1, h2⟩ := exists_unions hL
  simp only [h1.describes_iff hL h2]
  by_cases h0 : D = []
  · exact ⟨.integral, .inl h0⟩
  have hl : D.length = 1 ∨ 2 ≤ D.length := by
    rw [← List.length_eq_zero_iff] at h0; omega
  by_cases ha : ∀ Y ∈ D, Y.NoArcs
  · rcases hl with hl | hl
    · exact ⟨.curve, hl, ha⟩
    · exact ⟨.multicurve, hl, ha⟩
  by_cases hb : ∀ Y ∈ D, ¬ Y.NoArcs
  · rcases hl with hl | hl
    · exact ⟨.arc, hl, hb⟩
    · exact ⟨.multiarc, hl, hb⟩
  · push Not at ha hb
    exact ⟨.integral, .inr ⟨hb, ha⟩⟩

/-- the class does not change under mappings -/
theorem Describes.enc (hL : L.Consistent) {c : LamClass} (h : L.Describes c) {g : Enc} (hg : g.Legal) {L' : Lam Int} (ha : g.applyLam L = .ok L') : L'.Describes c := by
  obtain ⟨D, h1, h2⟩ := exists_unions hL
  rw [h1.describes_iff hL h2] at h
  obtain ⟨D', e1, e2⟩ := h1.enc hL hg ha
  have con : ∀ Y ∈ D', Y.Connected := by
    intro Y hY
    obtain ⟨X, x1, x2⟩ := mapM_mem_right e1 hY
    exact (h2 X x1).enc (h1.consistent hL X x1).1 hg x2
  have na : ∀ X ∈ D, ∀ Y, g.applyLam X = .ok Y → (Y.NoArcs ↔ X.NoArcs) := by
    intro X hX Y hY
    have u := hg.undo (h1.consistent hL X hX).1.1 hY
    exact ⟨fun q => hg.inv'.noArcs q u.2.2.2, fun q => hg.noArcs q hY⟩
  have hlen : D'.length = D.length := (mapM_ok_iff.1 e1).length_eq.symm
  rw [e2.describes_iff (hL.enc hg ha) con]
  have all : ∀ Q : Prop → Prop, (∀ X ∈ D, Q X.NoArcs) → ∀ Y ∈ D', Q Y.NoArcs := by
    intro Q q Y hY
    obtain ⟨X, x1, x2⟩ := mapM_mem_right e1 hY
    rw [propext (na X x1 Y x2)]; exact q X x1
  have some : ∀ Q : Prop → Prop, (∃ X ∈ D, Q X.NoArcs) → ∃ Y ∈ D', Q Y.NoArcs := by
    rintro Q ⟨X, x1, q⟩
    obtain ⟨Y, y1, y2⟩ := mapM_mem_left e1 x1
    exact ⟨Y, y1, by rw [propext (na X x1 Y y2)]; exact q⟩
  cases c with
  | curve => exact ⟨hlen.trans h.1, all id h.2⟩
  | arc => exact ⟨hlen.trans h.1, all Not h.2⟩
  | multicurve => exact ⟨h.1.trans_eq hlen.symm, all id h.2⟩
  | multiarc => exact ⟨h.1.trans_eq hlen.symm, all Not h.2⟩
  | integral =>
    rcases h with rfl | ⟨q1, q2⟩
    · left
      exact List.length_eq_zero_iff.1 (by rw [hlen]; rfl)
    · exact .inr ⟨some id q1, some Not q2⟩
  | lamination => exact h

end Lam
end Curver
