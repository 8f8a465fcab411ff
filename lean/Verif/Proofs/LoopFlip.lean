import Verif.Proofs.Half
import Verif.Proofs.TwistCode

/-!
# The sector of a loop edge after a flip of another edge
-/

namespace Curver
open Triangulation
namespace Triangulation
variable {S T : Triangulation} {e ε a b c d f β η : Int} {X : List Int}

namespace FlipData

/-- the flip seen from the other side of the edge -/
theorem turn (D : FlipData S T e ε a b c d) : FlipData S T (inv e) (inv ε) c d a b where
  hS := D.hS
  hT := D.hT
  zeta := D.zeta
  eps := by rcases D.eps with h | h <;> simp [h]
  s1 := D.s2
  s2 := by rw [inv_inv]; exact D.s1
  t1 := D.t2
  t2 := by rw [inv_inv]; exact D.t1
  ne := by
    intro x hx
    have := D.ne x (by simp only [List.mem_cons, List.not_mem_nil, or_false] at hx ⊢; tauto)
    rw [inv_inv]; exact this.symm
  kept := by
    intro x y z h hu
    exact D.kept x y z h (fun u hu1 => by have := hu u hu1; rw [inv_inv] at this; exact this.symm)

/-- rotating about a vertex, before and after -/
theorem spins (D : FlipData S T e ε a b c d) : S.spin a = inv e ∧ S.spin (inv e) = inv d ∧ S.spin c = e ∧ S.spin e = inv b ∧ S.spin b = inv a ∧ S.spin d = inv c ∧
    T.spin b = ε ∧ T.spin ε = inv a ∧ T.spin d = inv ε ∧ T.spin (inv ε) = inv c ∧ T.spin a = inv d ∧ T.spin c = inv b := by
  have q := fun {x y z} (h : S.Glues x y z) => Sweep.spin_eq D.hS h
  have q' := fun {x y z} (h : T.Glues x y z) => Sweep.spin_eq D.hT h
  refine ⟨q D.s1.rot, q D.s2, ?_, q D.s1, q D.s1.rot.rot, q D.s2.rot.rot, ?_, q' D.t1, q' D.t1.rot, q' D.t2, q' D.t1.rot.rot, q' D.t2.rot.rot⟩
  · rw [q D.s2.rot, inv_inv]
  · rw [q' D.t2.rot, inv_inv]

theorem spin_far (D : FlipData S T e ε a b c d) {x : Int} (hx : S.IsLabel x) (hn : x ∉ [e, inv e, a, b, c, d]) : T.spin x = S.spin x := by
  obtain ⟨y, z, hg⟩ := D.hS.exists_glues hx
  rw [Sweep.spin_eq D.hS hg, Sweep.spin_eq D.hT (D.far hg hn)]

/-- what becomes of an edge of a fan -/
def ins (e ε b d x : Int) : List Int := if x = e ∨ x = inv e then [] else if x = b then [b, ε] else if x = d then [d, inv ε] else [x]

theorem ins_head (D : FlipData S T e ε a b c d) {x : Int} (hx : x ≠ e ∧ x ≠ inv e) : (ins e ε b d x).head? = some x := by
  unfold ins
  rw [if_neg (by tauto)]
  split_ifs with h1 h2 <;> simp [*]

/-- a fan after the flip -/
theorem chain (D : FlipData S T e ε a b c d) {y : Int} (hy : y ≠ e ∧ y ≠ inv e) : ∀ l : List Int, List.IsChain (fun x y => y = S.spin x) (l ++ [y]) → (∀ x ∈ l, S.IsLabel x) →
    List.IsChain (fun x y => y = T.spin x) (l.flatMap (ins e ε b d) ++ [y]) ∧
      ∀ x l', l ++ [y] = x :: l' → (x ≠ e ∧ x ≠ inv e → (l.flatMap (ins e ε b d) ++ [y]).head? = some x) ∧
        (x = e → (l.flatMap (ins e ε b d) ++ [y]).head? = some (inv b)) ∧ (x = inv e → (l.flatMap (ins e ε b d) ++ [y]).head? = some (inv d)) := by
  intro l
  induction l with
  | nil =>
    intro _ _
    refine ⟨by simp, ?_⟩
    intro x l' h
    simp only [List.nil_append, List.cons.injEq] at h
    obtain ⟨rfl, _⟩ := h
    refine ⟨fun _ => by simp, fun h => absurd h hy.1, fun h => absurd h hy.2⟩
  | cons z l ih =>
    intro hch hl
    have hz := hl z (by simp)
    rw [List.cons_append] at hch
    obtain ⟨ih1, ih2⟩ := ih (List.isChain_cons.1 hch).2 (fun x hx => hl x (by simp [hx]))
    obtain ⟨w, l', hw⟩ : ∃ w l', l ++ [y] = w :: l' := by
      cases l with
      | nil => exact ⟨y, [], rfl⟩
      | cons w l => exact ⟨w, l ++ [y], rfl⟩
    have hwz : w = S.spin z := by
      rw [hw, List.isChain_cons_cons] at hch
      exact hch.1
    obtain ⟨k1, k2, k3⟩ := ih2 w l' hw
    obtain ⟨p1, p2, p3, p4, p5, p6, p7, p8, p9, p10, p11, p12⟩ := D.spins
    have hd := D.distinct
    have ni := @FlipData.inv_ne_pair e
    have na := ni (D.ne a (by simp))
    have nb := ni (D.ne b (by simp))
    have nc := ni (D.ne c (by simp))
    have nd := ni (D.ne d (by simp))
    rw [List.flatMap_cons, List.append_assoc]
    generalize hR : l.flatMap (ins e ε b d) ++ [y] = R at ih1 k1 k2 k3 ⊢
    have conn : ∀ u v, R.head? = some v → v = T.spin u → List.IsChain (fun x y => y = T.spin x) (u :: R) := by
      intro u v h1 h2
      cases R with
      | nil => simp
      | cons v' R =>
        simp only [List.head?_cons, Option.some.injEq] at h1
        subst h1
        exact List.isChain_cons_cons.2 ⟨h2, ih1⟩
    have hfin : ∀ x l'', z :: (l ++ [y]) = x :: l'' → x = z := by
      intro x l'' h; simp only [List.cons.injEq] at h; exact h.1.symm
    by_cases z1 : z = e
    · have r : ins e ε b d z = [] := by unfold ins; rw [if_pos (.inl z1)]
      rw [r, List.nil_append]
      refine ⟨ih1, fun x l'' hx => ?_⟩
      rw [hfin x l'' hx]
      refine ⟨fun h => absurd z1 h.1, fun _ => ?_, fun h => absurd (h.symm.trans z1) (inv_ne e)⟩
      rw [z1, p4] at hwz
      rw [k1 (hwz ▸ nb), hwz]
    by_cases z2 : z = inv e
    · have r : ins e ε b d z = [] := by unfold ins; rw [if_pos (.inr z2)]
      rw [r, List.nil_append]
      refine ⟨ih1, fun x l'' hx => ?_⟩
      rw [hfin x l'' hx]
      refine ⟨fun h => absurd z2 h.2, fun h => absurd h z1, fun _ => ?_⟩
      rw [z2, p2] at hwz
      rw [k1 (hwz ▸ nd), hwz]
    have hh := D.ins_head ⟨z1, z2⟩
    refine ⟨?_, fun x l'' hx => ?_⟩
    swap
    · rw [hfin x l'' hx]
      refine ⟨fun _ => ?_, fun h => absurd h z1, fun h => absurd h z2⟩
      rw [List.head?_append, hh]; rfl
    unfold ins
    rw [if_neg (by tauto)]
    by_cases z3 : z = b
    · rw [if_pos z3]
      rw [z3, p5] at hwz
      have := k1 (hwz ▸ na)
      rw [hwz] at this
      show List.IsChain _ (b :: ε :: R)
      exact List.isChain_cons_cons.2 ⟨p7.symm, conn ε _ this p8.symm⟩
    rw [if_neg z3]
    by_cases z4 : z = d
    · rw [if_pos z4]
      rw [z4, p6] at hwz
      have := k1 (hwz ▸ nc)
      rw [hwz] at this
      show List.IsChain _ (d :: inv ε :: R)
      exact List.isChain_cons_cons.2 ⟨p9.symm, conn _ _ this p10.symm⟩
    rw [if_neg z4]
    show List.IsChain _ (z :: R)
    by_cases z5 : z = a
    · rw [z5, p1] at hwz
      rw [z5]
      exact conn _ _ (k3 hwz) p11.symm
    by_cases z6 : z = c
    · rw [z6, p3] at hwz
      rw [z6]
      exact conn _ _ (k2 hwz) p12.symm
    have hsp := D.spin_far hz (by simp [z1, z2, z3, z4, z5, z6])
    by_cases w1 : w = e
    · exact absurd (D.hS.spin_inj hz (D.hS.label_of_glues D.s2).2.1 (by rw [p3, ← hwz, w1])) z6
    by_cases w2 : w = inv e
    · exact absurd (D.hS.spin_inj hz (D.hS.label_of_glues D.s1).2.1 (by rw [p1, ← hwz, w2])) z5
    exact conn z _ (k1 ⟨w1, w2⟩) (by rw [hsp, hwz])

theorem mem_ins (D : FlipData S T e ε a b c d) {x y : Int} : y ∈ ins e ε b d x ↔ (x ≠ e ∧ x ≠ inv e) ∧ (y = x ∨ (x = b ∧ y = ε) ∨ (x = d ∧ y = inv ε)) := by
  have hd := D.distinct
  unfold ins
  by_cases h : x = e ∨ x = inv e
  · rw [if_pos h]; simp; tauto
  rw [if_neg h]
  by_cases h1 : x = b
  · rw [if_pos h1]
    simp only [List.mem_cons, List.not_mem_nil, or_false]
    have : x ≠ d := fun k => hd.2.2.2.2.2.2.2.2.1 (h1.symm.trans k)
    subst h1; tauto
  rw [if_neg h1]
  by_cases h2 : x = d
  · rw [if_pos h2]
    simp only [List.mem_cons, List.not_mem_nil, or_false]
    subst h2; tauto
  rw [if_neg h2]
  simp only [List.mem_cons, List.not_mem_nil, or_false]
  tauto

theorem eps_pair (D : FlipData S T e ε a b c d) : (∀ x : Int, (x ≠ e ∧ x ≠ inv e) ↔ (x ≠ ε ∧ x ≠ inv ε)) := by
  intro x
  rcases D.eps with h | h
  · rw [h]
  · rw [h, inv_inv]; tauto

end FlipData

theorem Sweep.unique {Y : List Int} (h : Sweep T f X) (h' : Sweep T f Y) : X = Y := by
  have key : ∀ (A B : List Int) (u : Int), List.IsChain (fun x y => y = T.spin x) (u :: (A ++ [inv f])) → List.IsChain (fun x y => y = T.spin x) (u :: (B ++ [inv f])) →
      inv f ∉ A → inv f ∉ B → A = B := by
    intro A
    induction A with
    | nil =>
      intro B u h1 h2 _ hB
      cases B with
      | nil => rfl
      | cons v B =>
        simp only [List.nil_append, List.cons_append, List.isChain_cons_cons] at h1 h2
        exact absurd (by rw [h1.1, h2.1]; simp) hB
    | cons v A ih =>
      intro B u h1 h2 hA hB
      cases B with
      | nil =>
        simp only [List.nil_append, List.cons_append, List.isChain_cons_cons] at h1 h2
        exact absurd (by rw [h2.1, h1.1]; simp) hA
      | cons w B =>
        simp only [List.cons_append, List.isChain_cons_cons] at h1 h2
        obtain rfl : v = w := h1.1.trans h2.1.symm
        rw [ih B v h1.2 h2.2 (fun k => hA (by simp [k])) (fun k => hB (by simp [k]))]
  exact key X Y f h.chain h'.chain h.notin h'.notin

/-- the sector after the flip -/
theorem Sweep.flip (D : FlipData S T e ε a b c d) (h : Sweep S f X) (hf : f ≠ e ∧ f ≠ inv e) :
    ∃ Y, f :: Y = (f :: X).flatMap (FlipData.ins e ε b d) ∧ Sweep T f Y ∧ (∀ x, x ≠ e → x ≠ inv e → (x ∈ Y ↔ x ∈ X)) ∧
      (ε ∈ Y ↔ b ∈ f :: X) ∧ (inv ε ∈ Y ↔ d ∈ f :: X) := by
  have hl : ∀ x ∈ f :: X, S.IsLabel x := by
    intro x hx
    rcases List.mem_cons.1 hx with rfl | hx
    · exact h.label
    · exact h.labels D.hS x hx
  have hif := @FlipData.inv_ne_pair e f hf
  obtain ⟨c1, c2⟩ := D.chain hif (f :: X) h.chain hl
  have hh := (c2 f (X ++ [inv f]) rfl).1 hf
  obtain ⟨Y, hY⟩ : ∃ Y, (f :: X).flatMap (FlipData.ins e ε b d) = f :: Y := by
    rw [List.flatMap_cons]
    have := D.ins_head hf
    cases hi : FlipData.ins e ε b d f with
    | nil => rw [hi] at this; cases this
    | cons u l =>
      rw [hi] at this
      simp only [List.head?_cons, Option.some.injEq] at this
      subst this
      exact ⟨_, rfl⟩
  rw [hY] at c1
  have hep := D.eps_pair
  have hne : ε ≠ inv ε := (inv_ne ε).symm
  have hmem : ∀ y, y ∈ f :: Y ↔ (y ∈ f :: X ∧ y ≠ e ∧ y ≠ inv e) ∨ (y = ε ∧ b ∈ f :: X) ∨ (y = inv ε ∧ d ∈ f :: X) := by
    intro y
    rw [← hY, List.mem_flatMap]
    constructor
    · rintro ⟨x, hx, hy⟩
      rw [D.mem_ins] at hy
      rcases hy with ⟨h1, rfl | ⟨rfl, rfl⟩ | ⟨rfl, rfl⟩⟩
      · exact .inl ⟨hx, h1⟩
      · exact .inr (.inl ⟨rfl, hx⟩)
      · exact .inr (.inr ⟨rfl, hx⟩)
    · rintro (⟨h1, h2⟩ | ⟨rfl, h1⟩ | ⟨rfl, h1⟩)
      · exact ⟨y, h1, D.mem_ins.2 ⟨h2, .inl rfl⟩⟩
      · exact ⟨b, h1, D.mem_ins.2 ⟨D.ne b (by simp), .inr (.inl ⟨rfl, rfl⟩)⟩⟩
      · exact ⟨d, h1, D.mem_ins.2 ⟨D.ne d (by simp), .inr (.inr ⟨rfl, rfl⟩)⟩⟩
  have fε := (hep f).1 hf
  have ε1 : ¬ (ε ≠ e ∧ ε ≠ inv e) := fun k => ((hep ε).1 k).1 rfl
  have ε2 : ¬ (inv ε ≠ e ∧ inv ε ≠ inv e) := fun k => ((hep (inv ε)).1 k).2 rfl
  have hnd : (f :: Y).Nodup := by
    rw [← hY, List.nodup_flatMap]
    refine ⟨fun x _ => ?_, ?_⟩
    · unfold FlipData.ins
      split_ifs with h1 h2 h3
      · exact List.nodup_nil
      · subst h2
        have := (hep x).1 (D.ne x (by simp))
        simp [this.1]
      · subst h3
        have := (hep x).1 (D.ne x (by simp))
        simp [this.2]
      · simp
    · refine h.nodup.imp ?_
      intro x y hxy u hu1 hu2
      rw [D.mem_ins] at hu1 hu2
      obtain ⟨h1, h2⟩ := hu1
      obtain ⟨h3, h4⟩ := hu2
      have h1' := (hep x).1 h1
      have h3' := (hep y).1 h3
      have hbd := D.distinct.2.2.2.2.2.2.2.2.1
      rcases h2 with rfl | ⟨rfl, rfl⟩ | ⟨rfl, rfl⟩ <;> rcases h4 with h4 | ⟨rfl, h4⟩ | ⟨rfl, h4⟩
      · exact hxy h4
      · exact h1'.1 h4
      · exact h1'.2 h4
      · exact h3'.1 h4.symm
      · exact hxy rfl
      · exact hne h4
      · exact h3'.2 h4.symm
      · exact hne h4.symm
      · exact hxy rfl
  have hfY := (List.nodup_cons.1 hnd).1
  refine ⟨Y, hY.symm, ⟨D.isLabel_iff.2 h.label, c1, hnd, ?_⟩, ?_, ?_, ?_⟩
  · intro k
    have := (hmem (inv f)).1 (by simp [k])
    have h3 := (hep (inv f)).1 hif
    rcases this with ⟨h1, _⟩ | ⟨h1, _⟩ | ⟨h1, _⟩
    · rcases List.mem_cons.1 h1 with h1 | h1
      · exact inv_ne f h1
      · exact h.notin h1
    · exact h3.1 h1
    · exact h3.2 h1
  · intro x h1 h2
    have h3 := (hep x).1 ⟨h1, h2⟩
    have := hmem x
    by_cases hx : x = f
    · subst hx
      exact ⟨fun k => absurd k hfY, fun k => absurd k (List.nodup_cons.1 h.nodup).1⟩
    · simp only [List.mem_cons, hx, false_or] at this
      rw [this]
      constructor
      · rintro (⟨k, _⟩ | ⟨k, _⟩ | ⟨k, _⟩)
        · exact k
        · exact absurd k h3.1
        · exact absurd k h3.2
      · exact fun k => .inl ⟨k, h1, h2⟩
  · have := hmem ε
    simp only [List.mem_cons (a := ε), fε.1.symm, false_or] at this
    rw [this]
    constructor
    · rintro (⟨_, k⟩ | ⟨_, k⟩ | ⟨k, _⟩)
      · exact absurd k ε1
      · exact k
      · exact absurd k hne
    · exact fun k => .inr (.inl ⟨trivial, k⟩)
  · have := hmem (inv ε)
    simp only [List.mem_cons (a := inv ε), fε.2.symm, false_or] at this
    rw [this]
    constructor
    · rintro (⟨_, k⟩ | ⟨k, _⟩ | ⟨_, k⟩)
      · exact absurd k ε2
      · exact absurd k.symm hne
      · exact k
    · exact fun k => .inr (.inr ⟨trivial, k⟩)

/-- there are still at least two edges -/
theorem Sweep.flip_two (hS : S.Valid) (D : FlipData S T e ε a b c d) (h : Loop S f β η X) (hf : f ≠ e ∧ f ≠ inv e) {Y : List Int} (hY : Sweep T f Y) : 2 ≤ Y.length := by
  by_contra hlt
  have hc := D.hT
  have hlab := hY.label
  obtain ⟨b', e', hg⟩ := hc.exists_glues hlab
  have hcase : Y = [] ∨ ∃ x, Y = [x] := by
    match Y, hlt with
    | [], _ => exact .inl rfl
    | [x], _ => exact .inr ⟨x, rfl⟩
    | x :: y :: l, hlt => simp at hlt
  have key : ∃ x, T.Glues f x (inv x) := by
    rcases hcase with rfl | ⟨x, rfl⟩
    · have := hY.chain
      simp only [List.nil_append, List.isChain_cons_cons, List.isChain_singleton, and_true] at this
      rw [Sweep.spin_eq hc hg, inv_inj] at this
      exact absurd this.symm (hc.glues_ne hg).2.2
    · obtain ⟨X', h1⟩ := hY.first hc hg (by simp)
      have h2 := hY.last hc hg (by simp)
      simp only [List.getLast_singleton] at h2
      simp only [List.cons.injEq] at h1
      refine ⟨x, ?_⟩
      rw [h1.1, inv_inv]
      rw [← h2, h1.1] at hg
      exact hg
  obtain ⟨x, hx⟩ := key
  have D' := D.symm
  have hdis := D'.distinct
  have n1 : f ≠ ε ∧ f ≠ inv ε := (D.eps_pair f).1 hf
  have back : S.Glues f x (inv x) := by
    refine D'.far hx ?_
    have hh := D'.s1
    have hh2 := D'.s2
    simp only [List.mem_cons, List.not_mem_nil, or_false, not_or]
    refine ⟨n1.1, n1.2, ?_, ?_, ?_, ?_⟩
    · rintro rfl
      -- `f = d`: its triangle is `(d, a, ε)`
      have u := hc.glues_unique hx hh.rot
      refine (D'.ne a (by simp)).2 ?_
      rw [← u.2, inv_inv, u.1]
    · rintro rfl
      have u := hc.glues_unique hx hh.rot.rot
      refine (D'.ne d (by simp)).2 ?_
      rw [← u.2, u.1]
    · rintro rfl
      have u := hc.glues_unique hx hh2.rot
      refine (D'.ne c (by simp)).1 ?_
      rw [← inv_inj, ← u.2, u.1]
    · rintro rfl
      have u := hc.glues_unique hx hh2.rot.rot
      refine (D'.ne b (by simp)).1 ?_
      rw [← u.2, u.1, inv_inv]
  have u := D.hS.glues_unique back h.glues
  have hbase := h.sweep.base hS h.glues h.two
  exact hbase.bi (by rw [← u.1, ← u.2, inv_inv])

/-- the loop after the flip -/
theorem Loop.flip (D : FlipData S T e ε a b c d) (hT : T.Valid) (h : Loop S f β η X) (hf : f ≠ e ∧ f ≠ inv e) :
    ∃ β' η' Y, Loop T f β' η' Y ∧ (∀ x, x ≠ e → x ≠ inv e → (x ∈ Y ↔ x ∈ X)) ∧ (ε ∈ Y ↔ b ∈ f :: X) ∧ (inv ε ∈ Y ↔ d ∈ f :: X) := by
  obtain ⟨Y, _, h1, h2, h3, h4⟩ := h.sweep.flip D hf
  obtain ⟨β', η', hg⟩ := D.hT.exists_glues h1.label
  exact ⟨β', η', Y, ⟨hT, h1, hg, h1.flip_two h.valid D h hf⟩, h2, h3, h4⟩

end Triangulation
end Curver
