import Verif.Proofs.Topology
import Verif.Proofs.PermSign
import Mathlib.GroupTheory.Perm.List
import Mathlib.GroupTheory.Perm.Sign
import Mathlib.Algebra.Order.BigOperators.Ring.Finset
import Mathlib.LinearAlgebra.Dimension.Constructions
import Mathlib.LinearAlgebra.FiniteDimensional.Lemmas

namespace Curver
open Triangulation

section signs
variable {α : Type _} [DecidableEq α]

theorem sign_formPerm [Fintype α] : ∀ {v : List α}, v.Nodup → v ≠ [] → Equiv.Perm.sign (List.formPerm v) = (-1) ^ (v.length + 1) := by
  intro v
  induction v with
  | nil => intro _ h; exact absurd rfl h
  | cons x l ih =>
    intro hn _
    rcases l with _ | ⟨y, l⟩
    · simp
    · rw [List.formPerm_cons_cons, Equiv.Perm.sign_mul, ih (List.nodup_cons.1 hn).2 (by simp), Equiv.Perm.sign_swap (by
        rintro rfl; simp at hn)]
      rw [← pow_succ']; simp

theorem prod_formPerm_notMem : ∀ {L : List (List α)} {x : α}, x ∉ L.flatten → (L.map List.formPerm).prod x = x := by
  intro L
  induction L with
  | nil => intro x _; rfl
  | cons v L ih =>
    intro x hx
    simp only [List.flatten_cons, List.mem_append, not_or] at hx
    rw [List.map_cons, List.prod_cons, Equiv.Perm.mul_apply, ih hx.2, List.formPerm_apply_of_notMem hx.1]

theorem prod_formPerm_mem : ∀ {L : List (List α)}, L.flatten.Nodup → ∀ v ∈ L, ∀ x ∈ v, (L.map List.formPerm).prod x = List.formPerm v x := by
  intro L
  induction L with
  | nil => intro _ v hv; simp at hv
  | cons u L ih =>
    intro hn v hv x hx
    rw [List.flatten_cons, List.nodup_append] at hn
    rw [List.map_cons, List.prod_cons, Equiv.Perm.mul_apply]
    rcases List.mem_cons.1 hv with rfl | hv
    · rw [prod_formPerm_notMem (fun h => hn.2.2 x hx x h rfl)]
    · rw [ih hn.2.1 v hv x hx, List.formPerm_apply_of_notMem]
      intro h
      exact hn.2.2 _ h _ (List.mem_flatten.2 ⟨v, hv, List.formPerm_apply_mem_of_mem hx⟩) rfl

theorem formPerm_chain {s : α → α} : ∀ {v : List α} (hv : v ≠ []), v.Nodup → List.IsChain (fun x y => y = s x) v → s (v.getLast hv) = v.head hv →
    ∀ x ∈ v, List.formPerm v x = s x := by
  intro v hv hn hc hl x hx
  obtain ⟨i, hi, rfl⟩ := List.getElem_of_mem hx
  by_cases h : i + 1 < v.length
  · rw [List.formPerm_apply_lt_getElem v hn i h]
    exact (List.isChain_iff_getElem.1 hc) i h
  · have hi' : i = v.length - 1 := by omega
    have e1 : v[i] = v.getLast hv := by rw [List.getLast_eq_getElem]; congr 1
    rw [e1]
    rcases v with _ | ⟨a, l⟩
    · exact absurd rfl hv
    · rw [List.formPerm_apply_getLast, hl]; rfl

/-- the sign of a permutation whose cycles (including fixed points) are listed -/
theorem sign_of_cycles [Fintype α] (σ : Equiv.Perm α) {L : List (List α)} (hn : L.flatten.Nodup) (hc : ∀ x, x ∈ L.flatten)
    (h : ∀ v ∈ L, ∃ hv : v ≠ [], List.IsChain (fun x y => y = σ x) v ∧ σ (v.getLast hv) = v.head hv) :
    Equiv.Perm.sign σ = (-1) ^ (Fintype.card α + L.length) := by
  have hσ : σ = (L.map List.formPerm).prod := by
    ext x
    obtain ⟨v, hv, hx⟩ := List.mem_flatten.1 (hc x)
    obtain ⟨h0, h1, h2⟩ := h v hv
    rw [prod_formPerm_mem hn v hv x hx, formPerm_chain h0 ((List.nodup_flatten.1 hn).1 v hv) h1 h2 x hx]
  have hcard : Fintype.card α = L.flatten.length := by
    have := List.toFinset_card_of_nodup hn
    rw [← this, Finset.card_univ.symm]
    congr 1
    ext x; simpa using List.mem_flatten.1 (hc x)
  rw [hσ, hcard]
  have hne : ∀ v ∈ L, v ≠ [] := fun v hv => (h v hv).1
  clear hσ hcard h hc
  induction L with
  | nil => simp
  | cons v L ih =>
    rw [List.flatten_cons, List.nodup_append] at hn
    rw [List.map_cons, List.prod_cons, Equiv.Perm.sign_mul, sign_formPerm hn.1 (hne v (by simp)), ih hn.2.1 (fun v hv => hne v (by simp [hv]))]
    rw [← pow_add, List.flatten_cons, List.length_append, List.length_cons]
    congr 1; omega

end signs

section rank
variable {α : Type _} [Fintype α]

/-- Euler's inequality for a connected closed surface made of triangles -/
theorem euler_le (ν ι : Equiv.Perm α) (hι : ∀ x, ι (ι x) = x) (hν : ∀ x, ν (ν (ν x)) = x) {V E F : Nat} (vert : α → Fin V) (tri : α → Fin F)
    (rep : Fin E → α) (hvs : Function.Surjective vert) (hts : Function.Surjective tri) (hv : ∀ x, vert (ι (ν (ν x))) = vert x)
    (ht : ∀ x, tri (ν x) = tri x) (hr : ∀ x, ∃ i, x = rep i ∨ x = ι (rep i)) (x₀ : α)
    (hcon : ∀ f : α → ℚ, (∀ x, f (ν x) = f x) → (∀ x, f (ι x) = f x) → ∀ x, f x = f x₀) : V + F ≤ E + 2 := by
  let Ψ : ((Fin V → ℚ) × (Fin F → ℚ)) →ₗ[ℚ] (Fin E → ℚ) × ℚ × ℚ :=
    { toFun := fun p => (fun i => p.1 (vert (rep i)) - p.1 (vert (ι (rep i))) + (p.2 (tri (rep i)) - p.2 (tri (ι (rep i)))), p.1 (vert x₀), p.2 (tri x₀))
      map_add' := by
        intro p q
        ext <;> simp
        ring
      map_smul' := by
        intro a p
        ext <;> simp
        ring }
  have hinj : Function.Injective Ψ := by
    rw [← LinearMap.ker_eq_bot, LinearMap.ker_eq_bot']
    rintro ⟨f, c⟩ h
    have h1 : ∀ i, f (vert (rep i)) - f (vert (ι (rep i))) + (c (tri (rep i)) - c (tri (ι (rep i)))) = 0 := fun i => congrFun (congrArg Prod.fst h) i
    have h2 : f (vert x₀) = 0 := congrArg (fun p => p.2.1) h
    have h3 : c (tri x₀) = 0 := congrArg (fun p => p.2.2) h
    have h4 : ∀ x, f (vert x) - f (vert (ι x)) + (c (tri x) - c (tri (ι x))) = 0 := by
      intro x
      obtain ⟨i, rfl | rfl⟩ := hr x
      · exact h1 i
      · rw [hι]; have := h1 i; linarith
    have e1 : ∑ x, f (vert (ι x)) * c (tri (ι x)) = ∑ x, f (vert x) * c (tri x) := Equiv.sum_comp ι (fun x => f (vert x) * c (tri x))
    have e2 : ∑ x, f (vert (ι x)) * c (tri x) = ∑ x, f (vert x) * c (tri (ι x)) := by
      rw [← Equiv.sum_comp ι (fun x => f (vert x) * c (tri (ι x)))]
      simp only [hι]
    have e3 : ∑ x, f (vert x) * c (tri (ι x)) = ∑ x, f (vert x) * c (tri x) := by
      rw [← Equiv.sum_comp ((ν.trans ν).trans ι) (fun x => f (vert x) * c (tri (ι x)))]
      simp only [Equiv.trans_apply, hι, hv, ht]
    have e4 : ∑ x, (f (vert x) - f (vert (ι x))) * (c (tri x) - c (tri (ι x))) = 0 := by
      have : ∀ x, (f (vert x) - f (vert (ι x))) * (c (tri x) - c (tri (ι x))) =
        f (vert x) * c (tri x) - f (vert x) * c (tri (ι x)) - f (vert (ι x)) * c (tri x) + f (vert (ι x)) * c (tri (ι x)) := fun x => by ring
      simp only [this, Finset.sum_add_distrib, Finset.sum_sub_distrib]
      linarith
    have e5 : ∑ x, (f (vert x) - f (vert (ι x))) * (f (vert x) - f (vert (ι x))) = 0 := by
      have : ∀ x, (f (vert x) - f (vert (ι x))) * (f (vert x) - f (vert (ι x))) = - ((f (vert x) - f (vert (ι x))) * (c (tri x) - c (tri (ι x)))) := by
        intro x
        have := h4 x
        have h5 : c (tri x) - c (tri (ι x)) = - (f (vert x) - f (vert (ι x))) := by linarith
        rw [h5]; ring
      simp only [this, Finset.sum_neg_distrib, e4, neg_zero]
    have e6 : ∀ x, f (vert x) - f (vert (ι x)) = 0 := by
      intro x
      have := (Finset.sum_eq_zero_iff_of_nonneg (fun x _ => mul_self_nonneg _)).1 e5 x (Finset.mem_univ x)
      exact mul_self_eq_zero.1 this
    have e7 : ∀ x, c (tri x) - c (tri (ι x)) = 0 := by intro x; have := h4 x; have := e6 x; linarith
    have f1 : ∀ x, f (vert (ι x)) = f (vert x) := by intro x; have := e6 x; linarith
    have f2 : ∀ x, f (vert (ν (ν x))) = f (vert x) := by
      intro x
      rw [← f1, hv]
    have f3 : ∀ x, f (vert (ν x)) = f (vert x) := by
      intro x
      rw [← f2 x, ← f2 (ν x), hν]
      exact (f2 x).symm
    have g1 := hcon (fun x => f (vert x)) f3 f1
    have g2 := hcon (fun x => c (tri x)) (fun x => by rw [ht]) (fun x => by have := e7 x; linarith)
    ext i
    · obtain ⟨x, rfl⟩ := hvs i
      have : f (vert x) = f (vert x₀) := g1 x
      exact this.trans h2
    · obtain ⟨x, rfl⟩ := hts i
      have : c (tri x) = c (tri x₀) := g2 x
      exact this.trans h3
  have := LinearMap.finrank_le_finrank_of_injective hinj
  simpa using this

end rank

theorem exists_index {L : List (List Int)} (hn : L.flatten.Nodup) (hne : ∀ v ∈ L, v ≠ []) {c : List Int} (hm : ∀ x, x ∈ L.flatten ↔ x ∈ c) :
    ∃ idx : {e // e ∈ c} → Fin L.length, Function.Surjective idx ∧ ∀ x y : {e // e ∈ c}, (∃ v ∈ L, x.1 ∈ v ∧ y.1 ∈ v) → idx x = idx y := by
  have h1 : ∀ x : {e // e ∈ c}, ∃ i : Fin L.length, x.1 ∈ L[i] := by
    intro x
    obtain ⟨v, hv, hx⟩ := List.mem_flatten.1 ((hm x.1).2 x.2)
    obtain ⟨i, hi, rfl⟩ := List.getElem_of_mem hv
    exact ⟨⟨i, hi⟩, hx⟩
  have hu : ∀ (i j : Fin L.length) x, x ∈ L[i] → x ∈ L[j] → i = j := by
    intro i j x hi hj
    have hd := List.pairwise_iff_getElem.1 (List.nodup_flatten.1 hn).2
    rcases lt_trichotomy i.1 j.1 with h | h | h
    · exact absurd hj (hd i.1 j.1 i.2 j.2 h hi)
    · exact Fin.ext h
    · exact absurd hi (hd j.1 i.1 j.2 i.2 h hj)
  choose idx hidx using h1
  refine ⟨idx, ?_, ?_⟩
  · intro i
    obtain ⟨x, hx⟩ := List.exists_mem_of_ne_nil _ (hne L[i] (List.getElem_mem _))
    have hxc : x ∈ c := (hm x).1 (List.mem_flatten.2 ⟨_, List.getElem_mem _, hx⟩)
    exact ⟨⟨x, hxc⟩, hu _ _ x (hidx ⟨x, hxc⟩) hx⟩
  · rintro x y ⟨v, hv, hx, hy⟩
    obtain ⟨i, hi, rfl⟩ := List.getElem_of_mem hv
    rw [hu (idx x) ⟨i, hi⟩ _ (hidx x) hx, hu (idx y) ⟨i, hi⟩ _ (hidx y) hy]

namespace Triangulation
variable {T : Triangulation}

/-- the triangles of a component -/
def ntris (T : Triangulation) (c : List Int) : Nat := (T.triangles.filter (fun t => t.x ∈ c)).length

theorem Complete.component_euler (hT : T.Complete) {vs cs : List (List Int)} (hvs : T.vertices = .ok vs) (hcs : T.components = .ok cs) {c : List Int} (hc : c ∈ cs) :
    c.length = 2 * (c.filter (fun e => 0 ≤ e)).length ∧ 3 * T.ntris c = c.length ∧
      nv vs c + T.ntris c ≤ (c.filter (fun e => 0 ≤ e)).length + 2 ∧ (nv vs c + (c.filter (fun e => 0 ≤ e)).length) % 2 = 0 := by
  obtain ⟨a1, a2, a3, a4, a5⟩ := hT.components_mem hcs
  obtain ⟨c1, c2, c3, c4⟩ := hT.vertices_mem hvs
  obtain ⟨cne, cn, cl⟩ := a3 c hc
  have cj : ∀ x ∈ c, ∀ y, T.Joined x y → y ∈ c := fun x hx y h => (a5 c hc x hx y).2 h
  have cnxt : ∀ x ∈ c, T.nxt x ∈ c := fun x hx => cj x hx _ (joined_of_glues (hT.glues_nxt (cl x hx)))
  have cinv : ∀ x ∈ c, inv x ∈ c := fun x hx => cj x hx _ (T.joined_inv x)
  -- edges
  have pe : ((c.filter (fun e => 0 ≤ e)).map (fun e => [e, inv e])).flatten.Perm c := by
    rw [List.perm_ext_iff_of_nodup _ cn]
    · intro x
      simp only [List.mem_flatten, List.mem_map, List.mem_filter, decide_eq_true_eq]
      constructor
      · rintro ⟨_, ⟨e, ⟨he, _⟩, rfl⟩, hx⟩
        simp only [List.mem_cons, List.not_mem_nil, or_false] at hx
        rcases hx with rfl | rfl
        · exact he
        · exact cinv _ he
      · intro hx
        by_cases h0 : 0 ≤ x
        · exact ⟨_, ⟨x, ⟨hx, h0⟩, rfl⟩, by simp⟩
        · exact ⟨_, ⟨inv x, ⟨cinv x hx, by unfold inv; omega⟩, rfl⟩, by simp [inv_inv]⟩
    · rw [List.nodup_flatten]
      refine ⟨?_, ?_⟩
      · intro l hl
        obtain ⟨e, _, rfl⟩ := List.mem_map.1 hl
        simpa using fun h => inv_ne e h.symm
      · rw [List.pairwise_map]
        refine List.Pairwise.imp_of_mem ?_ (cn.filter _)
        intro a b ha hb hab
        simp only [List.mem_filter, decide_eq_true_eq] at ha hb
        simp only [List.disjoint_cons_left, List.disjoint_nil_left, List.mem_cons, List.not_mem_nil, or_false, not_or, and_true]
        unfold inv
        omega
  have le : c.length = 2 * (c.filter (fun e => 0 ≤ e)).length := by
    rw [← pe.length_eq, List.length_flatten, List.map_map]
    simp [Function.comp_def, Nat.mul_comm]
  -- triangles
  have pt : ((T.triangles.filter (fun t => t.x ∈ c)).map Tri.labels).flatten.Perm c := by
    rw [List.perm_ext_iff_of_nodup _ cn]
    · intro x
      simp only [List.mem_flatten, List.mem_map, List.mem_filter, decide_eq_true_eq]
      constructor
      · rintro ⟨_, ⟨t, ⟨ht, hta⟩, rfl⟩, hx⟩
        have hg := glues_of_mem ht
        simp only [Tri.labels, List.mem_cons, List.not_mem_nil, or_false] at hx
        rcases hx with rfl | rfl | rfl
        · exact hta
        · exact cj _ hta _ (joined_of_glues hg)
        · exact cj _ hta _ ((joined_of_glues hg).trans (joined_of_glues hg.rot))
      · intro hx
        have := hT.mem_signature.2 (cl x hx)
        unfold signature at this
        obtain ⟨t, ht, hxt⟩ := List.mem_flatMap.1 this
        refine ⟨_, ⟨t, ⟨ht, ?_⟩, rfl⟩, hxt⟩
        have hg := glues_of_mem ht
        simp only [Tri.labels, List.mem_cons, List.not_mem_nil, or_false] at hxt
        rcases hxt with rfl | rfl | rfl
        · exact hx
        · exact cj _ hx _ ((joined_of_glues hg.rot).trans (joined_of_glues hg.rot.rot))
        · exact cj _ hx _ (joined_of_glues hg.rot.rot)
    · have hn := hT.nodup
      unfold signature at hn
      rw [List.flatMap] at hn
      exact List.Sublist.nodup (List.Sublist.flatten (List.filter_sublist.map _)) hn
  have lt : 3 * T.ntris c = c.length := by
    rw [← pt.length_eq, List.length_flatten, List.map_map]
    have : (List.length ∘ Tri.labels) = fun _ => 3 := by funext t; rfl
    rw [this]
    simp [ntris, Nat.mul_comm]
  -- vertices
  have hvm : ∀ v, v ∈ vs.filter (fun vertex => vertex.head?.any (· ∈ c)) → v ∈ vs ∧ ∀ x ∈ v, x ∈ c := by
    intro v hv
    exact ⟨List.mem_of_mem_filter hv, fun x hx => ((hT.mem_nv hvs hcs hc hx).1 hv).2⟩
  have nvf : (vs.filter (fun vertex => vertex.head?.any (· ∈ c))).flatten.Nodup := List.Sublist.nodup (List.Sublist.flatten List.filter_sublist) c4
  have mvf : ∀ x, x ∈ (vs.filter (fun vertex => vertex.head?.any (· ∈ c))).flatten ↔ x ∈ c := by
    intro x
    rw [List.mem_flatten]
    constructor
    · rintro ⟨v, hv, hx⟩; exact (hvm v hv).2 x hx
    · intro hx
      obtain ⟨v, hv, hxv⟩ := c1 x (cl x hx)
      exact ⟨v, (hT.mem_nv hvs hcs hc hxv).2 ⟨hv, hx⟩, hxv⟩
  -- permutations
  let ν : Equiv.Perm {e // e ∈ c} :=
    { toFun := fun x => ⟨T.nxt x.1, cnxt x.1 x.2⟩
      invFun := fun x => ⟨T.nxt (T.nxt x.1), cnxt _ (cnxt x.1 x.2)⟩
      left_inv := fun x => Subtype.ext (hT.nxt_nxt_nxt (cl x.1 x.2))
      right_inv := fun x => Subtype.ext (hT.nxt_nxt_nxt (cl x.1 x.2)) }
  let ι : Equiv.Perm {e // e ∈ c} :=
    { toFun := fun x => ⟨inv x.1, cinv x.1 x.2⟩
      invFun := fun x => ⟨inv x.1, cinv x.1 x.2⟩
      left_inv := fun x => Subtype.ext (inv_inv x.1)
      right_inv := fun x => Subtype.ext (inv_inv x.1) }
  refine ⟨le, lt, ?_, ?_⟩
  · obtain ⟨vert, sv, hv⟩ := exists_index nvf (fun v hv => (c2 v (hvm v hv).1).1.ne) mvf
    obtain ⟨tri, st, ht⟩ := exists_index (pt.nodup_iff.2 cn) (fun v hv => by obtain ⟨t, _, rfl⟩ := List.mem_map.1 hv; simp [Tri.labels]) (fun x => pt.mem_iff)
    obtain ⟨x₀, hx₀⟩ := List.exists_mem_of_ne_nil _ cne
    have := euler_le ν ι (fun x => Subtype.ext (inv_inv x.1)) (fun x => Subtype.ext (hT.nxt_nxt_nxt (cl x.1 x.2))) vert tri
      (fun i : Fin (c.filter (fun e => 0 ≤ e)).length => ⟨(c.filter (fun e => 0 ≤ e))[i], List.mem_of_mem_filter (List.getElem_mem _)⟩) sv st
      (fun x => by
        apply hv
        obtain ⟨v, hvv, hxv⟩ := List.mem_flatten.1 ((mvf x.1).2 x.2)
        exact ⟨v, hvv, (c2 v (hvm v hvv).1).1.spin_mem hxv, hxv⟩)
      (fun x => by
        apply ht
        obtain ⟨v, hvv, hxv⟩ := List.mem_flatten.1 (pt.mem_iff.2 x.2)
        refine ⟨v, hvv, ?_, hxv⟩
        obtain ⟨t, ht, rfl⟩ := List.mem_map.1 hvv
        have ht := List.mem_of_mem_filter ht
        obtain ⟨t', ht', h1, h2⟩ := (hT.sameTriangle_iff (cl x.1 x.2)).2 (.inr (.inl rfl))
        have : t = t' := by
          have e1 := hT.triOf_eq ht hxv
          have e2 := hT.triOf_eq ht' h1
          exact e1.symm.trans e2
        rw [this]; exact h2)
      (fun x => by
        by_cases h0 : 0 ≤ x.1
        · obtain ⟨i, hi, h⟩ := List.getElem_of_mem (List.mem_filter.2 ⟨x.2, by simpa using h0⟩ : x.1 ∈ c.filter (fun e => 0 ≤ e))
          exact ⟨⟨i, hi⟩, .inl (Subtype.ext h.symm)⟩
        · obtain ⟨i, hi, h⟩ := List.getElem_of_mem (List.mem_filter.2 ⟨cinv x.1 x.2, by simp; unfold inv; omega⟩ : inv x.1 ∈ c.filter (fun e => 0 ≤ e))
          refine ⟨⟨i, hi⟩, .inr (Subtype.ext ?_)⟩
          show x.1 = inv _
          rw [← inv_inv x.1]; exact congrArg inv h.symm) ⟨x₀, hx₀⟩
      (fun f hfν hfι => by
        have key : ∀ y, T.Joined x₀ y → ∀ hy : y ∈ c, f ⟨y, hy⟩ = f ⟨x₀, hx₀⟩ := by
          intro y h
          induction h with
          | refl => intro _; rfl
          | @tail y z hy hz ih =>
            intro hzc
            have hyc := cj x₀ hx₀ y hy
            rw [← ih hyc]
            rcases hz with rfl | ⟨w, hw⟩
            · exact hfι ⟨y, hyc⟩
            · have : z = T.nxt y := ((hT.glues_iff (cl y hyc)).1 hw).1
              subst this
              exact hfν ⟨y, hyc⟩
        intro x
        exact key x.1 ((a5 c hc x₀ hx₀ x.1).1 x.2) x.2)
    simp only [List.length_map] at this
    exact this
  · have lift_ok : ∀ L : List (List Int), (∀ v ∈ L, ∀ x ∈ v, x ∈ c) → ∃ L' : List (List {e // e ∈ c}), L'.map (List.map Subtype.val) = L := by
      intro L hL
      have : ∀ v ∈ L, ∃ v' : List {e // e ∈ c}, v'.map Subtype.val = v := by
        intro v hv
        exact ⟨v.pmap Subtype.mk (hL v hv), by simp [List.map_pmap]⟩
      clear hL
      induction L with
      | nil => exact ⟨[], rfl⟩
      | cons v L ih =>
        obtain ⟨v', h1⟩ := this v (by simp)
        obtain ⟨L', h2⟩ := ih (fun v hv => this v (by simp [hv]))
        exact ⟨v' :: L', by simp [h1, h2]⟩
    have key : ∀ (σ : Equiv.Perm {e // e ∈ c}) (s : Int → Int), (∀ x, (σ x).1 = s x.1) → ∀ L : List (List Int), L.flatten.Nodup → (∀ x, x ∈ L.flatten ↔ x ∈ c) →
        (∀ v ∈ L, ∃ hv : v ≠ [], List.IsChain (fun x y => y = s x) v ∧ s (v.getLast hv) = v.head hv) → Equiv.Perm.sign σ = (-1) ^ (c.length + L.length) := by
      intro σ s hσ L hn hm hL
      obtain ⟨L', rfl⟩ := lift_ok L (fun v hv x hx => (hm x).1 (List.mem_flatten.2 ⟨v, hv, hx⟩))
      rw [← List.map_flatten] at hn hm
      rw [sign_of_cycles σ (L := L') hn.of_map]
      · congr 1
        rw [List.length_map]
        congr 1
        have := List.toFinset_card_of_nodup cn
        rw [← this, Fintype.card_of_subtype]
        simp
      · intro x
        have := (hm x.1).2 x.2
        rw [List.mem_map] at this
        obtain ⟨y, hy, h⟩ := this
        rwa [← Subtype.ext h]
      · intro v hv
        obtain ⟨h0, h1, h2⟩ := hL _ (List.mem_map_of_mem hv)
        have h0' : v ≠ [] := by rintro rfl; exact h0 rfl
        refine ⟨h0', ?_, ?_⟩
        · rw [List.isChain_map] at h1
          exact h1.imp (fun x y h => Subtype.ext (by rw [hσ]; exact h))
        · apply Subtype.ext
          rw [hσ]
          rw [List.getLast_map, List.head_map] at h2
          exact h2
    have s1 := key ι inv (fun _ => rfl) _ (pe.nodup_iff.2 cn) (fun x => pe.mem_iff) (by
      intro v hv
      obtain ⟨e, _, rfl⟩ := List.mem_map.1 hv
      exact ⟨by simp, by simp, by simp [inv_inv]⟩)
    have s2 := key (ι * ν * ν) T.spin (fun _ => rfl) _ nvf mvf (by
      intro v hv
      have h := (c2 v (hvm v hv).1).1
      refine ⟨h.ne, h.chain, ?_⟩
      have := h.closes
      rw [List.head?_eq_some_head h.ne] at this
      exact (Option.some.inj this).symm)
    rw [Equiv.Perm.sign_mul, Equiv.Perm.sign_mul, mul_assoc, Int.units_mul_self, mul_one, s1, List.length_map] at s2
    have e3 := congrArg (fun u => (-1 : ℤˣ) ^ (c.length + (c.filter (fun e => 0 ≤ e)).length) * u) s2
    simp only [← pow_add] at e3
    have e4 : ((-1 : ℤˣ) ^ (c.length + (c.filter (fun e => 0 ≤ e)).length + (c.length + (c.filter (fun e => 0 ≤ e)).length))) = 1 := by
      rw [← two_mul, pow_mul]; simp
    rw [e4] at e3
    have := (Permutation.neg_one_pow_parity _).2 e3.symm
    unfold nv
    omega

end Triangulation


namespace Triangulation
variable {S T U : Triangulation}

/-- the components have the same numbers of vertices and edges -/
def SamePieces (S T : Triangulation) : Prop := ∀ vs ws cs ds, S.vertices = .ok vs → T.vertices = .ok ws → S.components = .ok cs → T.components = .ok ds →
  (cs.map (fun c => (nv vs c, c.length))).Perm (ds.map (fun d => (nv ws d, d.length)))

theorem SamePieces.refl (S : Triangulation) : SamePieces S S := by
  intro vs ws cs ds h1 h2 h3 h4
  rw [h1] at h2; rw [h3] at h4; cases h2; cases h4; rfl

theorem SamePieces.trans (hT : T.Valid) (h : SamePieces S T) (h' : SamePieces T U) : SamePieces S U := by
  intro vs ws cs ds h1 h2 h3 h4
  obtain ⟨us, es, k1, k2, _⟩ := hT.surface_spec
  exact (h vs us cs es h1 k1 h3 k2).trans (h' us ws es ds k1 h2 k2 h4)

theorem samePieces_flip (hS : S.Valid) {e : Int} (he : S.Flippable e) (h : S.IsMultiflip [e] T) : SamePieces S T := by
  obtain ⟨ε, a, b, c, d, D⟩ := he.flipData hS h
  intro vs ws cs ds h1 h2 h3 h4
  exact D.surface_perm h1 h2 h3 h4

theorem samePieces_flips : ∀ (es : List Int) (S : Triangulation) (ms : List LMove), S.Valid → flipOneByOne S es = .ok ms → SamePieces S (endOf S ms) ∧ (endOf S ms).Valid := by
  intro es
  induction es with
  | nil =>
    intro S ms hS h
    simp only [flipOneByOne] at h
    cases h
    exact ⟨.refl S, hS⟩
  | cons e es ih =>
    intro S ms hS h
    simp only [flipOneByOne] at h
    rcases hm : S.encodeFlip e with err | m
    · rw [hm] at h; simp at h
    · rw [hm, py_bind_ok] at h
      obtain ⟨T, h1, h2, rfl⟩ := hS.encodeFlip_ok_iff.1 hm
      simp only [Move.target] at h
      rcases hms : flipOneByOne T es with err | ms'
      · rw [hms] at h; simp at h
      · rw [hms, py_bind_ok] at h
        cases h
        obtain ⟨k1, k2⟩ := ih T ms' h2.valid hms
        exact ⟨(samePieces_flip hS h1 h2).trans h2.valid k1, k2⟩

theorem samePieces_legal {m : LMove} (hm : m.Legal) : SamePieces m.move.source m.move.target := by
  cases hm.shape with
  | flip S T e hS he h => exact samePieces_flip hS he h
  | multiflip S T es hS he h =>
    obtain ⟨ms, h1, h2, _⟩ := flipOneByOne_ok (R := Int) es S hS he
    have : T = endOf S ms := h.unique hS.comp he.1 h2
    show SamePieces S T
    rw [this]
    exact (samePieces_flips es S ms hS h1).1
  | isometry S T f g i i' hS hT hf hg hi hi' hgf hfg =>
    simp only [Move.source, Move.target, hi.source, hi.target]
    intro vs ws cs ds h1 h2 h3 h4
    exact hf.surface_perm hS.comp hT.comp h1 h2 h3 h4

theorem _root_.Curver.Path.samePieces {ms : List LMove} (h : Path S ms T) : SamePieces S T := by
  induction h with
  | nil => exact .refl _
  | cons m ms T hm _ ih => exact (samePieces_legal hm).trans hm.valid.2.1 ih

/-- the values of `surface()` -/
theorem SamePieces.surface (hS : S.Valid) (hT : T.Valid) (h : SamePieces S T) : ∃ s t, S.surface = .ok s ∧ T.surface = .ok t ∧
    (s.map Prod.snd).Perm (t.map Prod.snd) := by
  obtain ⟨vs, cs, a1, a2, a3, _⟩ := hS.surface_spec
  obtain ⟨ws, ds, b1, b2, b3, _⟩ := hT.surface_spec
  refine ⟨_, _, a3, b3, ?_⟩
  have hp := h vs ws cs ds a1 b1 a2 b2
  have := hp.map (fun p : Nat × Nat => (((2 - (p.1 : Int) + (p.2 : Int) / 2 / 3) / 2, (p.1 : Int), Int.fdiv (-((p.2 : Int) / 2)) 3) : Int × Int × Int))
  rw [List.map_map, List.map_map] at this
  rw [List.map_map, List.map_map]
  exact this

/-- each vertex lies in one component -/
theorem Complete.sum_nv (hT : T.Complete) {vs cs : List (List Int)} (hvs : T.vertices = .ok vs) (hcs : T.components = .ok cs) : (cs.map (nv vs)).sum = vs.length := by
  obtain ⟨a1, a2, a3, a4, a5⟩ := hT.components_mem hcs
  obtain ⟨c1, c2, c3, c4⟩ := hT.vertices_mem hvs
  have : (cs.map (fun c => vs.filter (fun vertex => vertex.head?.any (· ∈ c)))).flatten.Perm vs := by
    rw [List.perm_ext_iff_of_nodup _ (hT.nodup_vertices hvs)]
    · intro v
      rw [List.mem_flatten]
      constructor
      · rintro ⟨_, hl, hv⟩
        obtain ⟨c, _, rfl⟩ := List.mem_map.1 hl
        exact List.mem_of_mem_filter hv
      · intro hv
        obtain ⟨x, hx⟩ := List.exists_mem_of_ne_nil _ (c2 v hv).1.ne
        obtain ⟨c, hc, hxc⟩ := a2 x ((c2 v hv).2.2 x hx)
        exact ⟨_, List.mem_map_of_mem hc, (hT.mem_nv hvs hcs hc hx).2 ⟨hv, hxc⟩⟩
    · rw [List.nodup_flatten]
      refine ⟨?_, ?_⟩
      · intro l hl
        obtain ⟨c, _, rfl⟩ := List.mem_map.1 hl
        exact (hT.nodup_vertices hvs).filter _
      · rw [List.pairwise_map]
        refine List.Pairwise.imp_of_mem ?_ a1
        intro c d hc hd hne v hv hv'
        obtain ⟨x, hx⟩ := List.exists_mem_of_ne_nil _ (c2 v (List.mem_of_mem_filter hv)).1.ne
        have h1 := ((hT.mem_nv hvs hcs hc hx).1 hv).2
        have h2 := ((hT.mem_nv hvs hcs hd hx).1 hv').2
        exact hne (a4 c hc d hd x h1 x h2 .refl)
  have := this.length_eq
  rw [List.length_flatten, List.map_map] at this
  exact this

theorem SamePieces.numVertices (hS : S.Valid) (hT : T.Valid) (h : SamePieces S T) : ∃ n k, S.numVertices = .ok n ∧ T.numVertices = .ok n ∧
    S.components.map List.length = .ok k ∧ T.components.map List.length = .ok k := by
  obtain ⟨vs, cs, a1, a2, a3, _⟩ := hS.surface_spec
  obtain ⟨ws, ds, b1, b2, b3, _⟩ := hT.surface_spec
  have hp := h vs ws cs ds a1 b1 a2 b2
  have e1 := hS.comp.sum_nv a1 a2
  have e2 := hT.comp.sum_nv b1 b2
  have e3 := (hp.map Prod.fst).sum_eq
  rw [List.map_map, List.map_map] at e3
  have e4 : vs.length = ws.length := by rw [← e1, ← e2]; exact e3
  refine ⟨vs.length, cs.length, by unfold Triangulation.numVertices; rw [a1]; rfl, by unfold Triangulation.numVertices; rw [b1, e4]; rfl, by rw [a2]; rfl, ?_⟩
  rw [b2]
  have := hp.length_eq
  simp only [List.length_map] at this
  rw [this]; rfl

theorem Valid.surface_exact (hT : T.Valid) {vs : List (List Int)} (hvs : T.vertices = .ok vs) {s : List (List Int × (Int × Int × Int))} (hs : T.surface = .ok s) :
    ∀ comp g p chi, (comp, (g, p, chi)) ∈ s → ∃ E F : Nat, (comp.filter (fun e => 0 ≤ e)).length = E ∧ comp.length = 2 * E ∧
      (T.triangles.filter (fun t => t.x ∈ comp)).length = F ∧ 3 * F = 2 * E ∧ p = (vs.filter (fun v => v.all (· ∈ comp))).length ∧
      2 - 2 * g = p - E + F ∧ chi = (F : Int) - E ∧ 0 ≤ g ∧ 0 < p := by
  obtain ⟨vs', cs, a1, a2, a3, a4⟩ := hT.surface_spec
  rw [hvs] at a1; cases a1
  rw [hs] at a3; cases a3
  intro comp g p chi hm
  obtain ⟨c, hc, h⟩ := List.mem_map.1 hm
  cases h
  obtain ⟨e1, e2, e3, e4⟩ := hT.comp.component_euler hvs a2 hc
  have h0 := a4 comp hc
  have e5 : (vs.filter (fun v => v.all (· ∈ comp))).length = (vs.filter (fun vertex => vertex.head?.any (· ∈ comp))).length := by
    congr 1
    apply List.filter_congr
    intro v hv
    obtain ⟨c1, c2, c3, c4⟩ := hT.comp.vertices_mem hvs
    rw [Bool.eq_iff_iff]
    constructor
    · intro h
      have := List.head?_eq_some_head (c2 v hv).1.ne
      rw [this]
      simpa using (List.all_eq_true.1 h) _ (List.head_mem (c2 v hv).1.ne)
    · intro h
      rw [List.all_eq_true]
      intro x hx
      simpa using ((hT.comp.mem_nv hvs a2 hc hx).1 (List.mem_filter.2 ⟨hv, h⟩)).2
  refine ⟨_, _, rfl, e1, rfl, by rw [← e1]; exact e2, by rw [e5], ?_, ?_, ?_, by exact_mod_cast h0⟩
  all_goals
    simp only [nv, ntris] at e2 e3 e4
    generalize hV : (vs.filter (fun vertex => vertex.head?.any (· ∈ comp))).length = V at *
    generalize hE : (comp.filter (fun e => 0 ≤ e)).length = E at *
    generalize hF : (T.triangles.filter (fun t => t.x ∈ comp)).length = F at *
    rw [e1] at e2
    rw [e1]
    try simp only [Int.fdiv_eq_ediv_of_nonneg _ (show (0 : Int) ≤ 3 by omega)]
    push_cast
    omega

end Triangulation
end Curver
