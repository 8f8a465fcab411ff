import Verif.Spec.Filling
import Verif.Proofs.Boundary3
import Verif.Props.VertexMap
import Verif.Props.Homology
import Mathlib.LinearAlgebra.Dimension.StrongRankCondition
import Mathlib.LinearAlgebra.Dimension.Constructions
import Mathlib.LinearAlgebra.StdBasis
import Mathlib.LinearAlgebra.FiniteDimensional.Basic

/-!
# Peripheral laminations, and the surfaces that carry no others
-/

namespace Curver
open Triangulation

namespace Lam
variable {L M : Lam Int} {m : Int → Int}

/-- the weights of curves around vertices -/
structure Links (M : Lam Int) (m : Int → Int) : Prop where
  const : ∀ e f, M.tri.IsLabel e → M.tri.SV e f → m e = m f
  w : ∀ e, M.tri.IsLabel e → M.w e = m e + m (Curver.inv e)

theorem Links.corner (h : M.Links m) (hc : M.tri.Complete) {a b c : Int} (hg : M.tri.Glues a b c) : M.w a = m a + m b ∧ M.w b = m b + m c ∧ M.w c = m c + m a := by
  have l := hc.label_of_glues hg
  have e : ∀ {a b c}, M.tri.Glues a b c → m (Curver.inv a) = m b := by
    intro a b c hg
    have h1 : M.tri.SV b (Curver.inv a) := hc.sv_glues (b := c) (by rw [Curver.inv_inv]; exact hg.rot)
    exact (h.const b _ (hc.label_of_glues hg).2.1 h1).symm
  exact ⟨by rw [h.w a l.1, e hg], by rw [h.w b l.2.1, e hg.rot], by rw [h.w c l.2.2, e hg.rot.rot]⟩

theorem Links.nonneg (h : M.Links m) (hM : M.NoArcs) {e : Int} (he : M.tri.IsLabel e) : 0 ≤ m e := by
  obtain ⟨b, c, hg⟩ := hM.1.1.comp.exists_glues he
  obtain ⟨h1, h2, h3⟩ := h.corner hM.1.1.comp hg
  have := ((noArcs_iff.1 hM).2 b c e hg.rot).2
  omega

theorem peripheral_iff (hM : M.NoArcs) : M.Peripheral ↔ ∃ m, M.Links m := by
  have hc := hM.1.1.comp
  constructor
  · rintro ⟨m, h0, h⟩
    refine ⟨fun e => match M.tri.vertexOf e with | .ok v => m v | .error _ => 0, ?_, ?_⟩
    · rintro e f he ⟨v, hv, hf⟩
      rw [hv, hc.vertexOf_unique he hv hf]
    · intro e he
      obtain ⟨u, _, hu, _⟩ := hc.vertexOf_ok he
      obtain ⟨v, _, hv, _⟩ := hc.vertexOf_ok (isLabel_inv.2 he)
      rw [hu, hv]
      exact h e u v he hu hv
  · rintro ⟨m, h⟩
    classical
    refine ⟨fun v => if q : ∃ e, M.tri.IsLabel e ∧ M.tri.vertexOf e = .ok v then m q.choose else 0, ?_, ?_⟩
    · intro v
      dsimp only
      split_ifs with q
      · exact h.nonneg hM q.choose_spec.1
      · exact le_rfl
    · have key : ∀ e v, M.tri.IsLabel e → M.tri.vertexOf e = .ok v → (if q : ∃ e, M.tri.IsLabel e ∧ M.tri.vertexOf e = .ok v then m q.choose else 0) = m e := by
        intro e v he hv
        have q : ∃ e, M.tri.IsLabel e ∧ M.tri.vertexOf e = .ok v := ⟨e, he, hv⟩
        rw [dif_pos q]
        obtain ⟨w, _, k1, _, _, k4, _⟩ := hc.vertexOf_ok he
        rw [hv] at k1; cases k1
        exact h.const _ _ q.choose_spec.1 ⟨v, q.choose_spec.2, k4⟩
      intro e u v he hu hv
      dsimp only
      rw [key e u he hu, key _ v (isLabel_inv.2 he) hv, h.w e he]

theorem isPeripheral_spec (P : Lam Int → Py LamClass) (hM : M.Consistent) : ∃ b, M.isPeripheral P = .ok b ∧ (b = true ↔ M.Peripheral) := by
  obtain ⟨b, h1, h2, -⟩ := C42_is_peripheral P M hM
  exact ⟨b, h1, h2⟩

theorem Peripheral.same {M' : Lam Int} (h : M.Peripheral) (e : Same M M') : M'.Peripheral := by
  obtain ⟨m, h0, h1⟩ := h
  refine ⟨m, h0, fun x u v hx hu hv => ?_⟩
  rw [← e.1] at hx hu hv
  rw [← e.w]
  exact h1 x u v hx hu hv

theorem Peripheral.enc (hM : M.NoArcs) (h : M.Peripheral) {g : Enc} (hg : g.Legal) {M' : Lam Int} (ha : g.applyLam M = .ok M') : M'.Peripheral := by
  have hM' := hg.noArcs hM ha
  have cM := (noArcs_iff.1 hM).1
  have cM' := (noArcs_iff.1 hM').1
  obtain ⟨b, b1, b2, -⟩ := C42_is_peripheral (fun _ => .ok .curve) M cM
  obtain ⟨b', b1', b2', -⟩ := C42_is_peripheral (fun _ => .ok .curve) M' cM'
  obtain ⟨p, p1, p2, p3, -⟩ := Lam.peripheral_ok (fun _ => .ok .curve) cM
  obtain ⟨p', p1', -⟩ := Lam.peripheral_ok (fun _ => .ok .curve) cM'
  obtain ⟨q, q1⟩ := C42_non_peripheral_exists (fun _ => .ok .curve) M cM
  obtain ⟨q', q1'⟩ := C42_non_peripheral_exists (fun _ => .ok .curve) M' cM'
  obtain ⟨⟨k, k1, k2⟩, -⟩ := C43_parts g hg (fun _ => .ok .curve) false M M' cM ha p p' q q' p1 p1' q1 q1'
  unfold Lam.isPeripheral at b1 b1'
  rw [p1, py_bind_ok] at b1
  rw [p1', py_bind_ok] at b1'
  injection b1 with b1
  injection b1' with b1'
  have e1 : p.eqv M = true := by rw [b1]; exact b2.2 h
  refine b2'.1 ?_
  rw [← b1']
  unfold Lam.eqv at e1 k2 ⊢
  rw [Bool.and_eq_true, beq_iff_eq, beq_iff_eq] at e1 k2 ⊢
  have y2 := (same_enc hg ⟨by rw [p2]; exact cM.1.1, by rw [p3, p2]⟩ cM.1 k1 ha).1 e1.2
  exact ⟨k2.1.symm.trans ((hg.undo ⟨by rw [p2]; exact cM.1.1, by rw [p3, p2]⟩ k1).2.1.trans (hg.undo cM.1 ha).2.1.symm), k2.2.symm.trans y2⟩

/-- numbering the vertices -/
theorem exists_numbers {T : Triangulation} (hT : T.Valid) {vs : List (List Int)} (hvs : T.vertices = .ok vs) : ∃ (ix : Int → Nat), (∀ e, T.IsLabel e → ix e < vs.length) ∧
    (∀ e f, T.IsLabel e → T.IsLabel f → (ix e = ix f ↔ T.SV e f)) ∧ ∀ i < vs.length, ∃ e, T.IsLabel e ∧ ix e = i := by
  have hc := hT.comp
  obtain ⟨k1, k2, k3, k4⟩ := hc.vertices_mem hvs
  have hn := hc.nodup_vertices hvs
  have hmem : ∀ e, T.IsLabel e → ∃ v ∈ vs, T.vertexOf e = .ok v ∧ e ∈ v := by
    intro e he
    obtain ⟨v, hv, hev⟩ := k1 e he
    exact ⟨v, hv, hc.vertexOf_of_mem hvs hv hev, hev⟩
  refine ⟨fun e => match T.vertexOf e with | .ok v => vs.idxOf v | .error _ => 0, ?_, ?_, ?_⟩
  · intro e he
    obtain ⟨v, hv, h, -⟩ := hmem e he
    dsimp only
    rw [h]
    exact List.idxOf_lt_length_iff.2 hv
  · intro e f he hf
    obtain ⟨v, hv, h, -⟩ := hmem e he
    obtain ⟨u, hu, h', hfu⟩ := hmem f hf
    dsimp only
    rw [h, h']
    dsimp only
    rw [List.idxOf_inj hv]
    constructor
    · rintro rfl
      exact ⟨v, h, hfu⟩
    · rintro ⟨v', q1, q2⟩
      rw [h] at q1; cases q1
      rw [hc.vertexOf_unique he h q2] at h'
      injection h'
  · intro i hi
    have hv : vs[i] ∈ vs := List.getElem_mem hi
    obtain ⟨e, he⟩ := List.exists_mem_of_ne_nil _ (k2 _ hv).1.ne
    refine ⟨e, (k2 _ hv).2.2 e he, ?_⟩
    dsimp only
    rw [hc.vertexOf_of_mem hvs hv he]
    exact hn.idxOf_getElem i hi

section
variable {T : Triangulation} {n : Nat} (ix : Int → Nat)

/-- the weights of rational multiples of the curves around the vertices -/
noncomputable def linkMap (T : Triangulation) (n : Nat) (ix : Int → Nat) : (Fin n → ℚ) →ₗ[ℚ] (Fin T.zeta → ℚ) where
  toFun q j := (if h : ix (j : Nat) < n then q ⟨_, h⟩ else 0) + (if h : ix (Curver.inv ((j : Nat) : Int)) < n then q ⟨_, h⟩ else 0)
  map_add' p q := by
    funext j
    simp only [Pi.add_apply]
    split_ifs <;> ring
  map_smul' c q := by
    funext j
    simp only [Pi.smul_apply, smul_eq_mul, RingHom.id_apply]
    split_ifs <;> ring

end

/-- two thirds of the dimension count: all closed laminations are peripheral if and only if there are as many vertices as edges -/
theorem all_peripheral_iff {T : Triangulation} (hT : T.Valid) {vs : List (List Int)} (hvs : T.vertices = .ok vs) :
    (∀ M : Lam Int, M.tri = T → M.NoArcs → M.Peripheral) ↔ vs.length = T.zeta := by
  have hc := hT.comp
  obtain ⟨ix, i1, i2, i3⟩ := exists_numbers hT hvs
  set n := vs.length with hn
  let φ := linkMap T n ix
  have hφ : ∀ (q : Fin n → ℚ) (j : Fin T.zeta) (x : Int) (h1 : ix x < n) (h2 : ix (Curver.inv x) < n), norm x = ((j : Nat) : Int) → φ q j = q ⟨ix x, h1⟩ + q ⟨ix (Curver.inv x), h2⟩ := by
    intro q j x h1 h2 e
    show (if h : ix (j : Nat) < n then q ⟨_, h⟩ else 0) + (if h : ix (Curver.inv ((j : Nat) : Int)) < n then q ⟨_, h⟩ else 0) = _
    rw [← e]
    by_cases q0 : 0 ≤ x
    · have e' : norm x = x := by unfold norm Curver.inv; omega
      simp only [e', dif_pos h1, dif_pos h2]
    · have e' : norm x = Curver.inv x := by unfold norm Curver.inv; omega
      simp only [e', Curver.inv_inv, dif_pos h1, dif_pos h2]
      ring
  have hjx : ∀ x, T.IsLabel x → ∃ j : Fin T.zeta, norm x = ((j : Nat) : Int) := by
    intro x hx
    have := idx_lt hx
    have h0 := norm_nonneg x
    exact ⟨⟨(norm x).toNat, this⟩, by simp; omega⟩
  have corner : ∀ (q : Fin n → ℚ) a b c, T.Glues a b c → ∀ (h : ix a < n) (ja jb jc : Fin T.zeta), norm a = ((ja : Nat) : Int) → norm b = ((jb : Nat) : Int) → norm c = ((jc : Nat) : Int) →
      2 * q ⟨ix a, h⟩ = φ q ja + φ q jc - φ q jb := by
    intro q a b c hg h ja jb jc ea eb ec
    have l := hc.label_of_glues hg
    have key : ∀ {a b c}, T.Glues a b c → ix (Curver.inv a) = ix b := by
      intro a b c hg
      have l := hc.label_of_glues hg
      exact ((i2 _ _ l.2.1 (isLabel_inv.2 l.1)).2 (hc.sv_glues (b := c) (by rw [Curver.inv_inv]; exact hg.rot))).symm
    rw [hφ q ja a h (by rw [key hg]; exact i1 _ l.2.1) ea, hφ q jb b (i1 _ l.2.1) (by rw [key hg.rot]; exact i1 _ l.2.2) eb,
      hφ q jc c (i1 _ l.2.2) (by rw [key hg.rot.rot]; exact h) ec]
    simp only [key hg, key hg.rot, key hg.rot.rot]
    ring
  have inj : Function.Injective φ := by
    rw [injective_iff_map_eq_zero]
    intro q h
    funext i
    obtain ⟨e, he, hi⟩ := i3 i.1 i.2
    obtain ⟨b, c, hg⟩ := hc.exists_glues he
    have l := hc.label_of_glues hg
    obtain ⟨ja, ea⟩ := hjx e he
    obtain ⟨jb, eb⟩ := hjx b l.2.1
    obtain ⟨jc, ec⟩ := hjx c l.2.2
    have := corner q e b c hg (i1 e he) ja jb jc ea eb ec
    rw [h] at this
    have e2 : (⟨ix e, i1 e he⟩ : Fin n) = i := Fin.ext hi
    rw [e2] at this
    simp only [Pi.zero_apply] at this ⊢
    linarith
  have le : n ≤ T.zeta := by
    have := LinearMap.finrank_le_finrank_of_injective inj
    simpa using this
  constructor
  · intro hall
    refine le_antisymm le ?_
    -- the image contains the weights of all closed laminations
    have range : ∀ M : Lam Int, M.tri = T → M.NoArcs → (fun j : Fin T.zeta => ((M.w ((j : Nat) : Int) : Int) : ℚ)) ∈ LinearMap.range φ := by
      intro M ht hM
      obtain ⟨m, hm⟩ := (peripheral_iff hM).1 (hall M ht hM)
      choose! e he using i3
      refine ⟨fun i => (m (e i.1) : ℚ), ?_⟩
      have key : ∀ x, T.IsLabel x → m (e (ix x)) = m x := by
        intro x hx
        obtain ⟨e1, e2⟩ := he (ix x) (i1 x hx)
        exact hm.const _ _ (by rw [ht]; exact e1) (by rw [ht]; exact (i2 _ _ e1 hx).1 e2)
      funext j
      have hj : T.IsLabel ((j : Nat) : Int) := isLabel_index (by unfold indices; simp)
      rw [hφ _ j ((j : Nat) : Int) (i1 _ hj) (i1 _ (isLabel_inv.2 hj)) (by unfold norm Curver.inv; omega)]
      dsimp only
      rw [key _ hj, key _ (isLabel_inv.2 hj), hm.w _ (by rw [ht]; exact hj)]
      push_cast
      ring
    have taut : ∀ u : Int → Int, (∀ x, u (Curver.inv x) = u x) → (∀ x, u x = 2 ∨ u x = 4) → (make T u .integral).NoArcs := by
      intro u hu h
      rw [noArcs_iff, consistent_iff]
      have hw : ∀ x, T.IsLabel x → (make T u .integral).w x = u x := fun x hx => make_w _ hu hx
      refine ⟨⟨make_wellFormed hT u _, fun a b c hg => ?_⟩, fun a b c hg => ?_⟩
      · have l := hc.label_of_glues (show T.Glues a b c from hg)
        rw [hw a l.1, hw b l.2.1, hw c l.2.2]
        intro _ _ _
        rcases h a with q1 | q1 <;> rcases h b with q2 | q2 <;> rcases h c with q3 | q3 <;> rw [q1, q2, q3] <;> decide
      · have l := hc.label_of_glues (show T.Glues a b c from hg)
        rw [hw a l.1, hw b l.2.1, hw c l.2.2]
        rcases h a with q1 | q1 <;> rcases h b with q2 | q2 <;> rcases h c with q3 | q3 <;> omega
    have surj : LinearMap.range φ = ⊤ := by
      rw [eq_top_iff, ← (Pi.basisFun ℚ (Fin T.zeta)).span_eq, Submodule.span_le]
      rintro _ ⟨j, rfl⟩
      have r0 := range (make T (fun _ => 2) .integral) rfl (taut _ (fun _ => rfl) (fun _ => .inl rfl))
      have hu : ∀ x, (if norm (Curver.inv x) = ((j : Nat) : Int) then (4 : Int) else 2) = if norm x = ((j : Nat) : Int) then 4 else 2 := by
        intro x
        rw [show norm (Curver.inv x) = norm x by unfold norm Curver.inv; omega]
      have r1 := range (make T (fun x => if norm x = ((j : Nat) : Int) then 4 else 2) .integral) rfl (taut _ hu (fun x => by split_ifs <;> simp))
      have := Submodule.smul_mem _ (1 / 2 : ℚ) (Submodule.sub_mem _ r1 r0)
      have e : (Pi.basisFun ℚ (Fin T.zeta)) j = (1 / 2 : ℚ) • ((fun i : Fin T.zeta => (((make T (fun x => if norm x = ((j : Nat) : Int) then 4 else 2) .integral).w ((i : Nat) : Int) : Int) : ℚ)) -
          fun i : Fin T.zeta => (((make T (fun _ => 2) .integral).w ((i : Nat) : Int) : Int) : ℚ)) := by
        funext i
        have hi : T.IsLabel ((i : Nat) : Int) := isLabel_index (by unfold indices; simp)
        rw [Pi.basisFun_apply]
        simp only [Pi.smul_apply, Pi.sub_apply, smul_eq_mul]
        rw [make_w (u := fun _ => 2) _ (fun _ => rfl) hi, make_w (u := fun x => if norm x = ((j : Nat) : Int) then 4 else 2) _ hu hi]
        have e1 : norm ((i : Nat) : Int) = ((i : Nat) : Int) := by unfold norm Curver.inv; omega
        rw [e1]
        by_cases q : i = j
        · subst q
          rw [Pi.single_eq_same, if_pos rfl]; norm_num
        · rw [Pi.single_eq_of_ne q, if_neg (fun h => q (Fin.ext (by exact_mod_cast h)))]; norm_num
      rw [e]
      exact this
    have := LinearMap.finrank_le_finrank_of_surjective (LinearMap.range_eq_top.1 surj)
    simpa using this
  · intro e M ht hM
    have surj : Function.Surjective φ := (LinearMap.injective_iff_surjective_of_finrank_eq_finrank (by simp [e])).1 inj
    obtain ⟨q, hq⟩ := surj (fun j : Fin T.zeta => ((M.w ((j : Nat) : Int) : Int) : ℚ))
    have wj : ∀ x, T.IsLabel x → ∀ j : Fin T.zeta, norm x = ((j : Nat) : Int) → φ q j = ((M.w x : Int) : ℚ) := by
      intro x hx j ej
      rw [hq]
      dsimp only
      rw [← ej]
      rcases show norm x = x ∨ norm x = Curver.inv x by unfold norm Curver.inv; omega with h | h
      · rw [h]
      · rw [h, w_inv]
    have int : ∀ x, (hx : T.IsLabel x) → ∃ k : Int, (k : ℚ) = q ⟨ix x, i1 x hx⟩ := by
      intro a ha
      obtain ⟨b, c, hg⟩ := hc.exists_glues ha
      have l := hc.label_of_glues hg
      obtain ⟨ja, ea⟩ := hjx a ha
      obtain ⟨jb, eb⟩ := hjx b l.2.1
      obtain ⟨jc, ec⟩ := hjx c l.2.2
      have h2 := corner q a b c hg (i1 a ha) ja jb jc ea eb ec
      rw [wj a ha ja ea, wj b l.2.1 jb eb, wj c l.2.2 jc ec] at h2
      have hM' := noArcs_iff.1 hM
      have hev := (consistent_iff.1 hM'.1).2 a b c (by rw [ht]; exact hg)
      have t1 := hM'.2 a b c (by rw [ht]; exact hg)
      have t2 := hM'.2 b c a (by rw [ht]; exact hg.rot)
      have t3 := hM'.2 c a b (by rw [ht]; exact hg.rot.rot)
      have hev' := hev (by omega) (by omega) (by omega)
      rw [max_eq_left t1.1, max_eq_left t2.1, max_eq_left t3.1] at hev'
      obtain ⟨k, hk⟩ := hev'
      refine ⟨k - M.w b, ?_⟩
      have hk' : ((M.w a : Int) : ℚ) + M.w b + M.w c = k + k := by exact_mod_cast hk
      push_cast
      linarith
    choose! k hk using int
    refine (peripheral_iff hM).2 ⟨k, ?_, ?_⟩
    · intro x y hx hxy
      rw [ht] at hx hxy
      have hy := hc.sv_label hx hxy
      have : (k x : ℚ) = k y := by
        rw [hk x hx, hk y hy]
        congr 1
        exact Fin.ext ((i2 _ _ hx hy).2 hxy)
      exact_mod_cast this
    · intro x hx
      rw [ht] at hx
      obtain ⟨j, ej⟩ := hjx x hx
      have h1 := wj x hx j ej
      rw [hφ q j x (i1 x hx) (i1 _ (isLabel_inv.2 hx)) ej, ← hk x hx, ← hk _ (isLabel_inv.2 hx)] at h1
      exact_mod_cast h1.symm

end Lam
end Curver
