import Verif.Proofs.HomMatrix
import Verif.Proofs.VertexSize
import Verif.Proofs.Power
import Verif.Spec.MappingEq

namespace Curver
open Triangulation

theorem Triangulation.Valid.asLamination_consistent {T : Triangulation} (hT : T.Valid) : T.asLamination.Consistent := by
  have hw : T.asLamination.WellFormed := ⟨hT, by simp [asLamination]⟩
  rw [Lam.consistent_iff]
  refine ⟨hw, ?_⟩
  have hv : ∀ e, T.asLamination.w e ≤ 0 := by
    intro e
    unfold Lam.w asLamination
    by_cases h : (norm e).toNat < T.zeta <;> simp [h]
  intro a b c _ _ _ _
  rw [max_eq_right (hv a), max_eq_right (hv b), max_eq_right (hv c)]
  simp

namespace Enc
variable {h k : Enc}

/-- the triangulation as a lamination -/
def edgesOn (T : Triangulation) (hT : T.Valid) : LamOn Int T := ⟨T.asLamination, hT.asLamination_consistent, rfl⟩

theorem Legal.selfImage_ok (hh : h.Legal) : ∃ L, h.selfImage = .ok L ∧ L.tri = h.target ∧ L.cls = .multiarc := by
  obtain ⟨L, hL⟩ := hh.applyLam_total (edgesOn h.source hh.path.valid_source)
  have := hh.undo hh.path.valid_source.asLamination_consistent.1 hL
  exact ⟨L.1, hL, this.2.1, this.2.2.1⟩

theorem Legal.eq_ok (hh : h.Legal) (hk : k.Legal) : ∃ b, h.eq k = .ok b ∧ (b = true ↔ h.Agree k) := by
  unfold Enc.eq
  by_cases hs : h.source = k.source
  swap
  · rw [if_pos (by rw [Triangulation.eq_decide]; simp [hs])]
    exact ⟨false, rfl, by simp; exact fun H => hs H.source⟩
  by_cases ht : h.target = k.target
  swap
  · rw [if_pos (by rw [Triangulation.eq_decide, Triangulation.eq_decide]; simp [ht])]
    exact ⟨false, rfl, by simp; exact fun H => ht H.target⟩
  rw [if_neg (by rw [Triangulation.eq_decide, Triangulation.eq_decide]; simp [hs, ht])]
  obtain ⟨L, l1, l2, l3⟩ := hh.selfImage_ok
  obtain ⟨L', m1, m2, m3⟩ := hk.selfImage_ok
  rw [l1, py_bind_ok, m1, py_bind_ok]
  have hL : L.eq L' = true ↔ L = L' := by
    unfold Lam.eq
    rw [Triangulation.eq_decide]
    simp only [Bool.and_eq_true, decide_eq_true_eq]
    constructor
    · rintro ⟨a, b⟩; cases L; cases L'; simp_all
    · rintro rfl; exact ⟨rfl, rfl⟩
  have hE : h.applyLam h.source.asLamination = k.applyLam h.source.asLamination ↔ L = L' := by
    have a : h.applyLam h.source.asLamination = .ok L := l1
    have b : k.applyLam h.source.asLamination = .ok L' := by rw [hs]; exact m1
    rw [a, b]; exact ⟨fun h => Except.ok.inj h, fun h => by rw [h]⟩
  by_cases hLL : L = L'
  swap
  · rw [if_neg (fun H => hLL (hL.1 H))]
    exact ⟨false, rfl, by simp; exact fun H => hLL (hE.1 H.edges)⟩
  rw [if_pos (hL.2 hLL)]
  obtain ⟨_, tS, htS, _⟩ := hh.path.valid_source.comp.dualTree_ok []
  obtain ⟨_, tT, htT, _⟩ := hh.path.valid_target.comp.dualTree_ok []
  have e1 := hh.homologyMatrix_ok htS htT
  have e2 := hk.homologyMatrix_ok (by rw [← hs]; exact htS) (by rw [← ht]; exact htT)
  rw [e1, py_bind_ok, e2, py_bind_ok, ← hs, ← ht]
  refine ⟨_, rfl, ?_⟩
  have gk : GoodMap h.source h.target k.act := by rw [hs, ht]; exact hk.good
  rw [beq_iff_eq, mat_eq_iff hh.good gk hh.path.valid_source hh.path.valid_target htS htT]
  constructor
  · intro H
    refine ⟨hs, ht, hE.2 hLL, ?_⟩
    intro x y z hx hy hz
    have tx : x.tri = h.source := by
      rw [applyHom_eq] at hy; split at hy
      · rename_i h'; exact h'.symm
      · cases hy
    cases (hh.act_ok hx tx).1.symm.trans hy
    cases (hk.act_ok hx (by rw [tx, hs])).1.symm.trans hz
    exact H x hx tx
  · intro H x hx tx
    exact H.homology x _ _ hx (hh.act_ok hx tx).1 (hk.act_ok hx (by rw [tx, hs])).1

theorem Agree.refl (hh : h.Legal) : h.Agree h := by
  refine ⟨rfl, rfl, rfl, ?_⟩
  intro x y z hx hy hz; cases hy.symm.trans hz; exact .refl _

theorem Agree.symm (H : h.Agree k) : k.Agree h :=
  ⟨H.source.symm, H.target.symm, by rw [← H.source]; exact H.edges.symm, fun x y z hx hy hz => (H.homology x z y hx hz hy).symm⟩

theorem Agree.trans {l : Enc} (hk : k.Legal) (H : h.Agree k) (K : k.Agree l) : h.Agree l := by
  refine ⟨H.source.trans K.source, H.target.trans K.target, ?_, ?_⟩
  · have := K.edges
    rw [← H.source] at this
    exact H.edges.trans this
  · intro x y z hx hy hz
    have tx : x.tri = k.source := by
      rw [applyHom_eq] at hy; split at hy
      · rename_i h'; exact h'.symm.trans H.source
      · cases hy
    have := (hk.act_ok hx tx).1
    exact (H.homology x y _ hx hy this).trans (K.homology x _ z hx this hz)

/-! ### order -/

theorem act_iterate (hh : h.Legal) (hst : h.source = h.target) (n : Nat) : ∀ {x : Hom}, x.WellFormed → x.tri = h.source →
    repeatM h.applyHom n x = .ok (h.act^[n] x) := by
  induction n with
  | zero => intro x _ _; rfl
  | succ n ih =>
    intro x hx tx
    obtain ⟨a, b, c⟩ := hh.act_ok hx tx
    simp only [repeatM]
    rw [a, py_bind_ok, ih b (c.trans hst.symm), Function.iterate_succ_apply]

theorem repeatM_one {α : Type} (f : α → Py α) (x : α) : repeatM f 1 x = f x := by
  change (f x >>= fun y => .ok y) = f x
  cases f x <;> rfl

theorem repeatM_add {α : Type} (f : α → Py α) (m n : Nat) (x : α) : repeatM f (m + n) x = (repeatM f m x >>= repeatM f n) := by
  induction m generalizing x with
  | zero => simp only [Nat.zero_add, repeatM]; rfl
  | succ m ih =>
    rw [Nat.succ_add]
    simp only [repeatM]
    cases h : f x with
    | error e => rfl
    | ok y => simp only [py_bind_ok]; exact ih y

section
variable {σ : Equiv.Perm (LamOn Int h.source)} {tS : List Int}

/-- the power acts trivially -/
def TrivAt (h : Enc) (σ : Equiv.Perm (LamOn Int h.source)) (tS : List Int) (L0 : LamOn Int h.source) (p : Nat) : Prop :=
  mat h.source h.source tS tS (h.act^[p]) = identityMatrix (h.source.cotree tS).length ∧ (σ ^ p) L0 = L0

/-- the state of the search before trying `p + 1` -/
structure OrderInv (h : Enc) (σ : Equiv.Perm (LamOn Int h.source)) (tS : List Int) (L0 : LamOn Int h.source) (p : Nat) (st : OrderState) : Prop where
  mp : st.matrixPower = p
  m : st.matrix = mat h.source h.source tS tS (h.act^[p])
  lp : st.lamPower ≤ p
  l : st.lam = ((σ ^ st.lamPower) L0).1

theorem orderStep_ok (hh : h.Legal) (hst : h.source = h.target) (hσ : h.ActsLam σ) (htS : h.source.dualTree [] = .ok tS) {p : Nat}
    {st : OrderState} (H : OrderInv h σ tS (edgesOn h.source hh.path.valid_source) p st) :
    ∃ b st', h.orderStep (mat h.source h.source tS tS h.act) (p + 1) st = .ok (b, st') ∧
      (b = true ↔ TrivAt h σ tS (edgesOn h.source hh.path.valid_source) (p + 1)) ∧
      OrderInv h σ tS (edgesOn h.source hh.path.valid_source) (p + 1) st' := by
  have vS := hh.path.valid_source
  have hg : GoodMap h.source h.source h.act := by
    have := hh.good; rwa [← hst] at this
  have hm : matDot (mat h.source h.source tS tS h.act) st.matrix (h.source.cotree tS).length = mat h.source h.source tS tS (h.act^[p + 1]) := by
    rw [H.m, mat_comp (hg.iterate p) hg vS vS vS htS htS htS, Function.iterate_succ']
    rfl
  unfold orderStep
  rw [H.mp, mat_length, show p + 1 - p = 1 by omega]
  simp only [repeatM, py_bind_ok]
  rw [hm, max_eq_right (by omega)]
  by_cases hid : mat h.source h.source tS tS (h.act^[p + 1]) = identityMatrix (h.source.cotree tS).length
  · rw [if_pos (by rw [beq_iff_eq]; exact hid)]
    have hL : repeatM h.applyLam (p + 1 - st.lamPower) st.lam = .ok ((σ ^ (p + 1)) (edgesOn h.source vS)).1 := by
      rw [H.l, repeatM_actsLam hσ, ← Equiv.Perm.mul_apply, ← pow_add]
      have := H.lp
      rw [show p + 1 - st.lamPower + st.lamPower = p + 1 by omega]
    rw [hL, py_bind_ok, max_eq_right (by have := H.lp; omega)]
    refine ⟨_, _, rfl, ?_, ⟨rfl, rfl, le_refl _, rfl⟩⟩
    unfold TrivAt
    have hcls : ((σ ^ (p + 1)) (edgesOn h.source vS)).1.cls = .multiarc := by
      obtain ⟨q, q1, q2, q3, q4, q5, q6, _⟩ := create_replicate hh hst (n := p + 1) (by omega)
      have h1 := q6 Int _ vS.asLamination_consistent.1
      have h2 := repeatM_actsLam hσ (p + 1) (edgesOn h.source vS)
      rw [show (edgesOn h.source vS).1 = h.source.asLamination from rfl] at h2
      rw [h2] at h1
      exact (q2.undo vS.asLamination_consistent.1 h1).2.2.1
    have htri := ((σ ^ (p + 1)) (edgesOn h.source vS)).2.2
    unfold Lam.eq
    rw [Triangulation.eq_decide]
    simp only [Bool.and_eq_true, decide_eq_true_eq]
    constructor
    · rintro ⟨a, b⟩
      refine ⟨hid, Subtype.ext ?_⟩
      generalize ((σ ^ (p + 1)) (edgesOn h.source vS)).1 = M at *
      cases M
      simp only at a b hcls
      subst a b hcls
      rfl
    · rintro ⟨_, b⟩
      rw [b]; exact ⟨rfl, rfl⟩
  · rw [if_neg (by rw [beq_iff_eq]; exact hid)]
    refine ⟨_, _, rfl, ?_, ⟨rfl, rfl, Nat.le_succ_of_le H.lp, H.l⟩⟩
    simp only [Bool.false_eq_true, false_iff]
    exact fun H => hid H.1

theorem orderLoop_ok (hh : h.Legal) (hst : h.source = h.target) (hσ : h.ActsLam σ) (htS : h.source.dualTree [] = .ok tS) (n : Nat) : ∀ (p : Nat)
    (st : OrderState), OrderInv h σ tS (edgesOn h.source hh.path.valid_source) p st →
    ∃ q, h.orderLoop (mat h.source h.source tS tS h.act) (List.range' (p + 1) n) st = .ok q ∧
      ((q = 0 ∧ ∀ i, p < i → i ≤ p + n → ¬ TrivAt h σ tS (edgesOn h.source hh.path.valid_source) i) ∨
      (p < q ∧ q ≤ p + n ∧ TrivAt h σ tS (edgesOn h.source hh.path.valid_source) q ∧
        ∀ i, p < i → i < q → ¬ TrivAt h σ tS (edgesOn h.source hh.path.valid_source) i)) := by
  induction n with
  | zero => intro p st _; exact ⟨0, rfl, .inl ⟨rfl, fun i h1 h2 => by omega⟩⟩
  | succ n ih =>
    intro p st H
    obtain ⟨b, st', h1, h2, h3⟩ := orderStep_ok hh hst hσ htS H
    rw [List.range'_succ]
    simp only [orderLoop]
    rw [h1]
    simp only [py_bind_ok]
    cases b with
    | true =>
      exact ⟨p + 1, rfl, .inr ⟨by omega, by omega, h2.1 rfl, fun i h1 h2 => by omega⟩⟩
    | false =>
      rw [if_neg (by simp)]
      have hn : ¬ TrivAt h σ tS (edgesOn h.source hh.path.valid_source) (p + 1) := fun H => by simpa using h2.2 H
      obtain ⟨q, k1, k2⟩ := ih (p + 1) st' h3
      refine ⟨q, k1, ?_⟩
      rcases k2 with ⟨a, b⟩ | ⟨a, b, c, d⟩
      · refine .inl ⟨a, fun i h1 h2 => ?_⟩
        rcases Nat.lt_or_ge (p + 1) i with hi | hi
        · exact b i hi (by omega)
        · have : i = p + 1 := by omega
          rw [this]; exact hn
      · refine .inr ⟨by omega, by omega, c, fun i h1 h2 => ?_⟩
        rcases Nat.lt_or_ge (p + 1) i with hi | hi
        · exact d i hi (by omega)
        · have : i = p + 1 := by omega
          rw [this]; exact hn

end

theorem order_ok (hh : h.Legal) (hst : h.source = h.target) {N : Int} (hN : h.source.maxOrder = .ok N) :
    ∃ (σ : Equiv.Perm (LamOn Int h.source)) (tS : List Int) (q : Nat), h.ActsLam σ ∧ h.source.dualTree [] = .ok tS ∧ h.order = .ok q ∧
      ((q = 0 ∧ ∀ i : Nat, 0 < i → (i : Int) ≤ N → ¬ TrivAt h σ tS (edgesOn h.source hh.path.valid_source) i) ∨
      (0 < q ∧ (q : Int) ≤ N ∧ TrivAt h σ tS (edgesOn h.source hh.path.valid_source) q ∧
        ∀ i, 0 < i → i < q → ¬ TrivAt h σ tS (edgesOn h.source hh.path.valid_source) i)) := by
  have hex : ∃ σ : LamOn Int h.source ≃ LamOn Int h.source, h.ActsLam σ := by
    have := hh.exists_actsLam (R := Int)
    rw [← hst] at this
    exact ⟨this.choose, this.choose_spec.1⟩
  obtain ⟨σ, hσ⟩ := hex
  obtain ⟨_, tS, htS, _⟩ := hh.path.valid_source.comp.dualTree_ok []
  have e1 := hh.homologyMatrix_ok htS (by rw [← hst]; exact htS)
  rw [← hst] at e1
  have hinv : OrderInv h σ tS (edgesOn h.source hh.path.valid_source) 0 ⟨identityMatrix (mat h.source h.source tS tS h.act).length, 0, h.source.asLamination, 0⟩ := by
    refine ⟨rfl, ?_, le_refl _, rfl⟩
    simp only [Function.iterate_zero]
    rw [mat_length, ← mat_id hh.path.valid_source htS]; rfl
  obtain ⟨q, h1, h2⟩ := orderLoop_ok hh hst hσ htS N.toNat 0 _ hinv
  refine ⟨σ, tS, q, hσ, htS, ?_, ?_⟩
  · unfold order
    rw [e1, py_bind_ok, hN, py_bind_ok, ← h1]
    congr 1
    rw [List.range'_eq_map_range]
    apply List.map_congr_left
    intro i _; omega
  · rcases h2 with ⟨a, b⟩ | ⟨a, b, c, d⟩
    · exact .inl ⟨a, fun i h1 h2 => b i h1 (by omega)⟩
    · exact .inr ⟨a, by omega, c, d⟩

/-- what the test means -/
theorem trivAt_iff (hh : h.Legal) (hst : h.source = h.target) {σ : Equiv.Perm (LamOn Int h.source)} {tS : List Int} (hσ : h.ActsLam σ)
    (htS : h.source.dualTree [] = .ok tS) {p : Enc} {n : Nat} (ps : p.source = h.source)
    (pl : p.applyLam h.source.asLamination = repeatM h.applyLam n h.source.asLamination)
    (ph : ∀ x : Hom, x.WellFormed → x.tri = h.source → p.applyHom x = repeatM h.applyHom n x) :
    TrivAt h σ tS (edgesOn h.source hh.path.valid_source) n ↔ p.Trivial := by
  have vS := hh.path.valid_source
  have hg : GoodMap h.source h.source h.act := by
    have := hh.good; rwa [← hst] at this
  have h2 := repeatM_actsLam hσ n (edgesOn h.source vS)
  rw [show (edgesOn h.source vS).1 = h.source.asLamination from rfl, ← pl] at h2
  unfold TrivAt
  rw [← mat_id vS htS, mat_eq_iff (hg.iterate n) (GoodMap.id _) vS vS htS htS]
  constructor
  · rintro ⟨a, b⟩
    rw [b] at h2
    refine ⟨by rw [ps]; exact h2, ?_⟩
    intro x y hx hy
    have tx : x.tri = h.source := by
      rw [applyHom_eq] at hy; split at hy
      · rename_i h'; exact h'.symm.trans ps
      · cases hy
    rw [ph x hx tx, act_iterate hh hst n hx tx] at hy
    cases hy
    exact a x hx tx
  · rintro ⟨a, b⟩
    rw [ps] at a
    refine ⟨?_, Subtype.ext ?_⟩
    · intro x hx tx
      have := ph x hx tx
      rw [act_iterate hh hst n hx tx] at this
      exact b x _ hx this
    · exact (Except.ok.inj (a.symm.trans h2)).symm

end Enc
end Curver

namespace Curver
open Triangulation

theorem Triangulation.Valid.surface_ok {T : Triangulation} (hT : T.Valid) : ∃ s, T.surface = .ok s := by
  obtain ⟨vs, h1, _⟩ := hT.comp.vertices_ok
  obtain ⟨cs, h2, _⟩ := hT.comp.components_ok
  unfold surface
  rw [h1, py_bind_ok, h2, py_bind_ok]
  exact ⟨_, rfl⟩

/-- the head of the vertex of `e` is in the component of `e` -/
theorem Triangulation.Complete.joined_vertex {T : Triangulation} (hT : T.Complete) {v : List Int} (hv : T.IsVertex v) (hl : ∀ x ∈ v, T.IsLabel x)
    {e x : Int} (he : e ∈ v) (hx : x ∈ v) : T.Joined e x := by
  refine hv.induct he .refl ?_ x hx
  intro y hy hj
  have hb := hT.glues_nxt (hl y hy)
  exact hj.trans (((joined_of_glues hb).trans (joined_of_glues hb.rot)).trans (joined_inv T _))

theorem Triangulation.Valid.surface_spec {T : Triangulation} (hT : T.Valid) : ∃ vs cs, T.vertices = .ok vs ∧ T.components = .ok cs ∧
    T.surface = .ok (cs.map (fun comp =>
      (comp, ((2 - ((vs.filter (fun vertex => vertex.head?.any (· ∈ comp))).length : Int) + (comp.length : Int) / 2 / 3) / 2,
        ((vs.filter (fun vertex => vertex.head?.any (· ∈ comp))).length : Int), Int.fdiv (-((comp.length : Int) / 2)) 3)))) ∧
    ∀ comp ∈ cs, 0 < (vs.filter (fun vertex => vertex.head?.any (· ∈ comp))).length := by
  obtain ⟨vs, h1, _⟩ := hT.comp.vertices_ok
  obtain ⟨cs, h2, h3, h4, _⟩ := hT.comp.components_ok
  refine ⟨vs, cs, h1, h2, ?_, ?_⟩
  · unfold surface
    rw [h1, py_bind_ok, h2, py_bind_ok]; rfl
  · intro comp hc
    obtain ⟨a, b, c⟩ := h4 comp hc
    obtain ⟨e, he⟩ := List.exists_mem_of_ne_nil _ a
    have hle : T.IsLabel e := by
      rw [← mem_labels, ← h3.mem_iff]; exact List.mem_flatten.2 ⟨_, hc, he⟩
    obtain ⟨k1, k2, _⟩ := hT.comp.vertices_mem h1
    obtain ⟨v, hv, hev⟩ := k1 e hle
    obtain ⟨l1, l2, l3⟩ := k2 v hv
    rw [List.length_pos_iff_exists_mem]
    refine ⟨v, List.mem_filter.2 ⟨hv, ?_⟩⟩
    obtain ⟨x, l, rfl⟩ := List.exists_cons_of_ne_nil l1.ne
    simp only [List.head?_cons, Option.any_some, decide_eq_true_eq]
    exact (c e he x).2 (hT.comp.joined_vertex l1 l3 hev (by simp))

theorem foldl_mul_pos : ∀ (l : List Int) (a : Int), 0 < a → (∀ x ∈ l, 0 < x) → 0 < l.foldl (· * ·) a := by
  intro l
  induction l with
  | nil => intro a h _; exact h
  | cons x l ih => intro a h hl; exact ih _ (Int.mul_pos h (hl x (by simp))) (fun y hy => hl y (by simp [hy]))

theorem Triangulation.Valid.maxOrder_ok {T : Triangulation} (hT : T.Valid) : ∃ N, T.maxOrder = .ok N ∧ 0 < N := by
  obtain ⟨vs, cs, h1, h2, h3, h4⟩ := hT.surface_spec
  unfold maxOrder
  rw [h2, py_bind_ok, h3, py_bind_ok]
  refine ⟨_, rfl, foldl_mul_pos _ _ ?_ ?_⟩
  · unfold landau
    exact_mod_cast Nat.pow_pos (by decide)
  · intro x hx
    rw [List.mem_dedup, List.map_map, List.mem_map] at hx
    obtain ⟨comp, hc, rfl⟩ := hx
    have := h4 comp hc
    simp only [Function.comp]
    unfold componentOrder
    split
    · omega
    · split <;> omega

namespace Enc
variable {h : Enc}

theorem isInTorelli_ok (hh : h.Legal) (hst : h.source = h.target) : ∃ b, h.isInTorelli = .ok b ∧
    (b = true ↔ ∀ x y : Hom, x.WellFormed → h.applyHom x = .ok y → y.Homologous x) := by
  have vS := hh.path.valid_source
  obtain ⟨_, tS, htS, _⟩ := vS.comp.dualTree_ok []
  have e1 := hh.homologyMatrix_ok htS (by rw [← hst]; exact htS)
  rw [← hst] at e1
  have hg : GoodMap h.source h.source h.act := by
    have := hh.good; rwa [← hst] at this
  unfold isInTorelli
  rw [e1, py_bind_ok]
  refine ⟨_, rfl, ?_⟩
  rw [beq_iff_eq, mat_length, ← mat_id vS htS, mat_eq_iff hg (GoodMap.id _) vS vS htS htS]
  constructor
  · intro H x y hx hy
    have tx : x.tri = h.source := by
      rw [applyHom_eq] at hy; split at hy
      · rename_i h'; exact h'.symm
      · cases hy
    cases (hh.act_ok hx tx).1.symm.trans hy
    exact H x hx tx
  · intro H x hx tx
    exact H x _ hx (hh.act_ok hx tx).1

end Enc
end Curver
