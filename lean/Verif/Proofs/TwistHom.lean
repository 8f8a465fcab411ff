import Verif.Proofs.TwistMain
import Mathlib.GroupTheory.QuotientGroup.Basic
import Mathlib.Algebra.BigOperators.GroupWithZero.Action

/-!
# The action of twists on homology

Homology classes are paired with cocycles, which are pulled back through the flips.
-/

namespace Curver
open Triangulation
namespace Triangulation

variable {A : Type} [AddCommGroup A]

/-- a function on the oriented edges that vanishes on boundaries -/
structure Cocycle (T : Triangulation) (κ : Int → A) : Prop where
  flip : ∀ x, T.IsLabel x → κ (inv x) = -κ x
  sum : ∀ x y z, T.Glues x y z → κ x + κ y + κ z = 0

/-- the pairing of a chain with a function on the oriented edges -/
def pair (z : Nat) (x : Int → Int) (κ : Int → A) : A := ∑ i ∈ Finset.range z, x (i : Int) • κ (i : Int)

theorem isLabel_nat {T : Triangulation} {i : Nat} : T.IsLabel (i : Int) ↔ i < T.zeta := by
  unfold IsLabel
  omega

theorem pair_congr {z : Nat} {x : Int → Int} {κ κ' : Int → A} (h : ∀ i : Nat, i < z → x i ≠ 0 → κ i = κ' i) : pair z x κ = pair z x κ' := by
  apply Finset.sum_congr rfl
  intro i hi
  by_cases h0 : x i = 0
  · rw [h0, zero_smul, zero_smul]
  · rw [h i (Finset.mem_range.1 hi) h0]

theorem pair_sub (z : Nat) (x y : Int → Int) (κ : Int → A) : pair z (fun u => x u - y u) κ = pair z x κ - pair z y κ := by
  unfold pair
  rw [← Finset.sum_sub_distrib]
  exact Finset.sum_congr rfl (fun i _ => sub_smul _ _ _)

theorem pair_add (z : Nat) (x y : Int → Int) (κ : Int → A) : pair z (fun u => x u + y u) κ = pair z x κ + pair z y κ := by
  unfold pair
  rw [← Finset.sum_add_distrib]
  exact Finset.sum_congr rfl (fun i _ => add_smul _ _ _)

theorem pair_smul (z : Nat) (k : Int) (x : Int → Int) (κ : Int → A) : pair z (fun u => k * x u) κ = k • pair z x κ := by
  unfold pair
  rw [Finset.smul_sum]
  exact Finset.sum_congr rfl (fun i _ => mul_smul _ _ _)

theorem pair_add_right (z : Nat) (x : Int → Int) (κ κ' : Int → A) : pair z x (fun u => κ u + κ' u) = pair z x κ + pair z x κ' := by
  unfold pair
  rw [← Finset.sum_add_distrib]
  exact Finset.sum_congr rfl (fun i _ => smul_add _ _ _)

theorem pair_neg (z : Nat) (x : Int → Int) (κ : Int → A) : pair z (fun u => -x u) κ = -pair z x κ := by
  unfold pair
  rw [← Finset.sum_neg_distrib]
  exact Finset.sum_congr rfl (fun i _ => neg_smul _ _)

variable {T S S' : Triangulation} {κ κ' : Int → A}

theorem pair_ind (hκ : ∀ x, T.IsLabel x → κ (inv x) = -κ x) {x : Int} (hx : T.IsLabel x) : pair T.zeta (ind1 x) κ = κ x := by
  have key : ∀ n : Nat, n < T.zeta → pair T.zeta (ind1 (n : Int)) κ = κ n := by
    intro n hn
    unfold pair
    rw [Finset.sum_eq_single n]
    · have : ind1 (n : Int) (n : Int) = 1 := by
        unfold ind1; rw [if_pos rfl, if_neg (inv_ne _).symm]; rfl
      rw [this, one_smul]
    · intro i _ hi
      have : ind1 (n : Int) (i : Int) = 0 := by
        unfold ind1 inv
        rw [if_neg (by omega), if_neg (by omega)]; rfl
      rw [this, zero_smul]
    · intro h; exact absurd (Finset.mem_range.2 hn) h
  rcases lt_or_ge x 0 with h | h
  · have hl := isLabel_inv.2 hx
    obtain ⟨n, hn⟩ := Int.eq_ofNat_of_zero_le (show 0 ≤ inv x by unfold inv; omega)
    have e1 : ind1 x = fun u => -ind1 (inv x) u := by
      funext u
      unfold ind1; rw [inv_inv]; ring
    rw [e1, pair_neg, hn, key n (isLabel_nat.1 (by rw [← hn]; exact hl)), ← hn, hκ x hx, neg_neg]
  · obtain ⟨n, hn⟩ := Int.eq_ofNat_of_zero_le h
    rw [hn]
    exact key n (isLabel_nat.1 (by rw [← hn]; exact hx))

theorem Cocycle.bdry (hT : T.Complete) (h : T.Cocycle κ) {e : Int} (he : T.IsLabel e) : pair T.zeta (T.bdry e) κ = 0 := by
  have hg := hT.glues_nxt he
  have hl := hT.label_of_glues hg
  have : T.bdry e = fun u => (ind1 e u + ind1 (T.nxt e) u) + ind1 (T.nxt (T.nxt e)) u := rfl
  rw [this, pair_add, pair_add, pair_ind h.flip he, pair_ind h.flip hl.2.1, pair_ind h.flip hl.2.2]
  exact h.sum _ _ _ hg

/-- a flip does not change the pairing -/
theorem Cocycle.flipped (h : S.Cocycle κ) {x y : Hom} (hw : x.WellFormed) (hx : x.tri = S) {f : Int} (hf : S.Flippable f) (hy : Hom.FlipsTo [f] x y)
    (hk : ∀ u, S.IsLabel u → u ≠ f → u ≠ inv f → κ u = κ' u) : pair S.zeta x.v κ = pair S.zeta y.v κ' := by
  subst hx
  have e1 : y.v = fun u => x.v u - x.v f * x.tri.bdry f u := by
    funext u; rw [hy.2 u]; simp
  have h0 : ∀ g, g = f ∨ g = inv f → y.v g = 0 := by
    intro g hg
    have z := Hom.FlipsTo.zero hw (disjoint_singleton.2 hf) hy (f := f) (by simp [sides])
    rcases hg with rfl | rfl
    · exact z
    · rw [Hom.v_inv, z]; rfl
  have e2 : pair x.tri.zeta y.v κ = pair x.tri.zeta x.v κ := by
    rw [e1, pair_sub, pair_smul, h.bdry hw.1.comp hf.1, smul_zero, sub_zero]
  rw [← e2]
  refine pair_congr (fun i hi hn => hk i (isLabel_nat.2 hi) ?_ ?_)
  · intro k; exact hn (h0 _ (.inl k))
  · intro k; exact hn (h0 _ (.inr k))

/-- a cocycle after a flip comes from one before -/
theorem FlipData.extend {f ε p q r s : Int} (D : FlipData S S' f ε p q r s) (h : S'.Cocycle κ') : ∃ κ : Int → A, S.Cocycle κ ∧ ∀ u, u ≠ f → u ≠ inv f → κ u = κ' u := by
  have hz := D.zeta
  have hlab : ∀ u, S.IsLabel u → S'.IsLabel u := fun u hu => D.isLabel_iff.2 hu
  let κ : Int → A := fun u => if u = f then -κ' p - κ' q else if u = inv f then κ' p + κ' q else κ' u
  have k1 : κ f = -κ' p - κ' q := if_pos rfl
  have k2 : κ (inv f) = κ' p + κ' q := by
    show (if inv f = f then _ else _) = _
    rw [if_neg (inv_ne f), if_pos rfl]
  have k3 : ∀ u, u ≠ f → u ≠ inv f → κ u = κ' u := by
    intro u h1 h2
    show (if u = f then _ else _) = _
    rw [if_neg h1, if_neg h2]
  have hpqrs : κ' p + κ' q + κ' r + κ' s = 0 := by
    have t1 := h.sum _ _ _ D.t1
    have t2 := h.sum _ _ _ D.t2
    have le : S'.IsLabel ε := (D.hT.label_of_glues D.t1).1
    rw [h.flip ε le] at t2
    have : κ' p + κ' q + κ' r + κ' s = (κ' ε + κ' s + κ' p) + (-κ' ε + κ' q + κ' r) := by abel
    rw [this, t1, t2, add_zero]
  have ne := D.ne
  refine ⟨κ, ⟨?_, ?_⟩, k3⟩
  · intro x hx
    by_cases h1 : x = f
    · rw [h1, k1, k2]; abel
    · by_cases h2 : x = inv f
      · rw [h2, inv_inv, k1, k2]; abel
      · rw [k3 x h1 h2, k3 (inv x) (fun k => h2 (inv_eq_iff.1 k)) (fun k => h1 (inv_inj.1 k)), h.flip x (hlab x hx)]
  · have key : ∀ x y z, S.Glues x y z → (x = f ∨ x = inv f) → κ x + κ y + κ z = 0 := by
      intro x y z hg hx
      rcases hx with rfl | rfl
      · obtain ⟨rfl, rfl⟩ := D.hS.glues_unique hg D.s1
        rw [k1, k3 _ (ne y (by simp)).1 (ne y (by simp)).2, k3 _ (ne z (by simp)).1 (ne z (by simp)).2]; abel
      · obtain ⟨rfl, rfl⟩ := D.hS.glues_unique hg D.s2
        rw [k2, k3 _ (ne y (by simp)).1 (ne y (by simp)).2, k3 _ (ne z (by simp)).1 (ne z (by simp)).2]; exact hpqrs
    intro x y z hg
    by_cases hx : x = f ∨ x = inv f
    · exact key x y z hg hx
    by_cases hy : y = f ∨ y = inv f
    · have := key y z x hg.rot hy
      rw [← this]; abel
    by_cases hz' : z = f ∨ z = inv f
    · have := key z x y hg.rot.rot hz'
      rw [← this]; abel
    push Not at hx hy hz'
    rw [k3 x hx.1 hx.2, k3 y hy.1 hy.2, k3 z hz'.1 hz'.2]
    refine h.sum _ _ _ (D.kept x y z hg ?_)
    intro u hu
    simp only [List.mem_cons, List.not_mem_nil, or_false] at hu
    rcases hu with rfl | rfl | rfl
    · exact hx
    · exact hy
    · exact hz'

variable {a b e d : Int} {rest X : List Int} {F F'' : Int → Int} {S'' : Triangulation} {ms : List LMove}

/-- cocycles at the end of a run of turns come from cocycles at the start -/
theorem Turns.pull (B : Base T a b e) (h : Turns T a b e d rest S F ms S'' F'') : ∀ {κ'' : Int → A}, S''.Cocycle κ'' → ∃ κ : Int → A, S.Cocycle κ ∧ κ a = κ'' a ∧
    (∀ y, T.Left a e y → κ (F (hat b e y)) = κ'' (F'' (hat b e y)) + ((((d :: rest).dropLast.count y : Nat) : Int) - (rest.count (inv y) : Nat)) • κ'' a) ∧
    ∀ x y : Hom, x.WellFormed → x.tri = S → performHom ms x = .ok y → pair S.zeta x.v κ = pair S.zeta y.v κ'' := by
  induction h with
  | nil d S F hs =>
    intro κ'' hκ
    refine ⟨κ'', hκ, rfl, ?_, ?_⟩
    · intro y _; simp
    · intro x y _ _ hp; cases hp; rfl
  | cons d d' p ε rest S S' S'' F F' F'' ms hs hld hld' hg hf hm ht g1 g2 hr ih =>
    intro κ'' hκ
    obtain ⟨κ', c1, c2, c3, c4⟩ := ih hκ
    obtain ⟨ε', p', q', r', s', D⟩ := hf.flipData hs.valid hm
    obtain ⟨κ, k1, k2⟩ := D.extend c1
    have hz : S'.zeta = S.zeta := hm.zeta
    have hs' := hr.slid
    have lb := B.labels
    have hd := B.hat_label hld
    have hq := B.hat_label hld'
    have nd := B.hat_ne hld
    have nq := B.hat_ne hld'
    have ndq := B.comp.glues_ne hg
    -- labels away from the flipped edge
    have away : ∀ x, T.IsLabel x → x ≠ e → x ≠ hat b e d → κ (F x) = κ' (F x) := by
      intro x hx h1 h2
      refine k2 _ (fun k => h1 (hs.inj _ _ hx lb.2.2 k)) (fun k => h2 (hs.inj _ _ hx hd ?_))
      rw [k, hs.fe, inv_inv]
    have hka : κ a = κ' a := by
      have := away a lb.1 B.nes.2.2.symm nd.1.symm
      rwa [hs.fa] at this
    refine ⟨κ, k1, hka.trans c2, ?_, ?_⟩
    · intro y hy
      have hyl := B.hat_label hy
      have hyn := B.hat_ne hy
      have base : κ (F (hat b e y)) = κ' (F' (hat b e y)) + ((if y = d then 1 else 0) - (if inv y = d' then 1 else 0) : Int) • κ' a := by
        by_cases h1 : y = d
        · rw [h1] at *
          have hne : inv d ≠ d' := by
            intro k; apply ndq.2.2; rw [← k, inv_inv]
          rw [if_pos rfl, if_neg hne, sub_zero, one_smul, ht.at_d]
          have e1 : F (hat b e d) = inv (F e) := by rw [hs.fe, inv_inv]
          rw [e1, k1.flip _ (hs.maps e lb.2.2)]
          have := k1.sum _ _ _ g1
          rw [hka, away b lb.2.1 B.nes.2.1 nd.2.1.symm] at this
          rw [← sub_eq_zero, ← neg_eq_zero, ← this]; abel
        · by_cases h2 : inv y = d'
          · have hy' : y = inv d' := by rw [← h2, inv_inv]
            rw [if_neg h1, if_pos h2, zero_sub, neg_smul, one_smul]
            rw [hy'] at *
            rw [away _ hq nq.2.2 ndq.2.2, ← ht.at_e]
            have e2 : F' (hat b e (inv d')) = inv (F' b) := by rw [hs'.fb, inv_inv]
            rw [e2, c1.flip _ (hs'.maps b lb.2.1)]
            have := c1.sum _ _ _ (hs'.corner B)
            rw [← sub_eq_zero, ← this]; abel
          · rw [if_neg h1, if_neg h2, sub_zero, zero_smul, add_zero]
            have n1 : hat b e y ≠ hat b e d := fun k => h1 (B.hat_inj hy hld k)
            have n2 : hat b e y ≠ hat b e (inv d') := fun k => h2 (by rw [B.hat_inj hy hld' k, inv_inv])
            rw [away _ hyl hyn.2.2 n1, ht.other _ hyn.2.1 hyn.2.2 n1 n2]
      rw [base, c3 y hy, c2, add_assoc, ← add_smul]
      congr 2
      rw [List.dropLast_cons_cons, List.count_cons, List.count_cons]
      have e1 : (d == y) = decide (y = d) := by rw [Bool.beq_eq_decide_eq]; exact decide_eq_decide.2 eq_comm
      have e2 : (d' == inv y) = decide (inv y = d') := by rw [Bool.beq_eq_decide_eq]; exact decide_eq_decide.2 eq_comm
      rw [e1, e2]
      simp only [decide_eq_true_eq]
      by_cases k1 : y = d
      · by_cases k2 : inv y = d'
        · rw [if_pos k1, if_pos k2, if_pos k1, if_pos k2]; push_cast; omega
        · rw [if_pos k1, if_neg k2, if_pos k1, if_neg k2]; push_cast; omega
      · by_cases k2 : inv y = d'
        · rw [if_neg k1, if_pos k2, if_neg k1, if_pos k2]; push_cast; omega
        · rw [if_neg k1, if_neg k2, if_neg k1, if_neg k2]; push_cast; omega
    · intro x y hw hx hp
      simp only [performHom, py_bind_eq_ok] at hp
      obtain ⟨x1, hx1, hp⟩ := hp
      subst hx
      obtain ⟨x2, q1, q2, q3, q4⟩ := ef_applyHom hw hf hm
      cases q1.symm.trans hx1
      rw [k1.flipped hw rfl hf q4 (fun u _ h1 h2 => k2 u h1 h2), ← hz]
      exact c4 x1 y q3 q2 hp

/-- isometries move cocycles -/
theorem IsIsometry.pair {G : Int → Int} (hG : S.IsIsometry T G) {κ : Int → A} (h : T.Cocycle κ) {x y : Hom} (ht : x.tri = S) (hm : x.MapsTo G y) :
    pair T.zeta y.v κ = pair S.zeta x.v (fun u => κ (G u)) := by
  have hz := hG.zeta
  have hval : ∀ i : Nat, i < S.zeta → x.v (i : Int) • κ (G i) = y.v ((norm (G i)).toNat : Int) • κ ((norm (G i)).toNat : Int) := by
    intro i hi
    have hl : S.IsLabel (i : Int) := isLabel_nat.2 hi
    have hgl := hG.maps _ hl
    rw [← hm.2 i (ht ▸ hl)]
    rcases lt_or_ge (G i) 0 with h0 | h0
    · rw [norm_of_neg h0]
      have : ((inv (G i)).toNat : Int) = inv (G i) := Int.toNat_of_nonneg (by unfold inv; omega)
      rw [this, Hom.v_inv, h.flip _ hgl, neg_smul, smul_neg, neg_neg]
    · rw [norm_of_nonneg h0, Int.toNat_of_nonneg h0]
  unfold Triangulation.pair
  symm
  have hinj : ∀ i ∈ Finset.range S.zeta, ∀ j ∈ Finset.range S.zeta, (norm (G (i : Int))).toNat = (norm (G (j : Int))).toNat → i = j := by
    intro i hi j hj hij
    have li : S.IsLabel (i : Int) := isLabel_nat.2 (Finset.mem_range.1 hi)
    have lj : S.IsLabel (j : Int) := isLabel_nat.2 (Finset.mem_range.1 hj)
    have : G i = G j ∨ G i = inv (G j) := by
      unfold norm at hij
      unfold inv at *
      omega
    rcases this with k | k
    · have := hG.inj _ _ li lj k; omega
    · rw [← hG.inverts _ lj] at k
      have := hG.inj _ _ li (isLabel_inv.2 lj) k
      unfold inv at this; omega
  have hmaps : ∀ i ∈ Finset.range S.zeta, (norm (G (i : Int))).toNat ∈ Finset.range T.zeta := by
    intro i hi
    exact Finset.mem_range.2 (idx_lt (hG.maps _ (isLabel_nat.2 (Finset.mem_range.1 hi))))
  refine Finset.sum_nbij (fun i : Nat => (norm (G (i : Int))).toNat) hmaps (fun i hi j hj => hinj i hi j hj) ?_ (fun i hi => hval i (Finset.mem_range.1 hi))
  exact Finset.surjOn_of_injOn_of_card_le _ (fun i hi => hmaps i hi) (fun i hi j hj => hinj i hi j hj) (by simp [hz])

theorem IsIsometry.cocycle {G : Int → Int} (hG : S.IsIsometry T G) {κ : Int → A} (h : T.Cocycle κ) : S.Cocycle (fun u => κ (G u)) := by
  refine ⟨?_, ?_⟩
  · intro x hx
    show κ (G (inv x)) = _
    rw [hG.inverts x hx, h.flip _ (hG.maps x hx)]
  · intro x y z hg
    exact h.sum _ _ _ (hG.glues _ _ _ hg)

/-- folding away the triangle, with signs -/
theorem Loop.signed_fold (h : Loop T a b e X) {y : Int} (hy : T.Left a e y) :
    ((X.count (hat b e y) : Nat) : Int) - (X.count (inv (hat b e y)) : Nat) = ((fold e X).count y : Nat) - ((fold e X).count (inv y) : Nat) := by
  obtain ⟨X', hX⟩ := h.sweep.first h.valid.comp h.glues h.ne_nil
  have hf : ∀ z, z ≠ e → z ≠ inv e → (fold e X).count z = X.count z := by
    intro z h1 h2
    unfold fold
    rw [List.count_filter (by simpa using h1), hX, List.tail_cons, List.count_cons_of_ne (Ne.symm h2)]
  have hiy : inv y ≠ e := fun k => hy.ni (inv_eq_iff.1 k)
  have hiy' : inv y ≠ inv e := fun k => hy.ne (inv_inj.1 k)
  rw [hf y hy.ne hy.ni, hf _ hiy hiy']
  by_cases hb : y = b
  · subst hb
    rw [Base.hat_b, inv_inv, h.count_ie, h.count_b, ← h.count_e]
  · rw [Base.hat_of_ne hb]

/-- the chain crosses the curve this often -/
def crossed (X : List Int) (x : Int → Int) : Int := (X.map x).sum

theorem pair_counts (X : List Int) (hX : ∀ x ∈ X, T.IsLabel x) {x : Int → Int} (hx : ∀ u, x (inv u) = -x u) (α : A) :
    pair T.zeta x (fun u => ((X.count u : Nat) - (X.count (inv u) : Nat) : Int) • α) = crossed X x • α := by
  induction X with
  | nil => simp [pair, crossed]
  | cons z X ih =>
    have key : pair T.zeta x (fun u => ind1 u z • α) = x z • α := by
      have hz : T.IsLabel z := hX z (by simp)
      have e1 : pair T.zeta x (fun u => ind1 u z • α) = pair T.zeta (ind1 z) (fun u => x u • α) := by
        refine Finset.sum_congr rfl (fun i _ => ?_)
        have : ind1 (i : Int) z = ind1 z (i : Int) := by
          unfold ind1 inv
          split_ifs <;> omega
        show x i • ind1 (i : Int) z • α = ind1 z i • x i • α
        rw [this, smul_smul, smul_smul, mul_comm]
      rw [e1]
      exact pair_ind (κ := fun u => x u • α) (fun u _ => by rw [hx, neg_smul]) hz
    have e2 : (fun u => (((z :: X).count u : Nat) - ((z :: X).count (inv u) : Nat) : Int) • α) =
        fun u => ((X.count u : Nat) - (X.count (inv u) : Nat) : Int) • α + ind1 u z • α := by
      funext u
      rw [← add_smul]
      congr 1
      rw [List.count_cons, List.count_cons]
      simp only [beq_iff_eq]
      unfold ind1
      push_cast
      ring
    rw [e2, pair_add_right, ih (fun y hy => hX y (by simp [hy])), key, ← add_smul]
    congr 1
    simp [crossed, add_comm]

/-- the pairing of the image under the twist -/
theorem Loop.pairing (h : Loop T a b e X) {ms S F G m k} (hD : Loop.Data T a b e X ms S F G m) (hk : Loop.Twists T ms m k) {κ : Int → A} (hκ : T.Cocycle κ)
    {x y : Hom} (hx : x.WellFormed) (ht : x.tri = T) (hy : k.applyHom x = .ok y) : pair T.zeta y.v κ = pair T.zeta x.v κ + crossed X x.v • κ a := by
  have B := h.fan.base
  obtain ⟨i, i1, i2⟩ := hD.legal.isometry_acts hD.back
  have hG : S.IsIsometry T G := hD.back.choose_spec.2.2.2.2
  obtain ⟨κ0, c1, c2, c3, c4⟩ := hD.turns.pull B (hG.cocycle hκ)
  -- the chain
  obtain ⟨w, w1, w2, w3⟩ := hD.turns.path.performHom hx ht
  rw [hk.hom x hx ht, w1, py_bind_ok, i1] at hy
  obtain ⟨y', y1, y2, y3⟩ := i2.applyHom hG w3 w2
  cases y1.symm.trans hy
  rw [hG.pair hκ w2 y3, ← hG.zeta, ← c4 x w hx ht w1]
  -- the cocycle
  have ka : κ (G a) = κ a := by
    have := hD.gf a B.labels.1
    rw [hD.turns.last.fa] at this
    rw [this]
  rw [ka] at c2
  have left : ∀ y, T.Left a e y → κ0 (hat b e y) = κ (hat b e y) + ((X.count (hat b e y) : Nat) - (X.count (inv (hat b e y)) : Nat) : Int) • κ a := by
    intro y hy
    have := c3 y hy
    rw [hD.gf _ (B.hat_label hy), ka, h.fan.rotated.count_eq] at this
    rw [this, h.signed_fold hy]
  have all : ∀ x, T.IsLabel x → κ0 x = κ x + ((X.count x : Nat) - (X.count (inv x) : Nat) : Int) • κ a := by
    have neg : ∀ x, T.IsLabel x → κ0 (inv x) = κ (inv x) + ((X.count (inv x) : Nat) - (X.count (inv (inv x)) : Nat) : Int) • κ a →
        κ0 x = κ x + ((X.count x : Nat) - (X.count (inv x) : Nat) : Int) • κ a := by
      intro x hx hi
      rw [c1.flip x hx, hκ.flip x hx, inv_inv] at hi
      rw [← neg_neg (κ0 x), hi, ← neg_sub ((X.count x : Nat) : Int), neg_smul]; abel
    intro x hx
    by_cases h1 : x = a
    · rw [h1, c2, h.count_a, h.count_ia]; simp
    by_cases h2 : x = b
    · rw [h2]
      refine neg b B.labels.2.1 ?_
      have := left (inv b) B.left_inv_b
      rwa [Base.hat_of_ne (inv_ne b)] at this
    by_cases h3 : x = e
    · rw [h3]
      refine neg e B.labels.2.2 ?_
      have := left b B.left_b
      rwa [Base.hat_b] at this
    obtain ⟨y, hy, rfl⟩ := B.exists_hat hx ⟨h1, h2, h3⟩
    exact left y hy
  rw [← pair_counts X (h.sweep.labels h.valid.comp) (fun u => Hom.v_inv x u), ← pair_add_right]
  exact pair_congr (fun i hi _ => all i (isLabel_nat.2 hi))

/-- chains with the same pairings are homologous -/
theorem homologous_of_pair (hT : T.Complete) {x y : Hom} (hx : x.tri = T) (hy : y.tri = T)
    (h : ∀ (A : Type) [AddCommGroup A] (κ : Int → A), T.Cocycle κ → pair T.zeta x.v κ = pair T.zeta y.v κ) : x.Homologous y := by
  let N : AddSubgroup (Int → Int) :=
    { carrier := {z | T.NullHomologous z}
      add_mem' := fun ha hb => ha.add hb
      zero_mem' := NullHomologous.zero
      neg_mem' := fun ha => ha.neg }
  have hκ : T.Cocycle (fun u => (QuotientAddGroup.mk (ind1 u) : (Int → Int) ⧸ N)) := by
    refine ⟨?_, ?_⟩
    · intro u _
      show (QuotientAddGroup.mk (ind1 (inv u)) : (Int → Int) ⧸ N) = -QuotientAddGroup.mk (ind1 u)
      rw [← QuotientAddGroup.mk_neg]
      congr 1
      funext z
      show ind1 (inv u) z = -ind1 u z
      unfold ind1; rw [inv_inv]; ring
    · intro u v w hg
      show (QuotientAddGroup.mk (ind1 u) : (Int → Int) ⧸ N) + QuotientAddGroup.mk (ind1 v) + QuotientAddGroup.mk (ind1 w) = 0
      rw [← QuotientAddGroup.mk_add, ← QuotientAddGroup.mk_add, QuotientAddGroup.eq_zero_iff]
      have hl := hT.label_of_glues hg
      have := nullHomologous_bdry hT hl.1
      have e1 := hT.glues_unique (hT.glues_nxt hl.1) hg
      unfold bdry at this
      rw [e1.1] at this
      have e2 := hT.glues_unique (hT.glues_nxt hl.2.1) hg.rot
      rw [e2.1] at this
      exact this
  have key : ∀ z : Hom, pair T.zeta z.v (fun u => (QuotientAddGroup.mk (ind1 u) : (Int → Int) ⧸ N)) = QuotientAddGroup.mk (fun u => pair T.zeta z.v (fun w => ind1 w u)) := by
    intro z
    have : (fun u => pair T.zeta z.v (fun w => ind1 w u)) = ∑ i ∈ Finset.range T.zeta, z.v (i : Int) • ind1 (i : Int) := by
      funext u
      rw [Finset.sum_apply]; rfl
    rw [this]
    unfold pair
    rw [QuotientAddGroup.mk_sum]
    rfl
  have val : ∀ (z : Hom) u, T.IsLabel u → pair T.zeta z.v (fun w => ind1 w u) = z.v u := by
    intro z u hu
    have e1 : pair T.zeta z.v (fun w => ind1 w u) = pair T.zeta (ind1 u) z.v := by
      refine Finset.sum_congr rfl (fun i _ => ?_)
      have : ind1 (i : Int) u = ind1 u (i : Int) := by
        unfold ind1 inv
        split_ifs <;> omega
      show z.v i • ind1 (i : Int) u = ind1 u i • z.v i
      rw [this, smul_eq_mul, smul_eq_mul, mul_comm]
    rw [e1]
    exact pair_ind (fun w _ => Hom.v_inv z w) hu
  have := h _ _ hκ
  rw [key, key, QuotientAddGroup.eq] at this
  refine ⟨hx.trans hy.symm, ?_⟩
  rw [hx]
  refine NullHomologous.congr (NullHomologous.neg this) (fun u hu => ?_)
  show -(-(pair T.zeta x.v (fun w => ind1 w u)) + pair T.zeta y.v (fun w => ind1 w u)) = _
  rw [val x u hu, val y u hu]; ring

/-- the chain with `n` copies of the curve for each crossing, pushed onto the edge `a` -/
theorem Loop.exists_added (h : Loop T a b e X) (n : Int) (x : HomOn T) : ∃ y : HomOn T, subAt x.1.algebraic a (-(n * crossed X x.1.v)) = .ok y.1.algebraic ∧
    ∀ u, y.1.v u = x.1.v u + n * crossed X x.1.v * ind1 a u := by
  have hl : (norm a).toNat < x.1.algebraic.length := by
    rw [x.2.1.2, x.2.2]; exact idx_lt h.sweep.label
  obtain ⟨g, g1, g2, g3⟩ := subAt_ok (-(n * crossed X x.1.v)) hl
  refine ⟨⟨⟨T, g⟩, ⟨h.valid, by rw [g2, x.2.1.2, x.2.2]⟩, rfl⟩, g1, ?_⟩
  intro u
  show gv g u = _
  rw [g3]
  show x.1.v u - _ = _
  ring

/-- the chain with `n` copies of the curve for each crossing -/
noncomputable def Loop.added (h : Loop T a b e X) (n : Int) (x : HomOn T) : HomOn T := (h.exists_added n x).choose

theorem Loop.added_v (h : Loop T a b e X) (n : Int) (x : HomOn T) (u : Int) : (h.added n x).1.v u = x.1.v u + n * crossed X x.1.v * ind1 a u :=
  (h.exists_added n x).choose_spec.2 u

theorem Loop.added_subAt (h : Loop T a b e X) (n : Int) (x : HomOn T) : subAt x.1.algebraic a (-(n * crossed X x.1.v)) = .ok (h.added n x).1.algebraic :=
  (h.exists_added n x).choose_spec.1

theorem Loop.crossed_added (h : Loop T a b e X) (n : Int) (x : HomOn T) : crossed X (h.added n x).1.v = crossed X x.1.v := by
  unfold crossed
  congr 1
  apply List.map_congr_left
  intro u hu
  have h1 : u ≠ a := fun k => h.a_notin (k ▸ hu)
  have h2 : u ≠ inv a := fun k => h.sweep.notin (k ▸ hu)
  rw [h.added_v]
  unfold ind1
  rw [if_neg h1, if_neg h2]; ring

theorem Loop.added_add (h : Loop T a b e X) (n m : Int) (x : HomOn T) : h.added n (h.added m x) = h.added (n + m) x := by
  apply Subtype.ext
  refine Hom.ext_v ((h.added n (h.added m x)).2.2.trans (h.added (n + m) x).2.2.symm) ?_ ?_
  · rw [(h.added n (h.added m x)).2.1.2, (h.added (n + m) x).2.1.2, (h.added n (h.added m x)).2.2, (h.added (n + m) x).2.2]
  · intro u
    rw [h.added_v, h.crossed_added, h.added_v, h.added_v]; ring

theorem Loop.added_zero (h : Loop T a b e X) (x : HomOn T) : h.added 0 x = x := by
  apply Subtype.ext
  refine Hom.ext_v ((h.added 0 x).2.2.trans x.2.2.symm) ?_ ?_
  · rw [(h.added 0 x).2.1.2, x.2.1.2, (h.added 0 x).2.2, x.2.2]
  · intro u; rw [h.added_v]; ring

/-- on homology the twist adds the curve once for each crossing -/
theorem Loop.hom (h : Loop T a b e X) {ms S F G m k} (hD : Loop.Data T a b e X ms S F G m) (hk : Loop.Twists T ms m k) (x : HomOn T) {y : Hom} (hy : k.applyHom x.1 = .ok y) :
    y.Homologous (h.added 1 x).1 := by
  have hys : y.WellFormed ∧ y.tri = k.target := hk.legal.applyHom_ok x.2.1 hy
  refine homologous_of_pair h.valid.comp (hys.2.trans hk.target) (h.added 1 x).2.2 ?_
  intro A _ κ hκ
  rw [h.pairing hD hk hκ x.2.1 x.2.2 hy]
  have : (h.added 1 x).1.v = fun u => x.1.v u + crossed X x.1.v * ind1 a u := by
    funext u; rw [h.added_v, one_mul]
  rw [this, pair_add, pair_smul, pair_ind hκ.flip h.sweep.label]

end Triangulation

namespace Twist.Made
variable {P : Lam Int → Py LamClass} {t : Twist} {a b e : Int} {X v : List Int} {K : Lam Int}

theorem applyHom (h : Made P t a b e X v K) (x : HomOn t.curve.tri) : t.applyHom P x.1 = .ok (h.short.loop.added t.power x).1 := by
  have hl : ∀ u ∈ X, x.1.val u = .ok (x.1.v u) := by
    intro u hu
    refine Hom.val_eq x.2.1 ?_
    rw [x.2.2]; exact h.short.loop.sweep.labels h.short.loop.valid.comp u hu
  have hl' : (norm a).toNat < x.1.algebraic.length := by
    rw [x.2.1.2, x.2.2]; exact idx_lt h.short.loop.sweep.label
  unfold Twist.applyHom
  rw [h.par, py_bind_ok, h.short.around.around (L := t.curve) rfl, py_bind_ok]
  rw [List.drop_one, List.tail_cons, mapM_ok hl, py_bind_ok, pyGet_ok hl', py_bind_ok]
  have := h.short.loop.added_subAt t.power x
  unfold subAt at this
  rw [pyGet_ok hl', py_bind_ok] at this
  rw [show ∀ y : Int, y + sign a * t.power * (X.map x.1.v).sum = y - sign a * -(t.power * crossed X x.1.v) from fun y => by unfold crossed; ring]
  rw [this, py_bind_ok]
  have h2 := (h.short.loop.added t.power x).2
  unfold Hom.create
  rw [h2.1.2, h2.2]
  simp only [beq_self_eq_true, pyAssert, if_true, py_bind_ok]
  have : (h.short.loop.added t.power x).1 = ⟨(h.short.loop.added t.power x).1.tri, (h.short.loop.added t.power x).1.algebraic⟩ := rfl
  rw [this, h2.2]
  rfl

/-- the power of the encoding acts on homology as the twist says -/
theorem hom (h : Made P t a b e X v K) : ∃ g, t.flipMapping = .ok g ∧ ∀ x : HomOn t.curve.tri, ∃ z, g.applyHom x.1 = .ok z ∧ z.Homologous (h.short.loop.added t.power x).1 := by
  obtain ⟨ms, S, F, G, m, hD, hk⟩ := h.built
  obtain ⟨τ, h1, h2⟩ := C16_powers_homology t.encoding hk.legal hk.kind
  have hs := hk.source
  obtain ⟨p, p1, p2, _⟩ := h2 t.power
  refine ⟨p, p1, ?_⟩
  have key : ∀ (T : Triangulation) (hT : t.encoding.source = T) (L : Loop T a b e X) (hD : Loop.Data T a b e X ms S F G m) (hk : Loop.Twists T ms m t.encoding) (x : HomOn T),
      ∃ z, p.applyHom x.1 = .ok z ∧ z.Homologous (L.added t.power x).1 := by
    intro T hT L hD hk
    subst hT
    have one : ∀ x, τ x.cls = (L.added 1 x).cls := by
      intro x
      obtain ⟨y, y1, y2⟩ := h1 x
      rw [y2, HomOn.cls_eq_iff]
      exact L.hom hD hk x y1
    have pow : ∀ (n : Nat) x, (τ ^ n) x.cls = (L.added n x).cls := by
      intro n
      induction n with
      | zero => intro x; rw [Nat.cast_zero, L.added_zero]; rfl
      | succ n ih => intro x; rw [pow_succ, Equiv.Perm.mul_apply, one, ih, L.added_add]; rfl
    have zpow : ∀ (n : Int) x, (τ ^ n) x.cls = (L.added n x).cls := by
      intro n
      rcases le_or_gt 0 n with hn | hn
      · obtain ⟨k, rfl⟩ := Int.eq_ofNat_of_zero_le hn
        intro x; rw [zpow_natCast]; exact pow k x
      · obtain ⟨k, hk⟩ := Int.eq_ofNat_of_zero_le (a := -n) (by omega)
        intro x
        have : n = -(k : Int) := by omega
        rw [this, zpow_neg, zpow_natCast]
        have := pow k (L.added (-(k : Int)) x)
        rw [L.added_add, show (k : Int) + -(k : Int) = 0 by ring, L.added_zero] at this
        rw [← this]
        exact Loop.perm_inv_apply _ _
    intro x
    obtain ⟨y, y1, y2⟩ := p2 x
    refine ⟨y.1, y1, ?_⟩
    rw [← HomOn.cls_eq_iff, ← y2, zpow]
  exact key _ hs h.short.loop hD hk

end Twist.Made
end Curver
