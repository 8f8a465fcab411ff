import Verif.Proofs.UnionLink
import Verif.Proofs.UnionList

/-!
# What `parallel_components` and `peripheral_components` find, in terms of parts
-/

namespace Curver
open Triangulation
namespace Lam
variable {L N M : Lam Int} {f β η : Int} {X v : List Int} {a k : Int}

theorem lefts_ok (hL : L.Consistent) {l : List Int} (hl : ∀ x ∈ l, L.tri.IsLabel x) : l.mapM L.leftWeight = .ok (l.map L.lf) := by
  induction l with
  | nil => rfl
  | cons x l ih =>
    rw [List.mapM_cons, hL.left (hl x (by simp)), py_bind_ok, ih (fun y hy => hl y (by simp [hy]))]
    rfl

theorem aroundWeight_ok (hL : L.Consistent) (hl : Loop L.tri f β η X) : ∃ m, L.aroundWeight (f :: X) = .ok m ∧ 0 ≤ m ∧ (∀ x ∈ f :: X, m ≤ max (L.lf x) 0) ∧ ∃ x ∈ f :: X, m = max (L.lf x) 0 := by
  unfold Lam.aroundWeight
  rw [lefts_ok hL (fun x hx => hl.label_mem hx), py_bind_ok]
  obtain ⟨m, h1, h2, h3, x, h4, h5⟩ := maximin_zero (l := (f :: X).map L.lf) (by simp)
  obtain ⟨y, hy, rfl⟩ := List.mem_map.1 h4
  exact ⟨m, h1, h2, fun x hx => h3 _ (List.mem_map_of_mem hx), y, hy, h5⟩

theorem twistingWeight_ok (hL : L.Consistent) (hl : Loop L.tri f β η X) (m : Int) : ∃ t, L.twistingWeight (f :: X) m = .ok t ∧ 0 ≤ t ∧ (∀ x ∈ X, x ≠ β → t ≤ max (L.lf x - m) 0) ∧
    ∃ x ∈ X, x ≠ β ∧ t = max (L.lf x - m) 0 := by
  unfold Lam.twistingWeight middle
  rw [List.drop_one, List.tail_cons, lefts_ok hL (fun x hx => hl.label_mem (by simp [List.dropLast_subset _ hx])), py_bind_ok]
  obtain ⟨t, h1, h2, h3, x, h4, h5⟩ := maximin_zero (l := (X.dropLast.map L.lf).map (fun w => w - m)) (fun h => hl.dropLast_ne_nil (List.map_eq_nil_iff.1 (List.map_eq_nil_iff.1 h)))
  rw [List.map_map] at h4 h3
  obtain ⟨y, hy, rfl⟩ := List.mem_map.1 h4
  refine ⟨t, h1, h2, fun x hx hb => h3 _ (List.mem_map.2 ⟨x, hl.mem_dropLast.2 ⟨hx, hb⟩, rfl⟩), y, (hl.mem_dropLast.1 hy).1, (hl.mem_dropLast.1 hy).2, h5⟩

/-- what the loop finds -/
theorem parallelCurve_belt (hL : L.Consistent) (hf : L.tri.IsLabel f) {K : Lam Int} (h : L.parallelCurve f = .ok (some (K, k))) :
    0 < k ∧ ∃ β η X a, K = L.tri.curveFromCutSequence X ∧ L.Belt f β η X a k ∧ ∃ x ∈ X, x ≠ β ∧ L.lf x = a + k := by
  obtain ⟨hk, X, v, hA, hX, hK, m, m1, m2, m3, m4⟩ := parallelCurve_some hL.1.1.comp hf h
  obtain ⟨β, η, hl⟩ := hA.loop hL.1.1 hf hX
  obtain ⟨m', p1, p2, p3, p4⟩ := aroundWeight_ok hL hl
  rw [m1] at p1
  cases p1
  obtain ⟨t, q1, q2, q3, x, q4, q5, q6⟩ := twistingWeight_ok hL hl m
  rw [m2] at q1
  cases q1
  refine ⟨hk, β, η, X, m, hK, ⟨hL, hl, lf_eq m3, ?_, p2, ?_⟩, x, q4, q5, by omega⟩
  · refine lf_eq (m4 β ?_)
    rw [hl.sweep.eq_concat hl.valid.comp hl.glues hl.ne_nil]; simp
  · intro x hx hb
    have := q3 x hx hb
    omega

/-- and it finds it -/
theorem Belt.found (h : L.Belt f β η X a k) (hk : 0 < k) : ∃ k', k ≤ k' ∧ L.parallelCurve f = .ok (some (L.tri.curveFromCutSequence X, k')) := by
  have hl := h.loop
  obtain ⟨v, hA⟩ := hl.sweep.exists_around hl.valid.comp
  obtain ⟨m, p1, p2, p3, x, p4, p5⟩ := aroundWeight_ok h.con hl
  have hm : m = a := by
    have h1 := p3 f (by simp)
    rw [h.first] at h1
    have h0 := h.nonneg
    rcases List.mem_cons.1 p4 with rfl | q
    · rw [h.first] at p5; omega
    · by_cases q' : x = β
      · subst q'; rw [h.last] at p5; omega
      · have := h.room x q q'; omega
  subst hm
  obtain ⟨t, q1, q2, q3, y, q4, q5, q6⟩ := twistingWeight_ok h.con hl m
  have hr := h.room y q4 q5
  refine ⟨t, by omega, ?_⟩
  have h1 : L.leftWeight f = .ok m := by rw [← h.first]; exact h.con.left hl.sweep.label
  have h2 : L.leftWeight β = .ok m := by rw [h.con.left (hl.label_mem (x := β) (by simp [hl.b_mem])), h.last]
  have hlast : (f :: X).getLast? = some β := by
    have : X.getLast? = some β := by
      rw [hl.sweep.eq_concat hl.valid.comp hl.glues hl.ne_nil]; simp
    rw [List.getLast?_cons, this]
    rfl
  unfold Lam.parallelCurve
  rw [hA.tail, py_bind_ok, hA.head, py_bind_ok, if_pos rfl, hA.around rfl, py_bind_ok, if_pos (by have := hl.two; simp; omega), p1, py_bind_ok, q1, py_bind_ok, hlast]
  simp only [List.head?_cons, h1, h2, py_bind_ok, if_true, hA.edgeCurve]
  rw [if_pos (by omega)]
  rfl

/-- a part around the edge -/
theorem belt_of_part (hL : L.Consistent) (hl : Loop L.tri f β η X) (h : L.IsUnion (L.tri.curveFromCutSequence X) N) : ∃ a, L.Belt f β η X a 1 := by
  have hC := loop_consistent hl
  have hlab : ∀ x ∈ X, L.tri.IsLabel x := fun x hx => hl.label_mem (by simp [hx])
  obtain ⟨red, c1, c2, -⟩ := h
  have hfirst : 0 < Nat.count (fun t => red (inv η) t = true) (L.w (inv η)).natAbs := by
    rw [← c2.abs (hlab _ hl.inv_e_mem), curve_cn X (hlab _ hl.inv_e_mem), cn_inv, hl.cn_e]
    omega
  obtain ⟨p, p1, p2, p3⟩ := count_nth_exists hfirst
  have step : ∀ x ∈ X, x ≠ β → red x p = true → Nat.count (fun t => red x t = true) p = 0 → (p : Int) + 1 ≤ L.lf x ∧ red (L.tri.spin x) p = true ∧ Nat.count (fun t => red (L.tri.spin x) t = true) p = 0 := by
    intro x hx hb r1 r2
    obtain ⟨y, z, hg⟩ := hl.valid.comp.exists_glues (hlab x hx)
    have h1 : 1 ≤ (L.tri.curveFromCutSequence X : Lam Int).lf x := by
      by_cases q : x = η
      · subst q
        rw [hl.lf_e hC, hl.cn_e]; omega
      · rw [hl.lf_other hC (hlab x hx) (by rintro rfl; exact hl.a_notin hx) hb q, List.count_eq_one_of_mem hl.nodup hx]
        rfl
    have s := (hC.strand_iff (x := x) (y := y) (z := z) hg (t := 0) le_rfl).2 (by omega)
    obtain ⟨t, t1, t2, t3, t4, t5⟩ := c2.up hL c1 hg (s := 0) s.1 s.2.1 s.2.2
    have e : t = p := count_inj t1 r1 (by rw [t3, r2])
    subst e
    rw [Sweep.spin_eq hl.valid.comp hg]
    exact ⟨(hL.strand_iff hg (by omega)).1 t5, t2, t4⟩
  have all : ∀ x ∈ X, red x p = true ∧ Nat.count (fun t => red x t = true) p = 0 := by
    have hch := hl.sweep.chain
    obtain ⟨X', hX⟩ := hl.sweep.first hl.valid.comp hl.glues hl.ne_nil
    have ind : ∀ (l : List Int), (∀ x ∈ l, x ∈ X) → ∀ (a : Int), a ∈ X → List.IsChain (fun x y => y = L.tri.spin x) (a :: (l ++ [inv f])) →
        red a p = true ∧ Nat.count (fun t => red a t = true) p = 0 → ∀ x ∈ a :: l, red x p = true ∧ Nat.count (fun t => red x t = true) p = 0 := by
      intro l
      induction l with
      | nil => intro _ a ha _ h0 x hx; rw [List.mem_singleton.1 hx]; exact h0
      | cons c l ih =>
        intro hsub a ha hch h0 x hx
        rw [List.cons_append, List.isChain_cons_cons] at hch
        have hcX := hsub c (by simp)
        have hab : a ≠ β := by
          rintro rfl
          have := Sweep.spin_eq hl.valid.comp hl.glues.rot
          rw [← hch.1] at this
          exact hl.sweep.notin (this ▸ hcX)
        rcases List.mem_cons.1 hx with rfl | hx
        · exact h0
        · refine ih (fun x hx => hsub x (by simp [hx])) c hcX hch.2 ?_ x hx
          rw [hch.1]
          exact (step a ha hab h0.1 h0.2).2
    rw [hX, List.cons_append, List.isChain_cons_cons] at hch
    intro x hx
    rw [hX] at hx
    exact ind X' (fun x hx => by rw [hX]; simp [hx]) (inv η) hl.inv_e_mem hch.2 ⟨p2, p3⟩ x hx
  -- the triangle next to the edge
  have lab := hl.valid.comp.label_of_glues hl.glues
  have hη : ((L.tri.curveFromCutSequence X : Lam Int).w η).natAbs = (cn X η).toNat := by rw [curve_cn X lab.2.2]; have := cn_nonneg X η; omega
  have hcn : 1 ≤ cn X η := by rw [hl.cn_e]; omega
  have hcb : cn X β = cn X η := by rw [hl.cn_e, hl.cn_b]
  have s := (hC.strand_iff (x := η) (y := f) (z := β) hl.glues.rot.rot (t := cn X η - 1) (by omega)).2 (by rw [hl.lf_e hC]; omega)
  have es : (((cn X η - 1).toNat : Nat) : Int) = cn X η - 1 := by omega
  rw [← es] at s
  obtain ⟨t, t1, t2, t3, t4, t5⟩ := c2.up hL c1 hl.glues.rot.rot s.1 s.2.1 s.2.2
  have hlf := (hL.strand_iff hl.glues.rot.rot (t := t) (by omega)).1 t5
  have e1 : t + p + 1 = (L.w η).natAbs := by
    obtain ⟨u, u1, u2, u3, u4, u5⟩ := c1.mirror c2 lab.2.2 (s := 0) (by rw [hη]; omega)
    have q1 : u = p := count_inj u2 (all _ hl.inv_e_mem).1 (by rw [u3, (all _ hl.inv_e_mem).2])
    have q2 : (L.w η).natAbs - 1 - u = t := count_inj u4 t1 (by rw [u5, t3, hη]; omega)
    omega
  have e2 : t + p + 1 = (L.w β).natAbs := by
    obtain ⟨u, u1, u2, u3, u4, u5⟩ := c1.mirror c2 (x := inv β) (isLabel_inv.2 lab.2.1) (s := 0) (by rw [w_inv, curve_cn X lab.2.1]; omega)
    rw [Curver.inv_inv] at u2 u3
    rw [w_inv] at u1 u4 u5
    rw [w_inv, curve_cn X lab.2.1] at u5
    have q1 : u = p := count_inj u2 (all _ hl.b_mem).1 (by rw [u3, (all _ hl.b_mem).2])
    have q2 : (L.w β).natAbs - 1 - u = t := count_inj u4 t2 (by rw [u5, t4]; omega)
    omega
  have tri := hL.lf_tri hl.glues
  have key : L.lf f = L.lf β ∧ 0 ≤ L.lf f ∧ L.lf f ≤ p := by
    have h1 := (hL.lf_le hl.glues.rot.rot (by omega))
    unfold TriDual at tri
    rcases tri with tri | tri | tri | tri <;> omega
  refine ⟨L.lf f, hL, hl, rfl, key.1.symm, key.2.1, ?_⟩
  intro x hx hb
  have := (step x hx hb (all x hx).1 (all x hx).2).1
  omega

/-- all the curves -/
theorem Belt.peels : ∀ (n : Nat) {L : Lam Int} {k : Int}, L.Belt f β η X a k → (n : Int) ≤ k → ∃ M, L.Peels (List.replicate n (L.tri.curveFromCutSequence X)) M ∧
    M.Belt f β η X a (k - n) ∧ M.tri = L.tri ∧ ∀ x, L.tri.IsLabel x → M.lf x = L.lf x - n * (L.tri.curveFromCutSequence X : Lam Int).lf x ∧ M.w x = L.w x - n * cn X x
  | 0, L, k, h, _ => ⟨L, .nil L, by simpa using h, rfl, fun x _ => by simp⟩
  | n + 1, L, k, h, hk => by
    obtain ⟨N, hN, hb⟩ := h.union (by omega)
    have ht := hN.wf.2.2.2
    obtain ⟨M, m1, m2, m3, m4⟩ := Belt.peels n hb (by push_cast at hk; omega)
    rw [ht] at m1 m3 m4
    refine ⟨M, .cons hN m1, by have e : k - 1 - (n : Int) = k - ((n + 1 : Nat) : Int) := by { push_cast; ring }
                               rwa [e] at m2, m3, ?_⟩
    intro x hx
    have e2 := hN.sum h.con.1 hx
    rw [curve_cn X hx] at e2
    rw [(m4 x hx).1, (m4 x hx).2, hN.lf h.con hx, e2]
    push_cast
    constructor <;> ring

/-- the curve that the loop finds occurs as often as it says -/
theorem Belt.count (h : L.Belt f β η X a k) (hk : 0 ≤ k) {x : Int} (hx : x ∈ X) (hb : x ≠ β) (hm : L.lf x = a + k) {Ys : List (Lam Int)} (hu : L.Unions Ys) (hc : ∀ Y ∈ Ys, Y.Connected) :
    ((Ys.map Lam.geometric).count (L.tri.curveFromCutSequence X : Lam Int).geometric : Int) = k := by
  obtain ⟨n, rfl⟩ := Int.eq_ofNat_of_zero_le hk
  obtain ⟨M, m1, m2, m3, m4⟩ := Belt.peels n h le_rfl
  rw [m1.count h.con (loop_connected h.loop) hu hc rfl]
  intro N hN
  have hl := h.loop
  obtain ⟨a', hb'⟩ := belt_of_part (N := N) m2.con m2.loop (by rw [m3]; exact hN)
  have e := hb'.first
  rw [m2.first] at e
  have r := hb'.room x hx hb
  rw [(m4 x (hl.label_mem (by simp [hx]))).1, hm, ← e] at r
  have h1 : 1 ≤ (L.tri.curveFromCutSequence X : Lam Int).lf x := by
    have hC := loop_consistent hl
    by_cases q : x = η
    · subst q
      rw [hl.lf_e hC, hl.cn_e]; omega
    · rw [hl.lf_other hC (hl.label_mem (by simp [hx])) (by rintro rfl; exact hl.a_notin hx) hb q, List.count_eq_one_of_mem hl.nodup hx]
      rfl
  have : (n : Int) * 1 ≤ n * (L.tri.curveFromCutSequence X : Lam Int).lf x := mul_le_mul_of_nonneg_left h1 (by omega)
  omega

end Lam
end Curver
