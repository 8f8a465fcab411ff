import Verif.Proofs.UnionBelt

/-!
# How often curves around a vertex and arcs occur
-/

namespace Curver
open Triangulation
namespace Lam
variable {L N M : Lam Int} {f : Int} {v : List Int} {k : Int}

theorem Hub.peels : ∀ (n : Nat) {L : Lam Int} {k : Int}, L.Hub v k → (n : Int) ≤ k → ∃ M, L.Peels (List.replicate n (L.tri.curveFromCutSequence v)) M ∧
    M.tri = L.tri ∧ M.Consistent ∧ ∀ x, L.tri.IsLabel x → M.lf x = L.lf x - n * v.count x ∧ M.w x = L.w x - n * (v.count x + v.count (inv x))
  | 0, L, k, h, _ => ⟨L, .nil L, rfl, h.con, fun x _ => by simp⟩
  | n + 1, L, k, h, hk => by
    obtain ⟨N, hN, hb⟩ := h.union (by omega)
    have ht := hN.wf.2.2.2
    obtain ⟨M, m1, m2, m3, m4⟩ := Hub.peels n hb (by push_cast at hk; omega)
    rw [ht] at m1 m2 m4
    refine ⟨M, .cons hN m1, m2, m3, ?_⟩
    intro x hx
    have e1 := hN.lf h.con hx
    have e2 := hN.sum h.con.1 hx
    rw [h.star.mult.2 x hx] at e1
    rw [link_w (T := L.tri) v hx] at e2
    rw [(m4 x hx).1, (m4 x hx).2, e1, e2]
    push_cast
    constructor <;> ring

theorem hub_of_part (hL : L.Consistent) (hv : L.tri.Star v) (h : L.IsUnion (L.tri.curveFromCutSequence v) N) {x : Int} (hx : x ∈ v) : 1 ≤ L.lf x := by
  obtain ⟨b1, b2, -⟩ := hv.basic
  obtain ⟨red, c1, c2, -⟩ := h
  obtain ⟨y, z, hg⟩ := hL.1.1.comp.exists_glues (b2 x hx)
  have s := (hv.mult.1.strand_iff (x := x) (y := y) (z := z) hg (t := 0) le_rfl).2 (by rw [hv.mult.2 x (b2 x hx), List.count_eq_one_of_mem b1 hx]; rfl)
  obtain ⟨t, t1, t2, t3, t4, t5⟩ := c2.up hL c1 hg (s := 0) s.1 s.2.1 s.2.2
  have := (hL.strand_iff hg (by omega)).1 t5
  omega

theorem Hub.count (h : L.Hub v k) (hk : 0 ≤ k) {x : Int} (hx : x ∈ v) (hm : L.lf x = k) {Ys : List (Lam Int)} (hu : L.Unions Ys) (hc : ∀ Y ∈ Ys, Y.Connected) :
    ((Ys.map Lam.geometric).count (L.tri.curveFromCutSequence v : Lam Int).geometric : Int) = k := by
  obtain ⟨n, rfl⟩ := Int.eq_ofNat_of_zero_le hk
  obtain ⟨M, m1, m2, m3, m4⟩ := Hub.peels n h le_rfl
  rw [m1.count h.con (link_connected h.star) hu hc rfl]
  intro N hN
  have := hub_of_part (L := M) (N := N) m3 (by rw [m2]; exact h.star) (by rw [m2]; exact hN) hx
  rw [(m4 x (h.star.basic.2.1 x hx)).1, List.count_eq_one_of_mem h.star.basic.1 hx, hm] at this
  omega

theorem arc_peels (hf : L.tri.IsLabel f) : ∀ (n : Nat) {M : Lam Int}, M.Consistent → M.tri = L.tri → M.w f ≤ -n → ∃ N, M.Peels (List.replicate n (L.tri.edgeArcOf f)) N ∧
    N.tri = L.tri ∧ N.Consistent ∧ ∀ x, L.tri.IsLabel x → N.w x = M.w x + if x = f ∨ x = inv f then (n : Int) else 0
  | 0, M, h, ht, _ => ⟨M, .nil M, ht, h, fun x _ => by simp⟩
  | n + 1, M, h, ht, hk => by
    obtain ⟨N, hN⟩ := arc_union (L := M) (f := f) h.1 (by push_cast at hk; omega)
    rw [ht] at hN
    have hN' := hN.wf.2.2.2
    have e := fun x hx => hN.sum h.1 (x := x) hx
    have e1 := e f (by rw [ht]; exact hf)
    rw [arc_w hf, if_pos (.inl rfl)] at e1
    obtain ⟨K, m1, m2, m3, m4⟩ := arc_peels hf n (hN.consistent h).2 (by rw [hN', ht]) (by push_cast at hk; omega)
    refine ⟨K, .cons hN m1, m2, m3, ?_⟩
    intro x hx
    have e2 := e x (by rw [ht]; exact hx)
    rw [arc_w hx] at e2
    rw [m4 x hx]
    split_ifs at e2 ⊢ <;> push_cast <;> omega

theorem arc_of_part (hf : L.tri.IsLabel f) (h : L.IsUnion (L.tri.edgeArcOf f) N) : L.w f < 0 := by
  obtain ⟨red, c1, c2, -⟩ := h
  have := c2.2.2 f hf
  rw [arc_w hf, if_pos (.inl rfl)] at this
  by_contra q
  have h1 := Int.sign_nonneg_iff.2 (not_lt.1 q)
  have := mul_nonneg h1 (Int.natCast_nonneg (Nat.count (fun t => red f t = true) (L.w f).natAbs))
  omega

theorem arc_count (hL : L.Consistent) (hf : L.tri.IsLabel f) (hk : L.w f ≤ 0) {Ys : List (Lam Int)} (hu : L.Unions Ys) (hc : ∀ Y ∈ Ys, Y.Connected) :
    ((Ys.map Lam.geometric).count (L.tri.edgeArcOf f : Lam Int).geometric : Int) = - L.w f := by
  obtain ⟨n, hn⟩ := Int.eq_ofNat_of_zero_le (a := - L.w f) (by omega)
  obtain ⟨N, m1, m2, m3, m4⟩ := arc_peels (L := L) hf n hL rfl (by omega)
  rw [m1.count hL (arc_connected hf) hu hc rfl, hn]
  intro K hK
  have := arc_of_part (L := N) (N := K) (by rw [m2]; exact hf) (by rw [m2]; exact hK)
  rw [m4 f hf, if_pos (.inl rfl)] at this
  omega

end Lam
end Curver
