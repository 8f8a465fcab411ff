import Verif.Proofs.Filling4
import Verif.Proofs.HalfVertex
import Verif.Props.VertexMap
import Verif.Spec.Vertices

/-!
# The vertices that arcs end at
-/

namespace Curver
open Triangulation
namespace Lam
variable {L K X Y S N : Lam Int} {v : List Int} {h : Enc}

theorem dual_add {a b c a' b' c' x y z x' y' z' : Int} (h : TriDual a b c x y z) (hx' : 0 ≤ x') (hy' : 0 ≤ y') (hz' : 0 ≤ z') (h1 : a' = y' + z') (h2 : b' = z' + x') (h3 : c' = x' + y')
    (qx : x < 0 → x' = 0) (qy : y < 0 → y' = 0) (qz : z < 0 → z' = 0) : TriDual (a + a') (b + b') (c + c') (x + x') (y + y') (z + z') := by
  unfold TriDual at h ⊢
  rcases h with h | h | h | h
  · left; omega
  · right; left; have := qx h.1; omega
  · right; right; left; have := qy h.1; omega
  · right; right; right; have := qz h.1; omega

theorem even_of_dual {a b c x y z : Int} (h : TriDual (max a 0) (max b 0) (max c 0) x y z) : TriEven a b c := by
  unfold TriEven
  intro h1 h2 h3
  unfold TriDual at h
  rw [Int.even_iff]
  generalize max a 0 = a' at *
  generalize max b 0 = b' at *
  generalize max c 0 = c' at *
  rcases h with h | h | h | h <;> omega

/-- the curve round a vertex does not cross `L` when nothing ends there -/
theorem disjoint_link_iff (hL : L.Consistent) (hv : L.tri.Star v) : (L.tri.curveFromCutSequence v : Lam Int).DisjointFrom L ↔ ∀ x ∈ v, 0 ≤ L.w x ∧ 0 ≤ L.lf x := by
  obtain ⟨b1, b2, b3⟩ := hv.basic
  obtain ⟨m1, m2⟩ := hv.mult
  have hn := link_noArcs hv.valid hv.ex
  have hc := hL.1.1.comp
  constructor
  · intro hd x hx
    refine ⟨?_, ?_⟩
    · by_contra q
      have := hd.zero hn (b2 x hx) (not_le.1 q)
      rw [link_w v (b2 x hx), List.count_eq_one_of_mem b1 hx] at this
      push_cast at this
      omega
    · obtain ⟨S, s1, s2⟩ := hd
      have t : L.tri = S.tri := s2.wf.2.2.2
      rw [t] at hv s2
      have h1 := hub_of_part s1 hv s2 hx
      have h2 := s2.lf s1 (x := x) (t ▸ b2 x hx)
      rw [hv.mult.2 x (t ▸ b2 x hx), List.count_eq_one_of_mem b1 hx] at h2
      push_cast at h2
      omega
  · intro hq
    let lw : Int → Int := fun x => (L.tri.curveFromCutSequence v : Lam Int).w x
    let S : Lam Int := make L.tri (fun x => L.w x + lw x) .integral
    have hS : ∀ x, L.tri.IsLabel x → S.w x = L.w x + lw x := fun x hx => make_w _ (fun y => by simp only [lw]; rw [w_inv, w_inv]) hx
    have hlw : ∀ x, L.tri.IsLabel x → lw x = v.count x + v.count (inv x) := by
      intro x hx
      simp only [lw]
      rw [link_w v hx]
      push_cast; rfl
    have wS : S.WellFormed := make_wellFormed hL.1.1 _ _
    have hmax : ∀ x, L.tri.IsLabel x → max (S.w x) 0 = max (L.w x) 0 + lw x := by
      intro x hx
      rw [hS x hx]
      have h0 := hlw x hx
      by_cases q : L.w x < 0
      · have e1 : v.count x = 0 := List.count_eq_zero.2 (fun k => by have := (hq x k).1; omega)
        have e2 : v.count (inv x) = 0 := List.count_eq_zero.2 (fun k => by have := (hq _ k).1; rw [w_inv] at this; omega)
        rw [e1, e2] at h0
        push_cast at h0
        omega
      · omega
    have hdual : ∀ x y z, L.tri.Glues x y z → TriDual (max (S.w x) 0) (max (S.w y) 0) (max (S.w z) 0) (L.lf z + v.count z) (L.lf x + v.count x) (L.lf y + v.count y) := by
      intro x y z hg
      have l := hc.label_of_glues hg
      have g1 := hL.lf_tri hg
      rw [hmax x l.1, hmax y l.2.1, hmax z l.2.2]
      have nx : ∀ {x y z}, L.tri.Glues x y z → v.count (inv x) = v.count y := by
        intro x y z hg
        have l := hc.label_of_glues hg
        have h0 := hv.next hg.rot
        by_cases q : y ∈ v
        · rw [List.count_eq_one_of_mem b1 q, List.count_eq_one_of_mem b1 (h0.1 q)]
        · rw [List.count_eq_zero.2 q, List.count_eq_zero.2 (fun k => q (h0.2 k))]
      have sg : ∀ x, L.lf x < 0 → (v.count x : Int) = 0 := by
        intro x hx
        rw [List.count_eq_zero.2 (fun k => by have := (hq x k).2; omega)]
        rfl
      refine dual_add g1 (Int.natCast_nonneg _) (Int.natCast_nonneg _) (Int.natCast_nonneg _) ?_ ?_ ?_ (sg z) (sg x) (sg y)
      · rw [hlw x l.1, nx hg]
      · rw [hlw y l.2.1, nx hg.rot]
      · rw [hlw z l.2.2, nx hg.rot.rot]
    have cS : S.Consistent := consistent_iff.2 ⟨wS, fun a b c hg => even_of_dual (hdual a b c hg)⟩
    have hlf : ∀ x, L.tri.IsLabel x → S.lf x = L.lf x + v.count x := by
      intro x hx
      obtain ⟨y, z, hg⟩ := hc.exists_glues hx
      have n : ∀ u : Int, 0 ≤ max u 0 := fun u => le_max_right _ _
      have e1 := (triDual_iff (n _) (n _) (n _)).1 (cS.lf_tri (x := x) (y := y) (z := z) hg)
      have e2 := (triDual_iff (n _) (n _) (n _)).1 (hdual x y z hg)
      have := e1.2.1.trans e2.2.1.symm
      omega
    have hub : S.Hub v 1 := ⟨cS, hv, fun x hx => by
      rw [hlf x (b2 x hx), List.count_eq_one_of_mem b1 hx]
      have := (hq x hx).2
      push_cast; omega⟩
    obtain ⟨N, hN, -⟩ := hub.union one_pos
    refine ⟨S, cS, hN.same hN.wf.1 hN.wf.2.1 .refl .refl ?_⟩
    refine same_of_w hN.wf.2.1 hL.1 hN.wf.2.2.2 (fun x hx => ?_)
    have hx' : L.tri.IsLabel x := by rw [hN.wf.2.2.2] at hx; exact hx
    have e := hN.sum wS hx'
    rw [hS x hx'] at e
    have : lw x = (S.tri.curveFromCutSequence v : Lam Int).w x := rfl
    omega

theorem reaches_iff (hL : L.Consistent) (hv : L.tri.Star v) : L.Reaches v ↔ ∃ x ∈ v, L.w x < 0 ∨ L.lf x < 0 := by
  unfold Reaches
  rw [disjoint_link_iff hL hv]
  push Not
  constructor
  · rintro ⟨x, hx, h⟩
    refine ⟨x, hx, ?_⟩
    by_cases q : L.w x < 0
    · exact .inl q
    · exact .inr (h (not_lt.1 q))
  · rintro ⟨x, hx, h⟩
    refine ⟨x, hx, fun q => ?_⟩
    rcases h with h | h
    · omega
    · exact h

theorem Reaches.same (h : L.Reaches v) (e : Same L K) : K.Reaches v := by
  intro hd
  refine h ?_
  rw [e.1]
  exact hd.same .refl e.symm

/-- what ends at a vertex, for a disjoint union -/
theorem IsUnion.reaches (hL : L.Consistent) (h : L.IsUnion X Y) (hv : L.tri.Star v) : L.Reaches v ↔ X.Reaches v ∨ Y.Reaches v := by
  have w := h.wf
  have cX := (h.consistent hL).1
  have cY := (h.consistent hL).2
  constructor
  · intro hr
    by_contra hn
    push Not at hn
    unfold Reaches at hr hn
    rw [not_not, not_not] at hn
    rw [disjoint_link_iff cX (w.2.2.1 ▸ hv), disjoint_link_iff cY (w.2.2.2 ▸ hv)] at hn
    refine hr ((disjoint_link_iff hL hv).2 fun x hx => ?_)
    have l := hv.basic.2.1 x hx
    rw [h.sum hL.1 l, h.lf hL l]
    have h1 := hn.1 x hx
    have h2 := hn.2 x hx
    omega
  · intro hr hd
    rcases hr with hr | hr
    · exact hr (w.2.2.1.symm ▸ hd.left h)
    · exact hr (w.2.2.2.symm ▸ hd.left h.symm)

theorem Blank.reaches (hb : L.Blank) (hL : L.WellFormed) (hv : L.tri.Star v) : ¬ L.Reaches v := by
  have hc : L.Consistent := consistent_iff.2 ⟨hL, fun a b c hg => by
    have l := hL.1.comp.label_of_glues hg
    rw [hb a l.1, hb b l.2.1, hb c l.2.2]
    unfold TriEven; simp⟩
  rw [reaches_iff hc hv]
  rintro ⟨x, hx, q⟩
  have lx := hv.basic.2.1 x hx
  obtain ⟨y, z, hg⟩ := hL.1.comp.exists_glues lx
  have l := hL.1.comp.label_of_glues hg
  have := hc.lf_tri hg
  rw [hb x l.1, hb y l.2.1, hb z l.2.2] at this
  rw [hb x l.1] at q
  unfold TriDual at this
  simp only [max_self] at this
  omega

theorem star_of_mem {T : Triangulation} (hT : T.Valid) {vs : List (List Int)} (hvs : T.vertices = .ok vs) (hv : v ∈ vs) : T.Star v := by
  obtain ⟨a1, a2, a3, a4⟩ := hT.comp.vertices_mem hvs
  obtain ⟨x, hx⟩ := List.exists_mem_of_ne_nil _ (a2 v hv).1.ne
  exact ⟨hT, x, (a2 v hv).2.2 x hx, hT.comp.vertexOf_of_mem hvs hv hx⟩

theorem NoArcs.reaches (hX : X.NoArcs) (hv : X.tri.Star v) : ¬ X.Reaches v := by
  have hc := (noArcs_iff.1 hX).1
  rw [reaches_iff hc hv]
  rintro ⟨x, hx, q⟩
  have lx := hv.basic.2.1 x hx
  have := hX.nonneg lx
  obtain ⟨y, z, hg⟩ := hX.1.1.comp.exists_glues lx
  have := (hX.lf_spec hg).2.2
  omega

theorem reaches_enc (hL : L.Consistent) (hh : h.Legal) (ha : h.applyLam L = .ok K) {w : List Int}
    (hvw : h.applyLam (h.source.curveFromCutSequence v : Lam Int) = .ok (h.target.curveFromCutSequence w)) : K.Reaches w ↔ L.Reaches v := by
  have ht := Enc.applyLam_source ha
  have u := hh.undo hL.1 ha
  have wf : (h.source.curveFromCutSequence v : Lam Int).WellFormed := ⟨hh.path.valid_source, cut_length v⟩
  have u2 := hh.undo wf hvw
  unfold Reaches
  rw [not_iff_not]
  constructor
  · intro hd
    rw [u.2.1] at hd
    obtain ⟨X', x1, x2⟩ := hd.enc hh.inv' (by rw [u.2.1]; rfl) u.2.2.2
    rw [u2.2.2.2] at x1
    cases x1
    rw [← ht]; exact x2
  · intro hd
    rw [← ht] at hd
    obtain ⟨X', x1, x2⟩ := hd.enc hh ht.symm ha
    rw [hvw] at x1
    cases x1
    rw [u.2.1]; exact x2

end Lam
end Curver
