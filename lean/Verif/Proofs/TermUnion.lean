import Verif.Proofs.TermCut
import Verif.Proofs.UnionStrip

/-!
# The multiarc along which `shorten` cuts, and what cutting does
-/

namespace Curver
open Triangulation
namespace Lam
variable {L : Lam Int} {s : List Int}

/-- some arc ends in a vertex opposite to the edge that it crosses last -/
def HasNeg (L : Lam Int) : Prop := ∃ e, L.tri.IsLabel e ∧ L.val e = 2

theorem hasNeg_iff (hL : L.WellFormed) : L.HasNeg ↔ ¬ L.NoNeg := by
  rw [noNeg_iff hL]
  unfold HasNeg
  push Not
  constructor
  · rintro ⟨e, h1, h2⟩; exact ⟨e, h1, by omega⟩
  · rintro ⟨e, h1, h2⟩
    refine ⟨e, h1, ?_⟩
    rcases val_range L e with h | h | h <;> omega

/-- the lamination that is made from the sequence -/
def cutLam (L : Lam Int) (s : List Int) : Lam Int := ⟨L.tri, L.tri.cutSequenceIntersections s, .integral⟩

theorem cutLam_wf (hL : L.WellFormed) : (L.cutLam s).WellFormed := ⟨hL.1, cut_length s⟩

/-- 1 for the edges in the list -/
def ind (s : List Int) (x : Int) : Int := if x ∈ s then 1 else 0

theorem ind_range (s : List Int) (x : Int) : 0 ≤ ind s x ∧ ind s x ≤ 1 := by unfold ind; split <;> omega

theorem ind_one {x : Int} : ind s x = 1 ↔ x ∈ s := by unfold ind; split <;> simp_all

theorem ind_congr {x y : Int} (h : x ∈ s ↔ y ∈ s) : ind s x = ind s y := by unfold ind; simp only [h]

theorem cn_ind (hs : s.Nodup) (x : Int) : cn s x = ind s x + ind s (Curver.inv x) := by
  have : ∀ y, (s.count y : Int) = ind s y := by
    intro y; unfold ind
    split
    · rw [List.count_eq_one_of_mem hs (by assumption)]; rfl
    · rw [List.count_eq_zero_of_not_mem (by assumption)]; rfl
  unfold cn
  rw [this, this]

theorem cutLam_w (hs : s.Nodup) {x : Int} (hx : L.tri.IsLabel x) : (L.cutLam s).w x = ind s x + ind s (Curver.inv x) := by
  rw [← cn_ind hs]; exact cut_w s hx

namespace IsCut

theorem key (h : L.IsCut s) (hS : L.Smooth) {x y z : Int} (hg : L.tri.Glues x y z) (h0 : 0 < L.lf x) : ind s (Curver.inv x) = ind s z := by
  refine ind_congr ⟨?_, ?_⟩
  · intro k
    have := h.fwd _ k
    rw [nx_eq hS.cons.1 hg, if_pos h0, rt_eq hS.cons.1 hg.rot.rot] at this
    rcases this with k | k
    · exact k
    · omega
  · intro k
    have := h.bwd _ k
    rw [rt_eq hS.cons.1 hg.rot.rot, pv_eq hS.cons.1 hg.rot.rot, if_pos h0] at this
    exact this h0

theorem none (h : L.IsCut s) {x : Int} (h0 : L.w x ≤ 0) : ind s x = 0 := by
  unfold ind
  rw [if_neg]
  intro k
  have := (h.dom x k).2
  omega

theorem none' (h : L.IsCut s) {x : Int} (h0 : L.w x ≤ 0) : ind s (Curver.inv x) = 0 := h.none (by rw [w_inv]; exact h0)

/-- everything about one triangle -/
theorem facts (h : L.IsCut s) (hS : L.Smooth) {x y z : Int} (hg : L.tri.Glues x y z) :
    (max (L.w x + (L.cutLam s).w x) 0 = max (L.w x) 0 + (L.cutLam s).w x) ∧ (max (L.w y + (L.cutLam s).w y) 0 = max (L.w y) 0 + (L.cutLam s).w y) ∧
    (max (L.w z + (L.cutLam s).w z) 0 = max (L.w z) 0 + (L.cutLam s).w z) ∧ 0 ≤ (L.cutLam s).w x ∧ 0 ≤ (L.cutLam s).w y ∧ 0 ≤ (L.cutLam s).w z ∧
    ((0 < L.lf x ∧ 0 < L.lf y ∧ 0 < L.lf z ∧ (L.cutLam s).w x = ind s z + ind s x ∧ (L.cutLam s).w y = ind s x + ind s y ∧ (L.cutLam s).w z = ind s y + ind s z) ∨
      (0 < L.lf x ∧ L.lf y = 0 ∧ L.lf z = 0 ∧ (L.cutLam s).w x = ind s x + ind s z ∧ (L.cutLam s).w y = 0 ∧ (L.cutLam s).w z = ind s z + ind s (Curver.inv z)) ∨
      (L.lf x = 0 ∧ 0 < L.lf y ∧ L.lf z = 0 ∧ (L.cutLam s).w y = ind s y + ind s x ∧ (L.cutLam s).w z = 0 ∧ (L.cutLam s).w x = ind s x + ind s (Curver.inv x)) ∨
      (L.lf x = 0 ∧ L.lf y = 0 ∧ 0 < L.lf z ∧ (L.cutLam s).w z = ind s z + ind s y ∧ (L.cutLam s).w x = 0 ∧ (L.cutLam s).w y = ind s y + ind s (Curver.inv y)) ∨
      (L.lf x = 0 ∧ L.lf y = 0 ∧ L.lf z = 0 ∧ (L.cutLam s).w x = 0 ∧ (L.cutLam s).w y = 0 ∧ (L.cutLam s).w z = 0)) := by
  have l := hS.cons.1.1.comp.label_of_glues hg
  rw [cutLam_w h.nodup l.1, cutLam_w h.nodup l.2.1, cutLam_w h.nodup l.2.2]
  have c := hS.corner hg
  have k1 := h.key hS hg
  have k2 := h.key hS hg.rot
  have k3 := h.key hS hg.rot.rot
  have n1 : L.w x ≤ 0 → _ := h.none
  have n2 : L.w y ≤ 0 → _ := h.none
  have n3 : L.w z ≤ 0 → _ := h.none
  have m1 : L.w x ≤ 0 → _ := h.none'
  have m2 : L.w y ≤ 0 → _ := h.none'
  have m3 : L.w z ≤ 0 → _ := h.none'
  have r1 := ind_range s x
  have r2 := ind_range s y
  have r3 := ind_range s z
  have r4 := ind_range s (Curver.inv x)
  have r5 := ind_range s (Curver.inv y)
  have r6 := ind_range s (Curver.inv z)
  generalize ind s x = i1 at *
  generalize ind s y = i2 at *
  generalize ind s z = i3 at *
  generalize ind s (Curver.inv x) = i4 at *
  generalize ind s (Curver.inv y) = i5 at *
  generalize ind s (Curver.inv z) = i6 at *
  generalize L.w x = a at *
  generalize L.w y = b at *
  generalize L.w z = c at *
  generalize L.lf x = p at *
  generalize L.lf y = q at *
  generalize L.lf z = r at *
  clear * - c k1 k2 k3 n1 n2 n3 m1 m2 m3 r1 r2 r3 r4 r5 r6
  obtain ⟨c1, c2, c3, c4, c5, c6, c7⟩ := c
  refine ⟨by omega, by omega, by omega, by omega, by omega, by omega, ?_⟩
  rcases c7 with c7 | c7 | c7 | c7
  · by_cases q : 0 < r
    · have := k3 q
      right; right; right; left; omega
    · right; right; right; right; omega
  · by_cases q : 0 < p
    · have := k1 q
      right; left; omega
    · right; right; right; right; omega
  · by_cases o : 0 < q
    · have := k2 o
      right; right; left; omega
    · right; right; right; right; omega
  · have := k1 c7.1
    have := k2 c7.2.1
    have := k3 c7.2.2
    left; omega

theorem consistent (h : L.IsCut s) (hS : L.Smooth) : (L.cutLam s).Consistent := by
  rw [consistent_iff]
  refine ⟨cutLam_wf hS.cons.1, ?_⟩
  intro x y z hg
  replace hg : L.tri.Glues x y z := hg
  obtain ⟨-, -, -, h1, h2, h3, f⟩ := h.facts hS hg
  unfold TriEven
  rw [max_eq_left h1, max_eq_left h2, max_eq_left h3, Int.even_iff]
  clear * - f
  intro q1 q2 q3
  rcases f with f | f | f | f | f <;> omega

/-- the lamination with the arcs -/
def both (L : Lam Int) (s : List Int) : Lam Int := make L.tri (fun x => L.w x + (L.cutLam s).w x) .integral

theorem both_w {x : Int} (hx : L.tri.IsLabel x) : (both L s).w x = L.w x + (L.cutLam s).w x := make_w _ (fun x => by rw [w_inv, w_inv]) hx

theorem both_max (h : L.IsCut s) (hS : L.Smooth) {x y z : Int} (hg : L.tri.Glues x y z) : max ((both L s).w x) 0 = L.lf x + L.lf y + (L.cutLam s).w x ∧
    max ((both L s).w y) 0 = L.lf y + L.lf z + (L.cutLam s).w y ∧ max ((both L s).w z) 0 = L.lf z + L.lf x + (L.cutLam s).w z := by
  have l := hS.cons.1.1.comp.label_of_glues hg
  obtain ⟨m1, m2, m3, -⟩ := h.facts hS hg
  obtain ⟨-, -, -, c4, c5, c6, -⟩ := hS.corner hg
  rw [both_w l.1, both_w l.2.1, both_w l.2.2, m1, m2, m3, c4, c5, c6]
  exact ⟨rfl, rfl, rfl⟩

theorem both_consistent (h : L.IsCut s) (hS : L.Smooth) : (both L s).Consistent := by
  rw [consistent_iff]
  refine ⟨make_wellFormed hS.cons.1.1 _ _, ?_⟩
  intro x y z hg
  replace hg : L.tri.Glues x y z := hg
  obtain ⟨-, -, -, -, -, -, f⟩ := h.facts hS hg
  obtain ⟨m1, m2, m3⟩ := h.both_max hS hg
  unfold TriEven
  rw [m1, m2, m3, Int.even_iff]
  clear * - f
  intro q1 q2 q3
  rcases f with f | f | f | f | f <;> omega

theorem isUnion (h : L.IsCut s) (hS : L.Smooth) : (both L s).IsUnion (L.cutLam s) L := by
  have hU := h.both_consistent hS
  have hmem : ∀ x, x ∈ s.map Curver.inv ↔ Curver.inv x ∈ s := by
    intro x; rw [List.mem_map]
    constructor
    · rintro ⟨y, h1, rfl⟩; rw [inv_inv]; exact h1
    · intro k; exact ⟨_, k, inv_inv x⟩
  have hnd : (s.map Curver.inv).Nodup := by
    refine h.nodup.map ?_
    intro x y q
    have := congrArg Curver.inv q
    rwa [inv_inv, inv_inv] at this
  have hpos : ∀ x ∈ s.map Curver.inv, (both L s).w x = L.w x + (ind s x + ind s (Curver.inv x)) ∧ 1 ≤ L.w x := by
    intro x hx
    rw [hmem] at hx
    have := h.dom _ hx
    rw [Dom, w_inv, isLabel_inv] at this
    rw [both_w this.1, cutLam_w h.nodup this.1]
    exact ⟨rfl, by omega⟩
  have hcol : (both L s).Colouring ((both L s).ring (s.map Curver.inv) 0) := by
    refine ring_colouring hU ?_ ?_
    · intro x y z hg hx
      replace hg : L.tri.Glues x y z := hg
      rw [hmem, hmem, inv_inv, ← ind_one, ← ind_one]
      have t := hU.lf_tri hg
      obtain ⟨-, -, -, -, -, -, f⟩ := h.facts hS hg
      obtain ⟨m1, m2, m3⟩ := h.both_max hS hg
      rw [m1, m2, m3] at t
      rw [h.key hS hg]
      generalize (both L s).lf x = lx at *
      unfold TriDual at t
      have r1 := ind_range s x
      have r2 := ind_range s y
      have r3 := ind_range s z
      clear * - hx t f r1 r2 r3
      rcases f with f | f | f | f | f <;> rcases t with t | t | t | t <;> omega
    · intro x y z t hg ht
      replace hg : L.tri.Glues x y z := hg
      rw [hmem, hmem, inv_inv, ← ind_one, ← ind_one]
      have td := hU.lf_tri hg
      obtain ⟨-, -, -, g1, g2, g3, f⟩ := h.facts hS hg
      have le := hU.lf_le hg (by omega)
      obtain ⟨m1, m2, m3⟩ := h.both_max hS hg
      rw [m1, m2, m3] at td
      have e1 : (both L s).w x = L.lf x + L.lf y + (L.cutLam s).w x := by omega
      have e3 : (both L s).w z = L.lf z + L.lf x + (L.cutLam s).w z := by omega
      rw [e1, e3] at le ⊢
      generalize (both L s).lf x = lx at *
      have r1 := ind_range s x
      have r2 := ind_range s y
      have r3 := ind_range s z
      have r4 := ind_range s (Curver.inv z)
      unfold TriDual at td
      clear * - ht td f r1 r2 r3 r4 le
      rcases f with f | f | f | f | f
      · rcases td with t | t | t | t <;> omega
      · rcases td with t | t | t | t <;> omega
      · rcases td with t | t | t | t <;> omega
      · rcases td with t | t | t | t <;> omega
      · rcases td with t | t | t | t <;> omega
  have hp := ring_part hU hnd (r := 0) (by
    intro x hx
    obtain ⟨h1, h2⟩ := hpos x hx
    have := ind_range s x
    have := ind_range s (Curver.inv x)
    rw [h1]; push_cast; omega) (by
    intro x hx hx'
    obtain ⟨h1, h2⟩ := hpos x hx
    have := ind_range s x
    have := ind_one.2 ((hmem x).1 hx)
    rw [h1]; push_cast; omega)
  have hcn : ∀ x, L.tri.IsLabel x → (L.tri.curveFromCutSequence (s.map Curver.inv) : Lam Int).w x = (L.cutLam s).w x := by
    intro x hx
    rw [cut_w _ hx, cutLam_w h.nodup hx, cn_ind hnd]
    have : ∀ y, ind (s.map Curver.inv) y = ind s (Curver.inv y) := by
      intro y; unfold ind; simp only [hmem]
    rw [this, this, inv_inv]; omega
  have hM : (both L s).IsPart ((both L s).ring (s.map Curver.inv) 0) true (L.cutLam s) := by
    refine ⟨cutLam_wf hS.cons.1, rfl, ?_⟩
    intro x hx
    rw [← hp.2.2 x hx]
    exact (hcn x hx).symm
  refine ⟨_, hcol, hM, hS.cons.1, rfl, ?_⟩
  intro x hx
  replace hx : L.tri.IsLabel x := hx
  have e := hM.2.2 x hx
  have sp := count_split ((both L s).ring (s.map Curver.inv) 0 x) ((both L s).w x).natAbs
  have e2 := both_w (s := s) hx
  generalize Nat.count (fun t => (both L s).ring (s.map Curver.inv) 0 x t = false) ((both L s).w x).natAbs = c0 at *
  generalize Nat.count (fun t => (both L s).ring (s.map Curver.inv) 0 x t = true) ((both L s).w x).natAbs = c1 at *
  have : (both L s).w x = ((both L s).w x).sign * ((both L s).w x).natAbs := (Int.sign_mul_natAbs _).symm
  rw [← sp] at this
  push_cast at this
  rw [mul_add, ← e] at this
  omega

theorem hasNeg (h : L.IsCut s) (hS : L.Smooth) (hs : s ≠ []) : (L.cutLam s).HasNeg := by
  obtain ⟨f, f1, f2, f3⟩ := h.first hs
  have hf := h.dom f f1
  have hg := hS.cons.1.1.comp.glues_nxt hf.1
  have l := hS.cons.1.1.comp.label_of_glues hg
  generalize L.tri.nxt f = y at *
  generalize L.tri.nxt y = z at *
  refine ⟨f, hf.1, ?_⟩
  rw [val_two (cutLam_wf hS.cons.1) (e := f) (a := y) (b := z) hg]
  rw [rt_eq hS.cons.1 hg] at f2
  rw [pv_eq hS.cons.1 hg, if_neg (by omega)] at f3
  have e1 := ind_one.2 f1
  have e2 : ind s (Curver.inv z) = 0 := by unfold ind; rw [if_neg f3]
  obtain ⟨-, -, -, g1, g2, g3, t⟩ := h.facts hS hg
  have c := hS.corner hg
  have hp := hf.2
  rw [max_eq_left g1, max_eq_left g2, max_eq_left g3]
  have r1 := ind_range s y
  have r3 := ind_range s z
  clear * - t e1 e2 c hp f2 r1 r3
  rcases t with t | t | t | t | t <;> omega

end IsCut

theorem NoArcs.noNeg (h : L.NoArcs) : L.NoNeg := by
  obtain ⟨h1, h2⟩ := noArcs_iff.1 h
  intro x y z hg
  have a := h2 _ _ _ hg
  have b := h2 _ _ _ hg.rot
  have c := h2 _ _ _ hg.rot.rot
  rw [max_eq_left a.1, max_eq_left b.1, max_eq_left c.1]
  exact a.2

theorem noArcs_of_unions {D : List (Lam Int)} (h : L.Unions D) : L.Consistent → (∀ X ∈ D, X.NoArcs) → L.NoArcs := by
  induction h with
  | nil hb =>
    intro hL _
    rw [noArcs_iff]
    refine ⟨hL, ?_⟩
    intro x y z hg
    have l := hL.1.1.comp.label_of_glues hg
    rw [hb x l.1, hb y l.2.1, hb z l.2.2]; omega
  | cons hu hN ih =>
    intro hL hD
    have hC := hu.consistent hL
    have w := hu.wf
    have h1 := (noArcs_iff.1 (hD _ List.mem_cons_self)).2
    have h2 := (noArcs_iff.1 (ih hC.2 (fun X hX => hD X (by simp [hX])))).2
    rw [noArcs_iff]
    refine ⟨hL, ?_⟩
    intro x y z hg
    have l := hL.1.1.comp.label_of_glues hg
    have a := h1 x y z (by rw [w.2.2.1]; exact hg)
    have b := h2 x y z (by rw [w.2.2.2]; exact hg)
    rw [hu.sum hL.1 l.1, hu.sum hL.1 l.2.1, hu.sum hL.1 l.2.2]
    omega

/-- a lamination that has been stripped, if it has arcs, has an arc parallel to an edge -/
theorem Stripped.neg {K : Lam Int} (h : K.Stripped) (hn : ¬ K.NoArcs) : ∃ p, K.tri.IsLabel p ∧ K.w p < 0 := by
  obtain ⟨hC, D, h1, h2⟩ := h.unions
  by_contra q
  push Not at q
  apply hn
  -- no part is an arc
  have main : ∀ {D : List (Lam Int)} {L : Lam Int}, L.Unions D → L.Consistent → (∀ Y ∈ D, Basic L.tri Y) → (∀ p, L.tri.IsLabel p → 0 ≤ L.w p) → ∀ Y ∈ D, Y.NoArcs := by
    intro D L h
    induction h with
    | nil _ => intro _ _ _ Y hY; simp at hY
    | cons hu hN ih =>
      intro hL hD hp Y hY
      have w := hu.wf
      have hC := hu.consistent hL
      rcases List.mem_cons.1 hY with rfl | hY
      · rcases hD Y (by simp) with ⟨v, hv, rfl⟩ | ⟨f, hf, rfl⟩ | ⟨f, β, η, X, hX, rfl⟩
        · exact Lam.link_noArcs hv.valid hv.ex
        · have := arc_of_part hf hu
          have := hp f hf
          omega
        · exact hX.noArcs
      · refine ih hC.2 (fun Y hY => by rw [w.2.2.2]; exact hD Y (by simp [hY])) ?_ Y hY
        intro p hpl
        rw [w.2.2.2] at hpl
        obtain ⟨red, c1, c2, c3⟩ := hu.symm
        exact c2.pos hpl (hp p hpl)
  exact noArcs_of_unions h1 hC (main h1 hC h2 q)

/-- cutting makes progress -/
theorem IsCut.crossed (hc : L.IsCut s) (hS : L.Smooth) (hs : s ≠ []) {K L1 : Lam Int} {h : Enc} (hsh : Shortens (L.cutLam s) K h) (hK : K.Stripped) (ha : h.applyLam L = .ok L1) :
    L1.crossed < L.crossed := by
  have hM := hc.consistent hS
  obtain ⟨M1, m1, m2, m3⟩ := hsh.acts
  have hsrc : h.source = L.tri := hsh.source
  obtain ⟨⟨U1, hUU⟩, hU1⟩ := hsh.legal.applyLam_total ⟨IsCut.both L s, hc.both_consistent hS, hsrc.symm⟩
  replace hU1 : h.applyLam (IsCut.both L s) = .ok U1 := hU1
  obtain ⟨M1', L1', e1, e2, hu⟩ := (hc.isUnion hS).enc (hc.both_consistent hS) hsh.legal hU1
  rw [m1] at e1; cases e1
  rw [ha] at e2; cases e2
  have t1 := hsh.legal.undo hS.cons.1 ha
  have hU1C := (hc.both_consistent hS).enc hsh.legal hU1
  have w := hu.wf
  have hz : L1.tri.zeta = L.tri.zeta := by
    rw [t1.2.1, ← hsrc]; exact hsh.legal.path.zeta
  have hKn : ¬ K.NoArcs := by
    intro q
    have q1 : M1.NoArcs := q.cls_irrel m2 m3
    have t2 := hsh.legal.undo (cutLam_wf hS.cons.1) m1
    have q2 := hsh.legal.inv'.noArcs q1 t2.2.2.2
    exact (hasNeg_iff (cutLam_wf hS.cons.1)).1 (hc.hasNeg hS hs) q2.noNeg
  obtain ⟨p, p1, p2⟩ := hK.neg hKn
  have hspare : ∀ x, L.tri.IsLabel x → L.w x ≤ 0 → h.Spares x := by
    intro x hx h0
    refine hsh.spares x hx ?_
    rw [cutLam_w hc.nodup hx, hc.none h0, hc.none' h0]; rfl
  have hp : L.tri.IsLabel p := by
    have : K.tri = L1.tri := by rw [← hsh.target, t1.2.1]
    rw [this] at p1
    unfold IsLabel at p1 ⊢
    rw [hz] at p1; exact p1
  have hpM : M1.w p < 0 := by rw [w_congr m3]; exact p2
  refine crossed_lt hz ?_ hp ?_ ?_
  · intro x hx hx1
    by_contra q
    have := (Enc.spares_w hsh.legal (hspare x hx (by omega)) hx hS.cons.1 ha).1
    omega
  · obtain ⟨red, c1, c2, c3⟩ := hu
    have hpU : U1.tri.IsLabel p := by
      rw [← w.2.2.1, m2]; exact p1
    have : U1.w p < 0 := by
      by_contra q
      have := c2.pos hpU (by omega)
      omega
    have hu' : U1.IsUnion M1 L1 := ⟨red, c1, c2, c3⟩
    obtain ⟨red', d1, d2, d3⟩ := hu'.symm
    exact d2.neg hpU this.le
  · by_contra q
    have hsp := hspare p hp (by omega)
    have := (Enc.spares_w hsh.legal hsp (L := L.cutLam s) hp (cutLam_wf hS.cons.1) m1).1
    rw [cutLam_w hc.nodup hp, hc.none (by omega), hc.none' (by omega)] at this
    omega

end Lam
end Curver
