import Verif.Proofs.TwistDyn

/-!
# The functions on short curves, on laminations without arcs
-/

namespace Curver
open Triangulation

namespace Lam
section
variable {R : Type} [CommRing R] [LinearOrder R] [IsStrictOrderedRing R] [Halvable R] {L : Lam R}

/-- the left weight -/
def lf (L : Lam R) (x : Int) : R := match L.leftWeight x with
  | .ok y => y
  | .error _ => 0

theorem lf_eq {x : Int} {y : R} (h : L.leftWeight x = .ok y) : L.lf x = y := by unfold lf; rw [h]

theorem NoArcs.dual2 (hL : L.NoArcs) {x y z : Int} (hg : L.tri.Glues x y z) : Lam.dual2 (L.w x) (L.w y) (L.w z) = L.w y + L.w z - L.w x := by
  have hT := (noArcs_iff.1 hL).2
  have h1 := hT x y z hg
  have h2 := hT y z x hg.rot
  have h3 := hT z x y hg.rot.rot
  exact (dual2_eq h1.1 h2.1 h3.1).1 h1.2 h2.2 h3.2

theorem NoArcs.lf_spec (hL : L.NoArcs) {x y z : Int} (hg : L.tri.Glues x y z) :
    L.leftWeight x = .ok (L.lf x) ∧ L.lf x + L.lf x = L.w x + L.w z - L.w y ∧ 0 ≤ L.lf x := by
  obtain ⟨hC, hT⟩ := noArcs_iff.1 hL
  have hc := hC.1.1.comp
  obtain ⟨u, hu⟩ := hC.2 y (hc.label_of_glues hg).2.1
  have h1 : L.leftWeight x = .ok u := by rw [leftWeight_eq hC.1 hg, hu]
  rw [lf_eq h1]
  have h2 : u + u = L.w x + L.w z - L.w y := by
    rw [dualWeight_eq hC.1 hg.rot, half_ok_iff, hL.dual2 hg.rot] at hu
    rw [hu]; ring
  refine ⟨h1, h2, ?_⟩
  have := (hT y z x hg.rot).2
  linarith

theorem NoArcs.leftWeight2 (hL : L.NoArcs) {x y z : Int} (hg : L.tri.Glues x y z) : L.leftWeight2 x = .ok (L.lf x + L.lf x) := by
  have hc := hL.1.1.comp
  have hl := hc.label_of_glues hg
  rw [(hL.lf_spec hg).2.1]
  unfold Lam.leftWeight2
  rw [hc.corner_eq hg, py_bind_ok]
  unfold dualWeight2
  dsimp only
  rw [hc.corner_eq hg.rot, py_bind_ok, wt_eq hL.1.2 hl.2.1, py_bind_ok, wt_eq hL.1.2 hl.2.2, py_bind_ok, wt_eq hL.1.2 hl.1, py_bind_ok, hL.dual2 hg.rot]
  show Except.ok _ = Except.ok _
  congr 1; ring

theorem NoArcs.rightWeight (hL : L.NoArcs) {x : Int} (hx : L.tri.IsLabel x) : ∃ r, L.rightWeight x = .ok r ∧ 0 ≤ r := by
  obtain ⟨y, z, hg⟩ := hL.1.1.comp.exists_glues hx
  have hC := (noArcs_iff.1 hL).1
  rw [rightWeight_eq hL.1 hg, ← leftWeight_eq hL.1 hg.rot]
  exact ⟨_, (hL.lf_spec hg.rot).1, (hL.lf_spec hg.rot).2.2⟩

theorem NoArcs.left (hL : L.NoArcs) {x : Int} (hx : L.tri.IsLabel x) : L.leftWeight x = .ok (L.lf x) ∧ 0 ≤ L.lf x := by
  obtain ⟨y, z, hg⟩ := hL.1.1.comp.exists_glues hx
  exact ⟨(hL.lf_spec hg).1, (hL.lf_spec hg).2.2⟩

theorem NoArcs.w_nonneg (hL : L.NoArcs) {x : Int} (hx : L.tri.IsLabel x) : 0 ≤ L.w x := by
  obtain ⟨y, z, hg⟩ := hL.1.1.comp.exists_glues hx
  exact ((noArcs_iff.1 hL).2 x y z hg).1

/-- the least of several non-negative numbers -/
theorem maximin_nonneg {l : List R} (hl : l ≠ []) (h0 : ∀ x ∈ l, 0 ≤ x) : ∃ m, maximin [[0], l] = .ok m ∧ (∀ x ∈ l, m ≤ x) ∧ m ∈ l := by
  obtain ⟨m, h1, h2, h3, x, hx, h4⟩ := maximin_zero hl
  refine ⟨m, h1, fun y hy => by have := h3 y hy; rwa [max_eq_left (h0 y hy)] at this, ?_⟩
  rw [max_eq_left (h0 x hx)] at h4
  rwa [h4]

end
end Lam

namespace Triangulation
variable {T : Triangulation} {a b e : Int} {X : List Int}
variable {R : Type} [CommRing R] [LinearOrder R] [IsStrictOrderedRing R] [Halvable R]

/-- the edges from `a` round to `~a` -/
structure Around (T : Triangulation) (a : Int) (X v : List Int) : Prop where
  tail : T.vertexOf a = .ok v
  head : T.vertexOf (inv a) = .ok v
  slice : cyclicSlice v a (some (inv a)) = .ok (a :: X)

namespace Around
variable {v : List Int}

theorem around (h : Around T a X v) {L : Lam R} (ht : L.tri = T) : L.around a = .ok (a :: X) := by
  unfold Lam.around
  rw [ht, h.tail, py_bind_ok, h.slice]

theorem sweep (h : Around T a X v) (hT : T.Complete) (ha : T.IsLabel a) : Sweep T a X := by
  obtain ⟨w, _, k1, _, _, k4, _⟩ := hT.vertexOf_ok (isLabel_inv.2 ha)
  rw [h.head] at k1; cases k1
  obtain ⟨X', h1, h2⟩ := hT.sweep ha h.tail k4
  rw [h.slice] at h1
  cases h1
  exact h2

theorem loop (h : Around T a X v) (hT : T.Valid) (ha : T.IsLabel a) (hX : 2 ≤ X.length) : ∃ b e, Loop T a b e X := by
  obtain ⟨b, e, hg⟩ := hT.comp.exists_glues ha
  exact ⟨b, e, hT, h.sweep hT.comp ha, hg, hX⟩

theorem edgeCurve (h : Around T a X v) : (T.edgeCurve a : Py (Lam R)) = .ok (T.curveFromCutSequence X) := by
  unfold Triangulation.edgeCurve
  rw [h.tail, py_bind_ok, h.head, py_bind_ok, if_pos rfl, h.slice, py_bind_ok]
  rfl

end Around

namespace Loop
variable {L : LamOn R T} {μ : R}

theorem label_mem (h : Loop T a b e X) {x : Int} (hx : x ∈ a :: X) : T.IsLabel x := by
  rcases List.mem_cons.1 hx with rfl | hx
  · exact h.sweep.label
  · exact h.sweep.labels h.valid.comp x hx

theorem lf_cor (h : Loop T a b e X) (hL : L.1.NoArcs) {x : Int} (hx : T.IsLabel x) : L.1.leftWeight x = .ok (L.1.lf x) ∧ 2 * L.1.lf x = T.cor L x ∧ 0 ≤ L.1.lf x := by
  obtain ⟨y, z, hg⟩ := h.valid.comp.exists_glues hx
  have := hL.lf_spec (x := x) (y := y) (z := z) (by rw [L.2.2]; exact hg)
  refine ⟨this.1, ?_, this.2.2⟩
  rw [cor_eq h.valid.comp L hg, ← this.2.1]; ring

theorem lefts (h : Loop T a b e X) (hL : L.1.NoArcs) {l : List Int} (hl : ∀ x ∈ l, x ∈ a :: X) : l.mapM L.1.leftWeight = .ok (l.map L.1.lf) :=
  mapM_ok (fun x hx => (h.lf_cor hL (h.label_mem (hl x hx))).1)

theorem aroundWeight (h : Loop T a b e X) (hL : L.1.NoArcs) (hm : IsMin a X L μ) : ∃ m, L.1.aroundWeight (a :: X) = .ok m ∧ 2 * m = μ ∧ 0 ≤ m := by
  unfold Lam.aroundWeight
  rw [h.lefts hL (fun x hx => hx), py_bind_ok]
  obtain ⟨m, h1, h2, h3⟩ := Lam.maximin_nonneg (l := (a :: X).map L.1.lf) (by simp) (by
    intro y hy
    obtain ⟨x, hx, rfl⟩ := List.mem_map.1 hy
    exact (h.lf_cor hL (h.label_mem hx)).2.2)
  obtain ⟨x, hx, rfl⟩ := List.mem_map.1 h3
  refine ⟨_, h1, ?_, (h.lf_cor hL (h.label_mem hx)).2.2⟩
  refine IsMin.unique (L := L) ⟨?_, x, hx, ((h.lf_cor hL (h.label_mem hx)).2.1).symm⟩ hm
  intro y hy
  have := h2 _ (List.mem_map_of_mem hy)
  rw [← (h.lf_cor hL (h.label_mem hy)).2.1]
  linarith

theorem dropLast_ne_nil (h : Loop T a b e X) : X.dropLast ≠ [] := by
  have := h.two
  intro hn
  have := congrArg List.length hn
  simp at this; omega

theorem twistingWeight (h : Loop T a b e X) (hL : L.1.NoArcs) (hm : IsMin a X L μ) {m : R} (h2 : 2 * m = μ) :
    ∃ t, L.1.twistingWeight (a :: X) m = .ok t ∧ 0 ≤ t ∧ (∀ x ∈ X.dropLast, μ + 2 * t ≤ T.cor L x) ∧ ∃ x ∈ X.dropLast, T.cor L x = μ + 2 * t := by
  unfold Lam.twistingWeight Lam.middle
  rw [List.drop_succ_cons, List.drop_zero, h.lefts hL (fun x hx => h.dropLast_sub hx), py_bind_ok, List.map_map]
  have key : ∀ x ∈ X.dropLast, 2 * (L.1.lf x - m) = T.cor L x - μ ∧ 0 ≤ L.1.lf x - m := by
    intro x hx
    have h1 := (h.lf_cor hL (h.label_mem (h.dropLast_sub hx))).2.1
    have h3 := hm.1 x (h.dropLast_sub hx)
    constructor <;> linarith
  obtain ⟨t, h1, h2, h3⟩ := Lam.maximin_nonneg (l := X.dropLast.map ((fun w => w - m) ∘ L.1.lf)) (fun k => h.dropLast_ne_nil (List.map_eq_nil_iff.1 k)) (by
    intro y hy
    obtain ⟨x, hx, rfl⟩ := List.mem_map.1 hy
    exact (key x hx).2)
  obtain ⟨x, hx, hxt⟩ := List.mem_map.1 h3
  dsimp only [Function.comp] at hxt
  refine ⟨t, h1, hxt ▸ (key x hx).2, ?_, x, hx, by have := (key x hx).1; rw [hxt] at this; linarith⟩
  intro y hy
  have h5 := h2 _ (List.mem_map_of_mem hy)
  have h6 := (key y hy).1
  dsimp only [Function.comp] at h5
  linarith

theorem outWeight (h : Loop T a b e X) (hL : L.1.NoArcs) : L.1.outWeight (a :: X) = .ok 0 := by
  unfold Lam.outWeight
  rw [h.lefts hL (fun x hx => hx), py_bind_ok]
  have h1 : ((a :: X).drop 1).mapM L.1.wt = .ok (X.map L.1.w) :=
    mapM_ok (fun x hx => Lam.wt_eq L.2.1.1.2 (by rw [L.2.2]; exact h.label_mem (List.mem_cons_of_mem _ hx)))
  rw [h1, py_bind_ok]
  have z : ∀ l : List R, (∀ x ∈ l, 0 ≤ x) → (l.map (fun x => max (-x) 0)).sum = 0 := by
    intro l hl
    apply List.sum_eq_zero
    intro y hy
    obtain ⟨x, hx, rfl⟩ := List.mem_map.1 hy
    have := hl x hx
    exact max_eq_right (by linarith)
  rw [z _ (by
    intro y hy
    obtain ⟨x, hx, rfl⟩ := List.mem_map.1 hy
    exact (h.lf_cor hL (h.label_mem hx)).2.2), z _ (by
    intro y hy
    obtain ⟨x, hx, rfl⟩ := List.mem_map.1 hy
    exact hL.w_nonneg (by rw [L.2.2]; exact h.label_mem (List.mem_cons_of_mem _ hx)))]
  simp

theorem wt0 (h : Loop T a b e X) (hL : L.1.NoArcs) : L.1.wt0 a = .ok (L.1.w a) := by
  have hl : L.1.tri.IsLabel a := by rw [L.2.2]; exact h.sweep.label
  unfold Lam.wt0
  rw [Lam.wt_eq L.2.1.1.2 hl, py_bind_ok, max_eq_left (hL.w_nonneg hl)]
  rfl

theorem crossings (h : Loop T a b e X) {v : List Int} (hv : Around T a X v) (hL : L.1.NoArcs) (hm : IsMin a X L μ) :
    L.1.parallelCrossings false a = .ok (L.1.w a - μ) := by
  unfold Lam.parallelCrossings
  rw [if_neg (by simp), hv.around L.2.2, py_bind_ok]
  have h1 : (a :: X).mapM L.1.leftWeight2 = .ok ((a :: X).map (T.cor L)) := by
    refine mapM_ok (fun x hx => ?_)
    obtain ⟨y, z, hg⟩ := h.valid.comp.exists_glues (h.label_mem hx)
    rw [hL.leftWeight2 (by rw [L.2.2]; exact hg), ← (h.lf_cor hL (h.label_mem hx)).2.1, two_mul]
  obtain ⟨m, h2, h3, h4⟩ := Lam.maximin_nonneg (l := (a :: X).map (T.cor L)) (by simp) (by
    intro y hy
    obtain ⟨x, hx, rfl⟩ := List.mem_map.1 hy
    exact cor_nonneg h.valid.comp hL (h.label_mem hx))
  have h5 : m = μ := by
    obtain ⟨x, hx, hxm⟩ := List.mem_map.1 h4
    exact IsMin.unique (L := L) ⟨fun y hy => h3 _ (List.mem_map_of_mem hy), x, hx, hxm⟩ hm
  rw [h1, py_bind_ok, h2, py_bind_ok, h.outWeight hL, py_bind_ok, h.wt0 hL, py_bind_ok, h5, add_zero]
  rfl

end Loop
end Triangulation
end Curver
