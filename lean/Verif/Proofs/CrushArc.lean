import Verif.Proofs.CrushBack

/-!
# The vertices that a lift looks at
-/

namespace Curver
open Triangulation

namespace Lam
variable {L M N K c s : Lam Int} {T T' : Triangulation} {a b e k t : Int} {X v : List Int} {P : Lam Int → Py LamClass}

namespace Crushing
variable {m : CrushMove}

/-- the two new vertices -/
theorem news (h : Crushing P s m a b e X) {vs : List (List Int)} (hvs : m.target.vertices = .ok vs) : ∃ v1 v2, v1 ∈ vs ∧ v2 ∈ vs ∧ v1 ≠ v2 ∧ m.target.Star v1 ∧ m.target.Star v2 ∧
    (∀ x, m.target.IsLabel x → v1.count x = if x = inv b then 1 else 0) ∧ (∀ x, m.target.IsLabel x → v2.count x = if norm x = norm b then 0 else X.count x) ∧
    ∀ v ∈ vs, (inv b ∈ v ↔ v = v1) ∧ (inv e ∈ v ↔ v = v2) := by
  have B := h.loop.fan.base
  have nn := norm_ne B
  have hc := h.target
  obtain ⟨v1, s1, h1⟩ := hc.star_left h.loop
  obtain ⟨v2, s2, h2⟩ := hc.star_right h.loop
  obtain ⟨k1, k2, k3, k4⟩ := hc.comp.vertices_mem hvs
  have lb := isLabel_inv.2 (hc.label.2 B.labels.2.1)
  have le := isLabel_inv.2 (hc.label.2 B.labels.2.2)
  have m1 : inv b ∈ v1 := by rw [← List.count_pos_iff, h1 _ lb, if_pos rfl]; omega
  have m2 : inv e ∈ v2 := by rw [← List.count_pos_iff, h2 _ le, if_neg (by rw [norm_inv]; exact nn.1)]; exact List.count_pos_iff.2 h.loop.inv_e_mem
  have mem : ∀ {w x}, m.target.Star w → x ∈ w → ∀ v ∈ vs, x ∈ v → v = w := by
    intro w x sw hx v hv hx'
    have e1 := hc.comp.vertexOf_of_mem hvs hv hx'
    obtain ⟨y, y1, y2⟩ := sw.ex
    have e2 := hc.comp.vertexOf_unique y1 y2 hx
    rw [e1] at e2
    injection e2
  have ex : ∀ {w x}, m.target.Star w → x ∈ w → w ∈ vs := by
    intro w x sw hx
    obtain ⟨v, q1, q2⟩ := k1 x (sw.basic.2.1 x hx)
    rw [← mem sw hx v q1 q2]; exact q1
  refine ⟨v1, v2, ex s1 m1, ex s2 m2, ?_, s1, s2, h1, h2, fun v hv => ⟨⟨mem s1 m1 v hv, fun q => by rw [q]; exact m1⟩, ⟨mem s2 m2 v hv, fun q => by rw [q]; exact m2⟩⟩⟩
  intro q
  have := h2 _ lb
  rw [norm_inv, if_pos rfl, ← q, h1 _ lb, if_pos rfl] at this
  omega

/-- the curve is not peripheral -/
theorem essential (h : Crushing P s m a b e X) : ¬ s.Peripheral := by
  obtain ⟨h1, -⟩ := parallelEdge_spec h.noArcs h.edge
  obtain ⟨p, p1, p2⟩ := isPeripheral_spec P (noArcs_iff.1 h.noArcs).1
  rw [h1] at p1
  injection p1 with p1
  subst p1
  intro q
  exact absurd (p2.2 q) (by simp)

/-- lifts of the curves around vertices -/
theorem lift_vertex (h : Crushing P s m a b e X) (hP : ∀ L, ∃ c, P L = .ok c) {vs : List (List Int)} (hvs : m.target.vertices = .ok vs) (hv : v ∈ vs) :
    ∃ M, m.liftLam P (m.target.curveFromCutSequence v) = .ok M ∧ CrushMove.linear P s.tri m.matrix (m.target.curveFromCutSequence v) = .ok M ∧ M.NoArcs ∧ (inv b ∈ v ∨ inv e ∈ v → Same s M) ∧ (inv b ∉ v → inv e ∉ v → M.Peripheral) := by
  have sv := star_of_mem h.target.valid hvs hv
  have hn := link_noArcs sv.valid sv.ex
  obtain ⟨M, m1, m2⟩ := h.lift hP hn rfl
  have m4 := m1
  unfold CrushMove.liftLam at m4
  simp only [py_bind_eq_ok] at m4
  obtain ⟨_, -, _, -, m4⟩ := m4
  rw [h.source] at m4
  have hM := m2.noArcs hn h.loop h.target rfl
  refine ⟨M, m1, m4, hM, ?_, fun h1 h2 => m2.old h.loop h.target sv h1 h2 hM⟩
  intro q
  obtain ⟨v1, v2, -, -, -, -, -, c1, c2, c3⟩ := h.news hvs
  refine h.cut.trans (same_of_w (h.cut.wf h.noArcs.1) m2.wf m2.tri.symm ?_)
  intro x hx
  rw [curve_cn (T := s.tri) X hx]
  rcases q with q | q
  · have := ((c3 v hv).1).1 q
    subst this
    exact (m2.new_left h.loop h.target c1 hx).symm
  · have := ((c3 v hv).2).1 q
    subst this
    exact (m2.new_right h.loop h.target c2 hx).symm

/-- the vertices that a lift looks at are the old ones -/
theorem mem_vertices (h : Crushing P s m a b e X) (hP : ∀ L, ∃ c, P L = .ok c) {vs : List (List Int)} (hvs : m.target.vertices = .ok vs) (hv : v ∈ vs) : v ∈ m.vertices ↔ inv b ∉ v ∧ inv e ∉ v := by
  obtain ⟨vs', v1, v2⟩ := h.verts
  rw [hvs] at v1
  injection v1 with v1
  subst v1
  obtain ⟨M, -, m2, m3, m4, m5⟩ := h.lift_vertex hP hvs hv
  obtain ⟨p, p1, p2⟩ := isPeripheral_spec P (noArcs_iff.1 m3).1
  rw [v2]
  constructor
  · rintro ⟨-, L, l1, l2⟩
    rw [m2] at l1
    injection l1 with l1
    subst l1
    rw [p1] at l2
    injection l2 with l2
    have hp := p2.1 l2
    constructor
    · intro q; exact h.essential (hp.same (m4 (.inl q)).symm)
    · intro q; exact h.essential (hp.same (m4 (.inr q)).symm)
  · rintro ⟨q1, q2⟩
    refine ⟨hv, M, m2, ?_⟩
    rw [p1, p2.2 (m5 q1 q2)]

/-- what has arcs cannot be lifted again -/
theorem lift_arc (h : Crushing P s m a b e X) (hP : ∀ L, ∃ c, P L = .ok c) (ht : L.tri = s.tri) (hL : ¬ L.NoArcs) (hth : L.Thick a b e X k t) (hK : CrushW L K m.target b X k t) :
    m.liftLam P K = .error .assertionError := by
  have hc : Crushed L.tri m.target b e := by rw [ht]; exact h.target
  have hl := hth.flat.belt.loop
  have B := hl.fan.base
  have nn := norm_ne B
  have cl := hK.clear hth hc
  obtain ⟨c1, c2, c3, c4, c5⟩ := hK.corners hth hc
  have k0 := hth.flat.belt.nonneg
  obtain ⟨vs, hvs, -⟩ := h.verts
  obtain ⟨u1, u2, -, -, -, s1, s2, d1, d2, d3⟩ := h.news hvs
  have lab : ∀ {x}, L.tri.IsLabel x → m.target.IsLabel x := fun hx => hc.label.2 hx
  -- a place where an arc ends or starts
  have hbad : ∃ x, m.target.IsLabel x ∧ (K.w x < 0 ∨ K.lf x < 0) := by
    by_contra hcon
    push Not at hcon
    apply hL
    apply noArcs_of_lf hth.flat.belt.con
    · intro x hx
      by_cases q : norm x = norm b
      · rw [wnorm q]; exact hth.flat.pos b hl.b_mem
      · have := (hcon x (lab hx)).1
        rw [hK.w x (lab hx), if_neg q] at this
        have := mul_nonneg hth.count (cn_nonneg X x)
        omega
    · intro x hx
      by_cases qa : x = a
      · rw [qa, hth.flat.belt.first]; exact k0
      by_cases qb : x = b
      · rw [qb, hth.flat.belt.last]; exact k0
      by_cases qe : x = e
      · rw [qe]; exact hth.flat.top
      have := (hcon _ (lab (B.mu_label hx))).2
      rw [c5 x hx ⟨qa, qb, qe⟩] at this
      have := mul_nonneg (Int.natCast_nonneg (X.count x)) hth.count
      omega
  obtain ⟨x, lx, hx⟩ := hbad
  obtain ⟨k1, k2, k3, k4⟩ := hc.comp.vertices_mem hvs
  obtain ⟨v, hv, hxv⟩ := k1 x lx
  have old : v ∈ m.vertices := by
    rw [h.mem_vertices hP hvs hv]
    constructor
    · intro q
      have e1 := (d3 v hv).1.1 q
      subst e1
      have e2 := d1 x lx
      rw [List.count_eq_one_of_mem s1.basic.1 hxv] at e2
      split_ifs at e2 with e3
      subst e3
      rw [w_inv, c4] at hx
      have := cl.wb
      omega
    · intro q
      have e1 := (d3 v hv).2.1 q
      subst e1
      have e2 := d2 x lx
      rw [List.count_eq_one_of_mem s2.basic.1 hxv] at e2
      split_ifs at e2 with e3
      have hxX : x ∈ X := List.count_pos_iff.1 (by omega)
      have w0 := cl.pos x hxX e3
      have xb : x ≠ b := by rintro rfl; exact e3 rfl
      have xi : x ≠ inv b := by rintro rfl; exact e3 (norm_inv b)
      have l0 : 0 ≤ K.lf x := by
        by_cases q : x = e
        · subst q
          have ib : inv b ∈ X := by
            rw [← List.count_pos_iff, ← hl.count_e]; exact List.count_pos_iff.2 hxX
          have := cl.left _ ib (Curver.inv_ne b) (fun w => xi w.symm)
          rwa [B.mu_ib] at this
        · have := cl.left x hxX xb q
          rwa [Base.mu_other q xi] at this
      omega
  have kl : ∀ {x}, m.target.IsLabel x → K.tri.IsLabel x := fun hx => by rw [hK.tri]; exact hx
  unfold CrushMove.liftLam
  obtain ⟨r, hr⟩ := pyAllM_total (f := fun edge => do
      let w ← K.wt edge
      if 0 ≤ w then do
        let l ← K.leftWeight edge
        return decide (0 ≤ l)
      else return false) (l := m.vertices.flatten) (by
    intro y hy
    obtain ⟨v', hv', hy⟩ := List.mem_flatten.1 hy
    obtain ⟨vs', w1, w2⟩ := h.verts
    have ly := kl ((star_of_mem hc.valid w1 ((w2 v').1 hv').1).basic.2.1 y hy)
    rw [wt_eq c1.1.2 ly, py_bind_ok]
    split
    · rw [c1.left ly, py_bind_ok]; exact ⟨_, rfl⟩
    · exact ⟨_, rfl⟩)
  rw [hr, py_bind_ok]
  have : r = false := by
    by_contra q
    have q : r = true := by simpa using q
    subst q
    have := pyAllM_ok_iff.1 hr x (List.mem_flatten.2 ⟨v, old, hxv⟩)
    rw [wt_eq c1.1.2 (kl lx), py_bind_ok] at this
    split at this
    · rw [c1.left (kl lx), py_bind_ok] at this
      injection this with this
      have := of_decide_eq_true this
      omega
    · injection this with this
      exact absurd this (by simp)
  rw [this]
  rfl

end Crushing
end Lam
end Curver
