import Verif.Proofs.Flag

/-!
# Intersection numbers add up over disjoint unions
-/

namespace Curver
open Triangulation

namespace Lam
variable {L M N S c s : Lam Int} {T : Triangulation} {f β η : Int} {X v : List Int}

/-- the strands of a part that go round a corner are those among the strands of the whole -/
theorem IsPart.lf {red : Int → Nat → Bool} (hS : S.Consistent) (hc : S.Colouring red) (h : S.IsPart red true N) {x : Int} (hx : S.tri.IsLabel x) (hN : N.Consistent) :
    (0 ≤ S.lf x → N.lf x = Nat.count (fun t => red x t = true) (S.lf x).toNat) ∧ (S.lf x ≤ 0 → N.lf x ≤ 0) := by
  obtain ⟨y, z, hg⟩ := hS.1.1.comp.exists_glues hx
  have h1 := hS.lf_tri hg
  have h2 := hN.lf_tri (x := x) (y := y) (z := z) (by rw [h.2.1]; exact hg)
  obtain ⟨p, q, r, ⟨n1, n2, n3, c⟩, k1, k2, k3, hf⟩ := h.counts hS hc hg
  have e : 0 ≤ S.lf x → (S.lf x).toNat = p := by
    intro q0
    have : S.lf x = p := by
      generalize max (S.w x) 0 = a at *
      generalize max (S.w y) 0 = b at *
      generalize max (S.w z) 0 = d at *
      clear hf h2
      unfold TriDual at h1
      rcases h1 with h1 | h1 | h1 | h1 <;> rcases c with c | c | c | c <;> omega
    omega
  constructor
  · intro q0
    rw [e q0]
    have e' := e q0
    generalize max (S.w x) 0 = a at *
    generalize max (S.w y) 0 = b at *
    generalize max (S.w z) 0 = d at *
    generalize max (N.w x) 0 = a' at *
    generalize max (N.w y) 0 = b' at *
    generalize max (N.w z) 0 = d' at *
    generalize (Nat.count (fun t => red x t = true) p) = P at *
    generalize (Nat.count (fun t => red y t = true) q) = Q at *
    generalize (Nat.count (fun t => red z t = true) r) = R at *
    clear e c hc h
    unfold TriDual at h1 h2
    rcases hf with hf | hf | hf | hf <;> rcases h1 with h1 | h1 | h1 | h1 <;> first | (exfalso; omega) | (rcases h2 with h2 | h2 | h2 | h2 <;> omega)
  · intro q0
    generalize max (S.w x) 0 = a at *
    generalize max (S.w y) 0 = b at *
    generalize max (S.w z) 0 = d at *
    generalize max (N.w x) 0 = a' at *
    generalize max (N.w y) 0 = b' at *
    generalize max (N.w z) 0 = d' at *
    generalize (Nat.count (fun t => red x t = true) p) = P at *
    generalize (Nat.count (fun t => red y t = true) q) = Q at *
    generalize (Nat.count (fun t => red z t = true) r) = R at *
    clear e c hc h
    unfold TriDual at h1 h2
    rcases hf with hf | hf | hf | hf <;> rcases h1 with h1 | h1 | h1 | h1 <;> first | (exfalso; omega) | (rcases h2 with h2 | h2 | h2 | h2 <;> omega)

/-- what is known about the red part at a corner -/
theorem IsUnion.at_corner (hS : S.Consistent) (hu : S.IsUnion N M) {x : Int} (hx : S.tri.IsLabel x) :
    S.lf x = N.lf x + M.lf x ∧ (0 ≤ S.lf x → 0 ≤ N.lf x ∧ 0 ≤ M.lf x) ∧ (S.lf x ≤ 0 → N.lf x ≤ 0 ∧ M.lf x ≤ 0) ∧
      max (S.w x) 0 = max (N.w x) 0 + max (M.w x) 0 ∧ max (-S.w x) 0 = max (-N.w x) 0 + max (-M.w x) 0 := by
  have h0 := hu.lf hS hx
  have m0 := hu.max_sub hS.1 hx
  have s0 := hu.sum hS.1 hx
  obtain ⟨y, z, hg⟩ := hS.1.1.comp.exists_glues hx
  have hC := hu.consistent hS
  have w := hu.wf
  have l := hS.1.1.comp.label_of_glues hg
  have h1 := hS.lf_tri hg
  have h2 := hC.1.lf_tri (x := x) (y := y) (z := z) (by rw [w.2.2.1]; exact hg)
  have sg := hu.signs hx
  refine ⟨h0, ?_, ?_, by omega, ?_⟩
  · intro q
    obtain ⟨red, c1, c2, c3⟩ := id hu
    have e1 := (c2.lf hS c1 hx (hu.consistent hS).1).1 q
    obtain ⟨red', d1, d2, d3⟩ := hu.symm
    have e2 := (d2.lf hS d1 hx (hu.consistent hS).2).1 q
    omega
  · intro q
    obtain ⟨red, c1, c2, c3⟩ := id hu
    obtain ⟨red', d1, d2, d3⟩ := hu.symm
    exact ⟨(c2.lf hS c1 hx (hu.consistent hS).1).2 q, (d2.lf hS d1 hx (hu.consistent hS).2).2 q⟩
  · have sg' := hu.symm.signs hx
    omega


theorem colour_round {red : Int → Nat → Bool} (hS : S.Consistent) (hc : S.Colouring red) (hl : Loop S.tri f β η X) {m : Int} (hm : ∀ x ∈ f :: X, m ≤ S.lf x) {t : Nat} (ht : (t : Int) + 1 ≤ m) :
    ∀ x ∈ f :: X, red x t = red f t := by
  have main : ∀ (l : List Int) (a : Int), List.IsChain (fun x y => y = S.tri.spin x) (a :: l) → (∀ x ∈ a :: l, x ∈ f :: X) → ∀ x ∈ a :: l, red x t = red a t := by
    intro l
    induction l with
    | nil => intro a _ _ x hx; simp at hx; rw [hx]
    | cons b l ih =>
      intro a ch hin x hx
      rw [List.isChain_cons_cons] at ch
      rcases List.mem_cons.1 hx with rfl | hx
      · rfl
      · rw [ih b ch.2 (fun y hy => hin y (by simp at hy ⊢; tauto)) x hx]
        have la := hl.label_mem (hin a (by simp))
        obtain ⟨y, z, hg⟩ := hl.valid.comp.exists_glues la
        rw [ch.1, Sweep.spin_eq hl.valid.comp hg]
        have := (hS.strand_iff hg (t := t) (by omega)).2 (by have := hm a (hin a (by simp)); omega)
        exact (hc.corner a y z t hg this.1 this.2.1 this.2.2).symm
  have ch := hl.sweep.chain
  rw [← List.cons_append] at ch
  exact main X f ch.left_of_append (fun x hx => hx)

theorem count_congr' {p q : Nat → Prop} [DecidablePred p] [DecidablePred q] : ∀ {n : Nat}, (∀ t < n, p t ↔ q t) → Nat.count p n = Nat.count q n
  | 0, _ => by simp
  | n + 1, h => by
    rw [Nat.count_succ, Nat.count_succ, count_congr' (fun t ht => h t (by omega))]
    have := h n (by omega)
    simp only [this]

/-- the part does not go round anywhere less often than where the whole does so least often -/
theorem IsUnion.round_le (hS : S.Consistent) (hu : S.IsUnion N M) (hl : Loop S.tri f β η X) {x0 : Int} (h0 : x0 ∈ f :: X) (hm : ∀ x ∈ f :: X, S.lf x0 ≤ S.lf x) (hp : 0 ≤ S.lf x0) : ∀ x ∈ f :: X, N.lf x0 ≤ N.lf x := by
  intro x hx
  have hN := (hu.consistent hS).1
  obtain ⟨red, c1, c2, c3⟩ := hu
  rw [(c2.lf hS c1 (hl.label_mem h0) hN).1 hp, (c2.lf hS c1 (hl.label_mem hx) hN).1 (hp.trans (hm x hx))]
  have e : Nat.count (fun t => red x0 t = true) (S.lf x0).toNat = Nat.count (fun t => red x t = true) (S.lf x0).toNat := by
    refine count_congr' (fun t ht => ?_)
    rw [colour_round hS c1 hl hm (t := t) (by omega) x0 h0, colour_round hS c1 hl hm (t := t) (by omega) x hx]
  rw [e]
  have := Nat.count_monotone (fun t => red x t = true) (show (S.lf x0).toNat ≤ (S.lf x).toNat by have := hm x hx; omega)
  omega

theorem IsRound.add (hS : S.Consistent) (hu : S.IsUnion N M) (hl : Loop S.tri f β η X) {m n n' : Int} (h : S.IsRound (f :: X) m) (h1 : N.IsRound (f :: X) n) (h2 : M.IsRound (f :: X) n') : m = n + n' := by
  obtain ⟨m0, m1, x0, m2, m3⟩ := h
  have lx := hl.label_mem m2
  obtain ⟨a1, a2, a3, -⟩ := hu.at_corner hS lx
  obtain ⟨b0, b1, y, b2, b3⟩ := h1
  obtain ⟨d0, d1, z, d2, d3⟩ := h2
  have b4 := b1 x0 m2
  have d4 := d1 x0 m2
  rcases le_or_gt (S.lf x0) 0 with q | q
  · have := a3 q
    omega
  · have hm : ∀ x ∈ f :: X, S.lf x0 ≤ S.lf x := by
      intro x hx
      have := m1 x hx
      omega
    have r1 := hu.round_le hS hl m2 hm q.le y b2
    have r2 := hu.symm.round_le hS hl m2 hm q.le z d2
    have := a2 q.le
    omega

theorem sum_add {α : Type} {F G H : α → Int} : ∀ {l : List α}, (∀ x ∈ l, F x = G x + H x) → (l.map F).sum = (l.map G).sum + (l.map H).sum
  | [], _ => by simp
  | x :: l, h => by
    rw [List.map_cons, List.map_cons, List.map_cons, List.sum_cons, List.sum_cons, List.sum_cons, sum_add (fun y hy => h y (by simp [hy])), h x (by simp)]
    ring

theorem IsUnion.crossings (hS : S.Consistent) (hu : S.IsUnion N M) (hl : Loop S.tri f β η X) (hv : Triangulation.Around S.tri f X v) {x y z : Int} (h : S.parallelCrossings false f = .ok x)
    (h1 : N.parallelCrossings false f = .ok y) (h2 : M.parallelCrossings false f = .ok z) : x = y + z := by
  have hC := hu.consistent hS
  have w := hu.wf
  obtain ⟨m, m1, m2⟩ := crossings_value hS hl hv
  obtain ⟨n, n1, n2⟩ := crossings_value (M := N) hC.1 (f := f) (β := β) (η := η) (X := X) (v := v) (by rw [w.2.2.1]; exact hl) (by rw [w.2.2.1]; exact hv)
  obtain ⟨n', n1', n2'⟩ := crossings_value (M := M) hC.2 (f := f) (β := β) (η := η) (X := X) (v := v) (by rw [w.2.2.2]; exact hl) (by rw [w.2.2.2]; exact hv)
  rw [m2] at h
  rw [n2] at h1
  rw [n2'] at h2
  injection h with h
  injection h1 with h1
  injection h2 with h2
  have k1 := m1.add hS hu hl n1 n1'
  have k2 : (((f :: X).map S.lf).map (fun x => max (-x) 0)).sum = (((f :: X).map N.lf).map (fun x => max (-x) 0)).sum + (((f :: X).map M.lf).map (fun x => max (-x) 0)).sum := by
    simp only [List.map_map]
    refine sum_add (fun x hx => ?_)
    obtain ⟨a1, a2, a3, -⟩ := hu.at_corner hS (hl.label_mem hx)
    simp only [Function.comp]
    rcases le_total 0 (S.lf x) with q | q
    · have := a2 q; omega
    · have := a3 q; omega
  have k3 : ((X.map S.w).map (fun x => max (-x) 0)).sum = ((X.map N.w).map (fun x => max (-x) 0)).sum + ((X.map M.w).map (fun x => max (-x) 0)).sum := by
    simp only [List.map_map]
    refine sum_add (fun x hx => ?_)
    exact (hu.at_corner hS (hl.label_mem (by simp [hx]))).2.2.2.2
  have k4 := (hu.at_corner hS (hl.label_mem (x := f) (by simp))).2.2.2.1
  omega

theorem IsUnion.arcCrossings (hS : S.Consistent) (hu : S.IsUnion N M) (hf : S.tri.IsLabel f) {x y z : Int} (h : S.parallelCrossings true f = .ok x)
    (h1 : N.parallelCrossings true f = .ok y) (h2 : M.parallelCrossings true f = .ok z) : x = y + z := by
  have w := hu.wf
  have hw : ∀ {M : Lam Int}, M.WellFormed → M.tri.IsLabel f → M.parallelCrossings true f = .ok (max (M.w f) 0) := by
    intro M wM hf
    unfold parallelCrossings
    rw [if_pos rfl]
    unfold wt0
    rw [wt_eq wM.2 hf]
    rfl
  rw [hw hS.1 hf] at h
  rw [hw w.1 (by rw [w.2.2.1]; exact hf)] at h1
  rw [hw w.2.1 (by rw [w.2.2.2]; exact hf)] at h2
  injection h with h
  injection h1 with h1
  injection h2 with h2
  have k4 := (hu.at_corner hS hf).2.2.2.1
  omega

theorem vertexCrossings_value (hM : M.Consistent) {v : List Int} (hv : ∀ x ∈ v, M.tri.IsLabel x) : M.vertexCrossings v = .ok (v.map (fun x => max (-M.w x) 0 + max (-M.lf x) 0)).sum := by
  unfold vertexCrossings
  have : v.mapM (fun e => do
    let x ← M.wt e
    let y ← M.leftWeight e
    return max (-x) 0 + max (-y) 0) = .ok (v.map (fun x => max (-M.w x) 0 + max (-M.lf x) 0)) := by
    refine mapM_ok (fun x hx => ?_)
    rw [wt_eq hM.1.2 (hv x hx), py_bind_ok, hM.left (hv x hx), py_bind_ok]
    rfl
  rw [this, py_bind_ok]
  rfl

theorem IsUnion.vertexCrossings (hS : S.Consistent) (hu : S.IsUnion N M) {v : List Int} (hv : ∀ x ∈ v, S.tri.IsLabel x) {x y z : Int} (h : S.vertexCrossings v = .ok x)
    (h1 : N.vertexCrossings v = .ok y) (h2 : M.vertexCrossings v = .ok z) : x = y + z := by
  have hC := hu.consistent hS
  have w := hu.wf
  rw [vertexCrossings_value hS hv] at h
  rw [vertexCrossings_value hC.1 (by rw [w.2.2.1]; exact hv)] at h1
  rw [vertexCrossings_value hC.2 (by rw [w.2.2.2]; exact hv)] at h2
  injection h with h
  injection h1 with h1
  injection h2 with h2
  rw [← h, ← h1, ← h2]
  refine sum_add (fun x hx => ?_)
  obtain ⟨a1, a2, a3, -, a4⟩ := hu.at_corner hS (hv x hx)
  rcases le_total 0 (S.lf x) with q | q
  · have := a2 q; omega
  · have := a3 q; omega

theorem mapM_add {α : Type} {F G H : α → Py Int} : ∀ {l : List α} {xs ys zs : List Int}, (∀ q ∈ l, ∀ a b c, F q = .ok a → G q = .ok b → H q = .ok c → a = b + c) →
    l.mapM F = .ok xs → l.mapM G = .ok ys → l.mapM H = .ok zs → xs.sum = ys.sum + zs.sum
  | [], xs, ys, zs, _, h1, h2, h3 => by cases h1; cases h2; cases h3; rfl
  | q :: l, xs, ys, zs, h, h1, h2, h3 => by
    rw [List.mapM_cons] at h1 h2 h3
    simp only [py_bind_eq_ok] at h1 h2 h3
    obtain ⟨a, a1, as, a2, a3⟩ := h1
    obtain ⟨b, b1, bs, b2, b3⟩ := h2
    obtain ⟨c, c1, cs, c2, c3⟩ := h3
    cases a3; cases b3; cases c3
    have := mapM_add (fun r hr => h r (by simp [hr])) a2 b2 c2
    have := h q (by simp) a b c a1 b1 c1
    rw [List.sum_cons, List.sum_cons, List.sum_cons]
    omega

theorem Ended.crossings_add {g : Enc} (h : Ended c s g) (hS : S.Consistent) (hu : S.IsUnion N M) (ht : S.tri = c.tri) {Sh : Lam Int → Py (Lam Int × Enc)} (hSh : Sh c = .ok (s, g)) {x y z : Int}
    (hx : c.intersectionWith Sh S = .ok x) (hy : c.intersectionWith Sh N = .ok y) (hz : c.intersectionWith Sh M = .ok z) : x = y + z := by
  unfold intersectionWith at hx hy hz
  simp only [py_bind_eq_ok] at hx hy hz
  obtain ⟨_, -, ⟨s1, g1⟩, e1, S', hS', per1, p1, xs, p2, par1, p3, ys, p4, hx⟩ := hx
  obtain ⟨_, -, ⟨s2, g2⟩, e2, N', hN', per2, q1, xs', q2, par2, q3, ys', q4, hy⟩ := hy
  obtain ⟨_, -, ⟨s3, g3⟩, e3, M', hM', per3, r1, xs'', r2, par3, r3, ys'', r4, hz⟩ := hz
  cases hSh.symm.trans e1
  cases hSh.symm.trans e2
  cases hSh.symm.trans e3
  dsimp only at hS' p1 p3 hN' q1 q3 hM' r1 r3
  cases p1.symm.trans q1
  cases p1.symm.trans r1
  cases p3.symm.trans q3
  cases p3.symm.trans r3
  injection hx with hx
  injection hy with hy
  injection hz with hz
  subst hx hy hz
  have l := h.shortens.legal
  have hs := h.consistent
  have tS' : S'.tri = s.tri := (l.undo hS.1 hS').2.1.trans h.shortens.target
  obtain ⟨X', Y', a1, a2, u'⟩ := hu.enc hS l hS'
  cases hN'.symm.trans a1
  cases hM'.symm.trans a2
  have cS' := hS.enc l hS'
  have hz : s.tri.zeta = S.tri.zeta := by rw [← h.shortens.target, l.path.zeta, h.shortens.source, ht]
  have hlab : ∀ {x}, s.tri.IsLabel x ↔ S.tri.IsLabel x := by
    intro x; unfold Triangulation.IsLabel; rw [hz]
  have k1 := mapM_add (fun q hq a b c i1 i2 i3 => by
    simp only [py_bind_eq_ok] at i1 i2 i3
    obtain ⟨a', i1, e1⟩ := i1
    obtain ⟨b', i2, e2⟩ := i2
    obtain ⟨c', i3, e3⟩ := i3
    injection e1 with e1
    injection e2 with e2
    injection e3 with e3
    obtain ⟨vs, hv, μ, h1, h2, per1'⟩ := peripheralComponents_ok hs
    obtain ⟨v1, v2, v3, v4⟩ := hs.1.1.comp.vertices_mem hv
    cases p1.symm.trans per1'
    obtain ⟨v, hv', rfl⟩ := List.mem_map.1 hq
    have := hu.vertexCrossings hS (v := v) (fun x hx => hlab.1 ((v2 v (List.mem_of_mem_filter hv')).2.2 x hx)) i1 i2 i3
    rw [← e1, ← e2, ← e3, this]
    ring) p2 q2 r2
  obtain ⟨he, -⟩ := parallel_entries hs.1 p3
  have k2 := mapM_add (fun q hq a b c i1 i2 i3 => by
    simp only [py_bind_eq_ok] at i1 i2 i3
    obtain ⟨a', i1, e1⟩ := i1
    obtain ⟨b', i2, e2⟩ := i2
    obtain ⟨c', i3, e3⟩ := i3
    injection e1 with e1
    injection e2 with e2
    injection e3 with e3
    have : a' = b' + c' := by
      obtain ⟨f1, f2⟩ := he q hq
      rcases f2 with ⟨f2, f3, f4, f5⟩ | f2
      · rw [f2] at i1 i2 i3
        exact u'.arcCrossings cS' (by rw [tS']; exact f1) i1 i2 i3
      · obtain ⟨-, X, v, hX, c0, c1, -⟩ := parallelCurve_some hs.1.1.comp f1 f2
        obtain ⟨β, η, hl⟩ := hX.loop hs.1.1 f1 c0
        rw [c1] at i1 i2 i3
        exact u'.crossings cS' (by rw [tS']; exact hl) (by rw [tS']; exact hX) i1 i2 i3
    rw [← e1, ← e2, ← e3, this]
    ring) p4 q4 r4
  rw [k1, k2]
  ring

end Lam
end Curver
