import Verif.Proofs.TwistCode

/-!
# Short curves: the curve parallel to an edge
-/

namespace Curver
open Triangulation

theorem foldlM_inv {α β : Type _} {f : β → α → Py β} (P : β → Prop) : ∀ {l : List α} {b c : β}, P b → (∀ b x c, x ∈ l → P b → f b x = .ok c → P c) →
    l.foldlM f b = .ok c → P c
  | [], b, c, hb, _, h => by cases h; exact hb
  | x :: l, b, c, hb, hf, h => by
    rw [List.foldlM_cons, py_bind_eq_ok] at h
    obtain ⟨d, h1, h2⟩ := h
    exact foldlM_inv P (hf b x d (by simp) hb h1) (fun b y c hy => hf b y c (by simp [hy])) h2

namespace Lam
variable {R : Type} [CommRing R] [LinearOrder R] [IsStrictOrderedRing R] [Halvable R] [IntTest R] {L : Lam R}

omit [IsStrictOrderedRing R] [Halvable R] [IntTest R] in
theorem eqv_spec {K M : Lam R} : K.eqv M = true ↔ K.tri = M.tri ∧ K.geometric = M.geometric := by
  unfold eqv
  rw [Bool.and_eq_true, beq_iff_eq, beq_iff_eq]

omit [IsStrictOrderedRing R] [Halvable R] [IntTest R] in
theorem mem_setComponent {α : Type} {v : α} {M : Lam R} : ∀ {d : List (Lam R × α)} {p : Lam R × α}, p ∈ setComponent d M v → p ∈ d ∨ (p.2 = v ∧ ((∃ u, (p.1, u) ∈ d ∧ p.1.eqv M = true) ∨ p.1 = M))
  | [], p, h => by
    simp only [setComponent, List.mem_singleton] at h
    subst h; exact .inr ⟨rfl, .inr rfl⟩
  | (K, u) :: d, p, h => by
    rw [setComponent] at h
    split at h
    · next hk =>
      rcases List.mem_cons.1 h with rfl | h
      · exact .inr ⟨rfl, .inl ⟨u, by simp, hk⟩⟩
      · exact .inl (by simp [h])
    · rcases List.mem_cons.1 h with rfl | h
      · exact .inl (by simp)
      · rcases mem_setComponent h with k | ⟨k1, ⟨w, k2, k3⟩ | k2⟩
        · exact .inl (by simp [k])
        · exact .inr ⟨k1, .inl ⟨w, by simp [k2], k3⟩⟩
        · exact .inr ⟨k1, .inr k2⟩

theorem NoArcs.parallelArc (hL : L.NoArcs) {x : Int} (hx : L.tri.IsLabel x) : L.parallelArc x = .ok none := by
  unfold Lam.parallelArc
  split
  · rw [wt_eq hL.1.2 hx, py_bind_ok, if_neg (by have := hL.w_nonneg hx; linarith)]; rfl
  · rfl

/-- when the curve parallel to an edge is found -/
theorem parallelCurve_some {x : Int} {K : Lam R} {k : R} (hT : L.tri.Complete) (hx : L.tri.IsLabel x) (h : L.parallelCurve x = .ok (some (K, k))) : 0 < k ∧ ∃ X v, Around L.tri x X v ∧ 2 ≤ X.length ∧ K = L.tri.curveFromCutSequence X ∧
    ∃ m, L.aroundWeight (x :: X) = .ok m ∧ L.twistingWeight (x :: X) m = .ok k ∧ L.leftWeight x = .ok m ∧ ∀ y, X.getLast? = some y → L.leftWeight y = .ok m := by
  unfold Lam.parallelCurve at h
  simp only [py_bind_eq_ok] at h
  obtain ⟨v, hv, u, hu, h⟩ := h
  split at h
  swap; · cases h
  next hvu =>
  subst hvu
  simp only [py_bind_eq_ok] at h
  obtain ⟨l, hl, h⟩ := h
  have hs : cyclicSlice v x (some (inv x)) = .ok l := by
    unfold Lam.around at hl
    rwa [hv, py_bind_ok] at hl
  split at h
  swap; · cases h
  next hlen =>
  simp only [py_bind_eq_ok] at h
  obtain ⟨m, hm, t, ht, h⟩ := h
  split at h
  swap; · cases h
  next first last hf hla =>
  simp only [py_bind_eq_ok] at h
  obtain ⟨y, hy, h⟩ := h
  split at h
  swap; · cases h
  next hym =>
  simp only [py_bind_eq_ok] at h
  obtain ⟨z, hz, h⟩ := h
  split at h
  swap; · cases h
  next hzm =>
  split at h
  swap; · cases h
  next ht0 =>
  simp only [py_bind_eq_ok] at h
  obtain ⟨c, hc, h⟩ := h
  simp only [py_pure, Except.ok.injEq, Option.some.injEq, Prod.mk.injEq] at h
  obtain ⟨rfl, rfl⟩ := h
  obtain ⟨w, _, k1, _, _, k4, _⟩ := hT.vertexOf_ok (isLabel_inv.2 hx)
  rw [hu] at k1; cases k1
  obtain ⟨X, e1, e2⟩ := hT.sweep hx hv k4
  rw [hs] at e1; cases e1
  have hA : Around L.tri x X v := ⟨hv, hu, hs⟩
  rw [hA.edgeCurve] at hc; cases hc
  simp only [List.head?_cons, Option.some.injEq] at hf
  subst hf
  simp only [List.length_cons] at hlen
  refine ⟨ht0, X, v, hA, by omega, rfl, m, hm, ht, by rw [hy, hym], ?_⟩
  intro y' hy'
  have hne : X ≠ [] := by rintro rfl; simp at hy'
  rw [List.getLast?_cons, hy'] at hla
  simp only [Option.getD_some, Option.some.injEq] at hla
  subst hla
  rw [hz, hzm]

theorem parallel_mem (hL : L.NoArcs) {comps : List (Lam R × (R × Int))} (h : L.parallelComponents = .ok comps) : ∀ p ∈ comps,
    L.tri.IsLabel p.2.2 ∧ p.1.cls = .curve ∧ ∃ K, p.1.eqv K = true ∧ L.parallelCurve p.2.2 = .ok (some (K, p.2.1)) := by
  unfold Lam.parallelComponents at h
  refine foldlM_inv (fun (d : List (Lam R × (R × Int))) => ∀ p ∈ d, L.tri.IsLabel p.2.2 ∧ p.1.cls = .curve ∧ ∃ K, p.1.eqv K = true ∧ L.parallelCurve p.2.2 = .ok (some (K, p.2.1)))
    (by simp) ?_ h
  intro d x d' hx hd hf p hp
  have hxl := mem_labels.1 hx
  unfold parallelStep at hf
  rw [hL.parallelArc hxl, py_bind_ok, py_bind_eq_ok] at hf
  obtain ⟨c, hc, hf⟩ := hf
  cases c with
  | none => cases hf; exact hd p hp
  | some q =>
    obtain ⟨K, k⟩ := q
    cases hf
    obtain ⟨k0, X, v, hA, hX, hK, -⟩ := parallelCurve_some hL.1.1.comp hxl hc
    rcases mem_setComponent hp with k1 | ⟨k1, k2⟩
    · exact hd p k1
    · rw [k1]
      refine ⟨hxl, ?_, K, ?_, hc⟩
      · rcases k2 with ⟨u, k2, _⟩ | k2
        · exact (hd _ k2).2.1
        · rw [k2, hK]; rfl
      · rcases k2 with ⟨u, _, k2⟩ | k2
        · exact k2
        · rw [k2, eqv_spec]; exact ⟨rfl, rfl⟩

/-- `c` is the curve parallel to the edge `a`, and that is found out -/
structure ShortAt (c : Lam Int) (a b e : Int) (X v : List Int) (K : Lam Int) : Prop where
  noArcs : c.NoArcs
  around : Around c.tri a X v
  loop : Loop c.tri a b e X
  comps : c.parallelComponents = .ok [(K, (1, a))]
  cls : K.cls = .curve
  eqv : K.eqv c = true
  cut : c.geometric = c.tri.cutSequenceIntersections X

theorem parallelEdge_spec {P : Lam Int → Py LamClass} {c : Lam Int} (hc : c.NoArcs) {a : Int} (h : c.parallelEdge P = .ok a) :
    c.isPeripheral P = .ok false ∧ ∃ b e X v K, ShortAt c a b e X v K := by
  unfold Lam.parallelEdge at h
  simp only [py_bind_eq_ok] at h
  obtain ⟨p, hp, _, hp', s, hs, _, hs', comps, hcomps, h⟩ := h
  rw [pyAssert_ok_iff] at hp' hs'
  have hpf : p = false := by simpa using hp'
  subst hpf
  refine ⟨hp, ?_⟩
  split at h
  swap; · cases h
  next K k x =>
  simp only [py_bind_eq_ok, pyAssert_ok_iff] at h
  obtain ⟨_, hK, _, hk, h⟩ := h
  cases h
  have hk1 : k = 1 := by simpa using hk
  subst hk1
  obtain ⟨hl, hcls, K', hK', hpc⟩ := parallel_mem hc hcomps _ (List.mem_singleton.2 rfl)
  dsimp only at hl hcls hK' hpc
  obtain ⟨_, X, v, hA, hX, rfl, -⟩ := parallelCurve_some hc.1.1.comp hl hpc
  obtain ⟨b, e, hloop⟩ := hA.loop hc.1.1 hl hX
  refine ⟨b, e, X, v, K, hc, hA, hloop, hcomps, hcls, hK, ?_⟩
  rw [← (eqv_spec.1 hK).2, (eqv_spec.1 hK').2]
  rfl

namespace ShortAt
variable {c : Lam Int} {a b e : Int} {X v : List Int} {K : Lam Int}

theorem wf (h : ShortAt c a b e X v K) : c.WellFormed := h.noArcs.1

theorem consistent (h : ShortAt c a b e X v K) : c.Consistent := (noArcs_iff.1 h.noArcs).1

theorem w (h : ShortAt c a b e X v K) {x : Int} (hx : c.tri.IsLabel x) : c.w x = cn X x := by
  have := link_w (R := Int) X hx
  unfold cn
  rw [← Nat.cast_add]
  rw [← Int.cast_natCast (R := Int)] at this
  have e : c.w x = (c.tri.curveFromCutSequence X : Lam Int).w x := by
    unfold Lam.w curveFromCutSequence
    rw [h.cut]
  rw [e, this]
  simp

theorem corner (h : ShortAt c a b e X v K) {x y z : Int} (hg : c.tri.Glues x y z) : c.leftWeight x = .ok (c.lf x) ∧ 2 * c.lf x = cn X x + cn X z - cn X y := by
  have hl := h.wf.1.comp.label_of_glues hg
  obtain ⟨h1, h2, _⟩ := h.noArcs.lf_spec hg
  rw [h.w hl.1, h.w hl.2.1, h.w hl.2.2] at h2
  exact ⟨h1, by omega⟩

/-- no curve around a vertex can be split off -/
theorem mu (h : ShortAt c a b e X v K) {x : Int} (hx : c.tri.IsLabel x) : c.mu x = 0 := by
  have hc := h.wf.1.comp
  have hm := isMult_mu h.consistent
  have h0 := hm.nonneg x hx
  suffices H : ∃ y, c.tri.SV x y ∧ c.lf y = 0 by
    obtain ⟨y, h1, h2⟩ := H
    have hy := hc.sv_label hx h1
    have h3 := hm.le y _ hy (h.noArcs.left hy).1
    rw [← hm.const x y hx h1, h2] at h3
    simp at h3
    omega
  have ha : c.lf a = 0 := by
    have := (h.corner h.loop.glues).2
    rw [h.loop.cn_a, h.loop.cn_b, h.loop.cn_e] at this
    omega
  have hX : ∀ y ∈ X, c.tri.SV y a := by
    intro y hy
    have : ∀ z ∈ a :: (X ++ [inv a]), c.tri.IsLabel z ∧ c.tri.SV z a := by
      refine chain_all (P := fun z => c.tri.IsLabel z ∧ c.tri.SV z a) _ _ h.loop.sweep.chain ⟨h.loop.sweep.label, hc.sv_refl h.loop.sweep.label⟩ ?_
      intro z _ hz
      have l1 := hc.isLabel_spin hz.1
      exact ⟨l1, hc.sv_trans l1 (hc.sv_symm hz.1 (hc.sv_spin hz.1)) hz.2⟩
    exact (this y (by simp [hy])).2
  by_cases h1 : x ∈ X
  · exact ⟨a, hX x h1, ha⟩
  by_cases h2 : x = a
  · subst h2; exact ⟨x, hc.sv_refl hx, ha⟩
  have h3 : x ≠ b := fun k => h1 (k ▸ h.loop.b_mem)
  have other : ∀ y, c.tri.IsLabel y → y ∉ X → y ≠ a → y ≠ b → y ≠ e → c.lf y = 0 := by
    intro y hy k1 k2 k3 k4
    obtain ⟨u, w, hg⟩ := hc.exists_glues hy
    have := (h.corner hg).2
    rw [h.loop.corner_other hg ⟨k2, k3, k4⟩, List.count_eq_zero.2 k1] at this
    simp at this
    omega
  by_cases h4 : x = e
  · subst h4
    refine ⟨inv b, ?_, ?_⟩
    · have := hc.sv_spin hx
      rwa [Sweep.spin_eq hc h.loop.glues.rot.rot] at this
    · have B := h.loop.fan.base
      have lb := (hc.label_of_glues h.loop.glues).2.1
      refine other (inv b) (isLabel_inv.2 lb) (fun k => h1 (h.loop.e_mem_iff.2 k)) ?_ (inv_ne b) ?_
      · intro k
        exact h.loop.sweep.notin (by rw [← k, inv_inv]; exact h.loop.b_mem)
      · intro k
        exact B.left_b.ni (by rw [← k, inv_inv])
  · exact ⟨x, hc.sv_refl hx, other x hx h1 h2 h3 h4⟩

theorem peripheralComponents (h : ShortAt c a b e X v K) : c.peripheralComponents = .ok [] := by
  obtain ⟨vs, hvs, μ, h1, h2, h3⟩ := peripheralComponents_ok h.consistent
  rw [h3]
  have : vs.filter (fun v => decide (0 < μ v)) = [] := by
    rw [List.filter_eq_nil_iff]
    intro w hw
    obtain ⟨k1, k2, _⟩ := h.wf.1.comp.vertices_mem hvs
    obtain ⟨x, hx⟩ := List.exists_mem_of_ne_nil _ (k2 w hw).1.ne
    rw [h2 w hw x hx, h.mu ((k2 w hw).2.2 x hx)]
    simp
  rw [this]; rfl

theorem peripheral (h : ShortAt c a b e X v K) (P : Lam Int → Py LamClass) : c.peripheral P = .ok c.tri.emptyLamination := by
  unfold Lam.peripheral
  rw [h.peripheralComponents, py_bind_ok]
  rfl

theorem nonPeripheral (h : ShortAt c a b e X v K) (P : Lam Int → Py LamClass) : c.nonPeripheral P false = .ok ⟨c.tri, c.geometric, .lamination⟩ := by
  unfold Lam.nonPeripheral
  rw [h.peripheral, py_bind_ok]
  have : List.zipWith (· - ·) c.geometric (c.tri.emptyLamination : Lam Int).geometric = c.geometric := by
    unfold emptyLamination
    rw [← h.wf.2]
    generalize c.geometric = l
    induction l with
    | nil => rfl
    | cons x l ih => simp [List.replicate_succ, ih]
  rw [this]
  unfold lamination
  simp [h.wf.2, pyAssert]

theorem subtract (h : ShortAt c a b e X v K) : (⟨c.tri, c.geometric, .lamination⟩ : Lam Int).subtractParallel = .ok (c.geometric.map (fun _ => 0), ([], [(a, 1)])) := by
  unfold subtractParallel subtractFrom
  have h1 : (⟨c.tri, c.geometric, .lamination⟩ : Lam Int).parallelComponents = c.parallelComponents := rfl
  rw [h1, h.comps, py_bind_ok]
  have h2 : (⟨c.tri, c.geometric, .lamination⟩ : Lam Int).wt a = .ok 0 := by
    have : (⟨c.tri, c.geometric, .lamination⟩ : Lam Int).wt a = c.wt a := rfl
    rw [this, wt_eq h.wf.2 h.loop.sweep.label, h.w h.loop.sweep.label, h.loop.cn_a]
  simp only [List.foldlM_cons, List.foldlM_nil, h2, py_bind_ok, le_refl, if_true, h.cls]
  rw [if_neg (by decide)]
  have h3 : List.zipWith (fun x y => x - y * 1) c.geometric K.geometric = c.geometric.map (fun _ => (0 : Int)) := by
    rw [(eqv_spec.1 h.eqv).2]
    generalize c.geometric = l
    induction l with
    | nil => rfl
    | cons x l ih => simp
  rw [h3]
  rfl

theorem short (h : ShortAt c a b e X v K) (hcls : c.cls = .curve) (P : Lam Int → Py LamClass) : ∃ i, c.tri.idEncoding = .ok i ∧ c.shorten P = .ok (c, i) := by
  obtain ⟨i, i1, _⟩ := h.wf.1.idEncoding_spec
  refine ⟨i, i1, ?_⟩
  unfold shorten
  rw [h.peripheral, py_bind_ok, h.nonPeripheral, py_bind_ok, i1, py_bind_ok, h.subtract, py_bind_ok]
  dsimp only
  rw [if_pos (by simp)]
  have hK : c.tri.curveFromCutSequence X = c := by
    cases c with
    | mk t g k => simp only at hcls; subst hcls; have := h.cut; simp only at this; rw [this]; rfl
  have h1 : (List.mapM (fun (p : Int × Int) => do let k ← (c.tri.edgeCurve p.1 : Py (Lam Int)); pure (k, p.2)) [(a, (1 : Int))] : Py _) = .ok [(c, 1)] := by
    simp only [List.mapM_cons, List.mapM_nil, h.around.edgeCurve, py_bind_ok, hK]
    rfl
  have h2 := h1
  rw [h2, py_bind_ok]
  have hne : c.isEmpty = false := by
    by_contra hn
    have hn : c.isEmpty = true := by simpa using hn
    rw [all_zero_iff h.wf] at hn
    have lb := (h.wf.1.comp.label_of_glues h.loop.glues).2.1
    have := hn b lb
    rw [h.w lb, h.loop.cn_b] at this
    omega
  have hd : (c.tri.emptyLamination : Lam Int).eqv c = false := by
    by_contra hn
    have hn : (c.tri.emptyLamination : Lam Int).eqv c = true := by simpa using hn
    have := (eqv_spec.1 hn).2
    unfold isEmpty at hne
    rw [← this] at hne
    simp [emptyLamination] at hne
  have h3 : (List.foldl (fun d (p : Lam Int × Int) => setComponent d p.1 p.2) [] ((c.tri.emptyLamination, 1) :: (List.map (fun (p : Int × Int) => (c.tri.edgeArcOf p.1, p.2)) [] ++ [(c, 1)]))) = [(c.tri.emptyLamination, 1), (c, 1)] := by
    simp only [List.map_nil, List.nil_append, List.foldl_cons, List.foldl_nil, setComponent, hd]
    simp
  rw [h3]
  have hem : (c.tri.emptyLamination : Lam Int).isEmpty = true := by
    simp [isEmpty, emptyLamination]
  have hint : c.isIntegral = .ok true := by
    unfold isIntegral
    rw [if_pos, pyAllM_ok_iff]
    · intro x hx
      obtain ⟨n, hn⟩ := h.consistent.2 x (mem_labels.1 hx)
      rw [hn, py_bind_ok]; rfl
    · rw [List.all_eq_true]; intro _ _; rfl
  have hkeep : keepNonempty [((c.tri.emptyLamination : Lam Int), (1 : Int)), (c, 1)] = [(c, 1)] := by
    simp [keepNonempty, hem, hne]
  unfold disjointSumDict
  rw [if_neg (by simp [emptyLamination]), if_neg (by simp), hkeep, if_neg (by simp)]
  have hall : pyAllM (fun (p : Lam Int × Int) => p.1.isIntegral) [(c, 1)] = .ok true := by
    simp only [pyAllM, hint, py_bind_ok, if_true]
  rw [hall, py_bind_ok]
  have hw : weighted [(c, (1 : Int))] = c.geometric := by
    unfold weighted
    apply List.ext_getElem?
    intro j
    simp only [List.map_cons, List.map_nil, List.sum_cons, List.sum_nil, mul_one, add_zero, List.min?_singleton, Option.getD_some]
    rw [List.getElem?_map]
    by_cases hj : j < c.geometric.length
    · rw [List.getElem?_range hj, List.getElem?_eq_getElem hj, Option.map_some, List.getElem?_eq_getElem hj]; rfl
    · rw [List.getElem?_eq_none (by simpa using hj), List.getElem?_eq_none (by omega)]; rfl
  have hdc : disjointClass [(c, (1 : Int))] = .curve := by
    simp [disjointClass, hcls, LamClass.isMultiArc, LamClass.isMultiCurve, LamClass.isConnected]
  rw [hw, hdc]
  have : (⟨c.tri, c.geometric, .curve⟩ : Lam Int) = c := by cases c; simp only at hcls; rw [hcls]
  simp [this]

end ShortAt

end Lam
end Curver
