import Verif.Model.VertexMap
import Verif.Proofs.VertexMap
import Verif.Proofs.Action

namespace Curver
open Triangulation

/-- corresponding vertices -/
def VMatch (C : Int → Int → Prop) (v w : List Int) : Prop := ∀ x y, C x y → (x ∈ v ↔ y ∈ w)

theorem VCorr.exists_match {S T : Triangulation} {C : Int → Int → Prop} (h : VCorr S T C) (hS : S.Complete) (hT : T.Complete) {vs ws : List (List Int)}
    (hvs : S.vertices = .ok vs) (hws : T.vertices = .ok ws) {v : List Int} (hv : v ∈ vs) : ∃ w ∈ ws, VMatch C v w := by
  obtain ⟨a1, a2, a3, a4⟩ := hS.vertices_mem hvs
  obtain ⟨b1, b2, b3, b4⟩ := hT.vertices_mem hws
  obtain ⟨x, hx⟩ := List.exists_mem_of_ne_nil _ (a2 v hv).1.ne
  have lx := (a2 v hv).2.2 x hx
  obtain ⟨y, hy⟩ := h.total x lx
  have ly := (h.lab _ _ hy).2
  obtain ⟨w, hw, hyw⟩ := b1 y ly
  refine ⟨w, hw, ?_⟩
  intro x' y' h'
  have k := h.sv _ _ _ _ hy h'
  have e1 : S.SV x x' ↔ x' ∈ v := by
    unfold SV
    rw [hS.vertexOf_of_mem hvs hv hx]
    constructor
    · rintro ⟨u, hu, hx⟩; cases hu; exact hx
    · intro hx'; exact ⟨v, rfl, hx'⟩
  have e2 : T.SV y y' ↔ y' ∈ w := by
    unfold SV
    rw [hT.vertexOf_of_mem hws hw hyw]
    constructor
    · rintro ⟨u, hu, hx⟩; cases hu; exact hx
    · intro hx'; exact ⟨w, rfl, hx'⟩
  rw [← e1, ← e2, k]

/-- the curve around a vertex is carried to the curve around the corresponding vertex -/
theorem Path.link {R : Type} [CommRing R] [LinearOrder R] [IsStrictOrderedRing R] [Halvable R] [IntTest R] {S T : Triangulation} {ms : List LMove}
    (hp : Path S ms T) {C : Int → Int → Prop} (hC : VCorr S T C) (hR : Carries (R := R) S T (Curver.performLam ms) C)
    {vs ws : List (List Int)} (hvs : S.vertices = .ok vs) (hws : T.vertices = .ok ws) {v w : List Int} (hv : v ∈ vs) (hw : w ∈ ws) (hm : VMatch C v w) :
    Curver.performLam ms (S.curveFromCutSequence v : Lam R) = .ok (T.curveFromCutSequence w) := by
  have hS := hp.valid_source
  have hT := hp.valid_target
  obtain ⟨a1, a2, a3, a4⟩ := hS.comp.vertices_mem hvs
  obtain ⟨b1, b2, b3, b4⟩ := hT.comp.vertices_mem hws
  obtain ⟨x, hx⟩ := List.exists_mem_of_ne_nil _ (a2 v hv).1.ne
  have hv' : ∃ e, S.IsLabel e ∧ S.vertexOf e = .ok v := ⟨x, (a2 v hv).2.2 x hx, hS.comp.vertexOf_of_mem hvs hv hx⟩
  obtain ⟨y, hy⟩ := List.exists_mem_of_ne_nil _ (b2 w hw).1.ne
  have hw' : ∃ e, T.IsLabel e ∧ T.vertexOf e = .ok w := ⟨y, (b2 w hw).2.2 y hy, hT.comp.vertexOf_of_mem hws hw hy⟩
  have hcons := (Lam.consistent_link (R := R) hS hv').1
  set M : Lam R := S.curveFromCutSequence v with hM
  have hMT : M.tri = S := rfl
  obtain ⟨M', h1, h2, h3, h4⟩ := hp.performLam_total hcons hMT
  have mlt := Lam.isMult_links (M := M) (m := fun e => (v.count e : R)) hcons.1 (fun e _ => Nat.cast_nonneg _)
    (fun e f he hs => by rw [hS.comp.link_consts hv' e f he hs]) (fun e he => by rw [hM, link_w (T := S) v he, Nat.cast_add])
  have hfit := mlt.2.2.fits hcons
  have hcnt : ∀ x y, C x y → (w.count y : R) = (v.count x : R) := by
    intro x y hxy
    rw [(a2 v hv).2.1.count, (b2 w hw).2.1.count]
    simp only [hm x y hxy]
  obtain ⟨f1, f2⟩ := hR.fits M M' (fun e => (v.count e : R)) (fun e => (w.count e : R)) hcons hMT h1 hfit hcnt
    (fun e f he hs => by rw [hT.comp.link_consts hw' e f he hs])
  obtain ⟨N, hN⟩ := Lam.exists_removes hcons.1 (fun e => (v.count e : R))
  obtain ⟨N', g1, g2⟩ := f2 N hN
  have hz : ∀ e, S.IsLabel e → N.w e = 0 := by
    intro e he
    rw [hN.w e he, hM, link_w (T := S) v he, Nat.cast_add]; ring
  have hz' := hR.zero N N' (hN.consistent hcons hfit) hN.tri g1 hz
  rw [h1]
  congr 1
  refine Lam.ext_w h2 h4 h3.1.2 (cut_length w) ?_
  intro e he
  rw [h2] at he
  rw [link_w w he]
  have := g2.w e (by rw [h2]; exact he)
  rw [hz' e he] at this
  rw [Nat.cast_add]; linarith

namespace Enc
variable {h : Enc}

theorem applyLam_on {R : Type} [CommRing R] [LinearOrder R] [Halvable R] (h : Enc) {L : Lam R} (ht : h.source = L.tri) : h.applyLam L = performLam h.performed L := by
  rw [applyLam_eq, if_pos ht]

theorem Legal.carries (hh : h.Legal) : ∃ C, VCorr h.source h.target C ∧
    ∀ (R : Type) [CommRing R] [LinearOrder R] [IsStrictOrderedRing R] [Halvable R], Carries (R := R) h.source h.target (performLam h.performed) C :=
  hh.path.carries

theorem getComponent_links {T : Triangulation} : ∀ (ws : List (List Int)) (d : List (Lam Int × List Int)),
    (ws.Pairwise (fun v w => (T.cutSequenceIntersections v : List Int) ≠ T.cutSequenceIntersections w)) →
    (∀ p ∈ d, ∀ w ∈ ws, p.1.eqv (T.curveFromCutSequence w) = false) →
    ws.foldl (fun d w => Lam.setComponent d (T.curveFromCutSequence w : Lam Int) w) d = d ++ ws.map (fun w => (T.curveFromCutSequence w, w)) := by
  intro ws
  induction ws with
  | nil => intro d _ _; simp
  | cons w ws ih =>
    intro d h1 h2
    rw [List.pairwise_cons] at h1
    rw [List.foldl_cons, Lam.setComponent_new (fun p hp => h2 p hp w (by simp)), ih _ h1.2]
    · simp
    · intro p hp u hu
      rw [List.mem_append] at hp
      rcases hp with hp | hp
      · exact h2 p hp u (by simp [hu])
      · simp only [List.mem_singleton] at hp
        subst hp
        simp only [Lam.eqv, curveFromCutSequence, beq_self_eq_true, Bool.true_and, beq_eq_false_iff_ne]
        exact h1.1 u hu

theorem getComponent_find {T : Triangulation} {ws : List (List Int)} (hn : ws.Pairwise (fun v w => (T.cutSequenceIntersections v : List Int) ≠ T.cutSequenceIntersections w))
    {w : List Int} (hw : w ∈ ws) : Lam.getComponent (ws.map (fun w => ((T.curveFromCutSequence w : Lam Int), w))) (T.curveFromCutSequence w) = .ok w := by
  induction ws with
  | nil => simp at hw
  | cons u ws ih =>
    rw [List.pairwise_cons] at hn
    rw [List.map_cons, Lam.getComponent]
    by_cases he : u = w
    · subst he
      rw [if_pos (by simp [Lam.eqv])]
    · have hw' : w ∈ ws := by
        rcases List.mem_cons.1 hw with k | k
        · exact absurd k.symm he
        · exact k
      rw [if_neg, ih hn.2 hw']
      simp only [Lam.eqv, curveFromCutSequence, beq_self_eq_true, Bool.true_and, beq_iff_eq]
      exact hn.1 w hw'

/-- `vertex_map` -/
theorem Legal.vertexMap_ok (hh : h.Legal) {C : Int → Int → Prop} (hC : VCorr h.source h.target C)
    (hR : Carries (R := Int) h.source h.target (performLam h.performed) C) :
    ∃ vs ws, h.source.vertices = .ok vs ∧ h.target.vertices = .ok ws ∧ ∃ f : List Int → List Int, (∀ v ∈ vs, f v ∈ ws ∧ VMatch C v (f v)) ∧
      h.vertexMap = .ok (vs.map (fun v => (v, f v))) := by
  have hS := hh.path.valid_source
  have hT := hh.path.valid_target
  obtain ⟨vs, hvs, _⟩ := hS.comp.vertices_ok
  obtain ⟨ws, hws, _⟩ := hT.comp.vertices_ok
  refine ⟨vs, ws, hvs, hws, ?_⟩
  have : ∀ v, ∃ w, v ∈ vs → w ∈ ws ∧ VMatch C v w := by
    intro v
    by_cases hv : v ∈ vs
    · obtain ⟨w, h1, h2⟩ := hC.exists_match hS.comp hT.comp hvs hws hv
      exact ⟨w, fun _ => ⟨h1, h2⟩⟩
    · exact ⟨[], fun k => absurd k hv⟩
  choose f hf using this
  refine ⟨f, hf, ?_⟩
  have hn : ws.Pairwise (fun v w => (h.target.cutSequenceIntersections v : List Int) ≠ h.target.cutSequenceIntersections w) :=
    List.Pairwise.imp_of_mem (fun {v w} hv hw hne heq => hne (hT.comp.link_inj hws hv hw heq)) (hT.comp.nodup_vertices hws)
  unfold vertexMap
  rw [hvs, py_bind_ok, hws, py_bind_ok, getComponent_links ws [] hn (by simp), List.nil_append]
  apply mapM_ok
  intro v hv
  obtain ⟨h1, h2⟩ := hf v hv
  have := hh.path.link hC hR hvs hws hv h1 h2
  rw [applyLam_on h (L := h.source.curveFromCutSequence v) rfl, this, py_bind_ok, getComponent_find hn h1]
  rfl

/-- corresponding tails for the inverse -/
theorem Legal.carries_inverse (hh : h.Legal) {C : Int → Int → Prop} (hC : VCorr h.source h.target C)
    (hR : Carries (R := Int) h.source h.target (performLam h.performed) C) :
    ∀ (D : Int → Int → Prop) (hD : VCorr h.target h.source D), Carries (R := Int) h.target h.source (performLam h.inv'.performed) D →
    ∀ x y x', C x y → D y x' → h.source.SV x x' := by
  intro D hD hR' x y x' hxy hyx
  have hS := hh.path.valid_source
  have hT := hh.path.valid_target
  obtain ⟨vs, hvs, _⟩ := hS.comp.vertices_ok
  obtain ⟨ws, hws, _⟩ := hT.comp.vertices_ok
  obtain ⟨a1, a2, a3, a4⟩ := hS.comp.vertices_mem hvs
  obtain ⟨b1, b2, b3, b4⟩ := hT.comp.vertices_mem hws
  have lx := (hC.lab _ _ hxy).1
  obtain ⟨v, hv, hxv⟩ := a1 x lx
  obtain ⟨w, hw, hvw⟩ := hC.exists_match hS.comp hT.comp hvs hws hv
  obtain ⟨v', hv', hwv⟩ := hD.exists_match hT.comp hS.comp hws hvs hw
  have l1 := hh.path.link hC hR hvs hws hv hw hvw
  have l2 := hh.inv'.path.link hD hR' hws hvs hw hv' hwv
  have hcons := (Lam.consistent_link (R := Int) hS ⟨x, lx, hS.comp.vertexOf_of_mem hvs hv hxv⟩).1
  have l3 := (hh.undo (R := Int) (L := h.source.curveFromCutSequence v) (L' := h.target.curveFromCutSequence w) hcons.1
    ((applyLam_on h (L := h.source.curveFromCutSequence v) rfl).trans l1)).2.2.2
  rw [applyLam_on h.inv' (L := h.target.curveFromCutSequence w) rfl] at l3
  have : (h.source.curveFromCutSequence v : Lam Int) = h.source.curveFromCutSequence v' := by
    have := l3.symm.trans l2; injection this
  have hvv : v = v' := hS.comp.link_inj (R := Int) hvs hv hv' (by unfold curveFromCutSequence at this; injection this)
  subst hvv
  exact ⟨v, hS.comp.vertexOf_of_mem hvs hv hxv, (hwv y x' hyx).1 ((hvw x y hxy).1 hxv)⟩

/-- multiplicities are carried along -/
theorem Legal.isMult {R : Type} [CommRing R] [LinearOrder R] [IsStrictOrderedRing R] [Halvable R] (hh : h.Legal) {C : Int → Int → Prop}
    (hC : VCorr h.source h.target C)
    (hR : ∀ (R : Type) [CommRing R] [LinearOrder R] [IsStrictOrderedRing R] [Halvable R], Carries (R := R) h.source h.target (performLam h.performed) C)
    {L L' : Lam R} (hL : L.Consistent) (ht : L.tri = h.source) (ha : h.applyLam L = .ok L') {m m' : Int → R} (hm : L.IsMult m) (hp : ∀ x y, C x y → m' y = m x)
    (hc' : ∀ e f, h.target.IsLabel e → h.target.SV e f → m' e = m' f) : L'.IsMult m' := by
  have hS := hh.path.valid_source
  have hT := hh.path.valid_target
  have ha' := ha
  rw [applyLam_eq, if_pos ht.symm] at ha'
  obtain ⟨L₁, t1, t2, t3, -⟩ := hh.path.performLam_total hL ht
  rw [ha'] at t1; cases t1
  have f1 := ((hR R).fits L L' m m' hL ht ha' (hm.fits hL) hp hc').1
  refine Lam.IsMult.of_largest t3 f1 ?_
  intro n' hn' y hy
  rw [t2] at hy
  obtain ⟨D, hD, hRD⟩ := hh.inv'.carries
  obtain ⟨n, p1, p2⟩ := hD.push (α := R) hS.comp (m := n') (fun e f he hs => hn'.const e f (by rw [t2]; exact he) (by rw [t2]; exact hs))
  have un := (hh.undo hL.1 ha).2.2.2
  rw [applyLam_on h.inv' t2.symm] at un
  have f2 := ((hRD R).fits L' L n' n t3 t2 un hn' p1 p2).1
  obtain ⟨x, hxy⟩ := hC.surj y hy
  obtain ⟨x', hyx⟩ := hD.total y hy
  have hs := hh.carries_inverse hC (hR Int) D hD (hRD Int) x y x' hxy hyx
  have lx := (hC.lab _ _ hxy).1
  rw [hp x y hxy, ← p1 y x' hyx, ← p2 x x' lx hs]
  exact hm.largest hL f2 (by rw [ht]; exact lx)

end Enc
end Curver
