import Verif.Proofs.UnionDict
import Verif.Proofs.UnionMap
import Verif.Proofs.ShortenLaws

/-!
# `components`
-/

namespace Curver
open Triangulation

theorem foldlM_all {α β : Type _} {f : β → α → Py β} (P : β → Prop) (R : α → β → Prop) : ∀ {l : List α} {b c : β}, P b →
    (∀ b x c, x ∈ l → P b → f b x = .ok c → P c ∧ R x c ∧ ∀ y, R y b → R y c) → l.foldlM f b = .ok c → P c ∧ (∀ x ∈ l, R x c) ∧ ∀ y, R y b → R y c
  | [], b, c, hb, _, h => by cases h; exact ⟨hb, by simp, fun _ h => h⟩
  | x :: l, b, c, hb, hf, h => by
    rw [List.foldlM_cons, py_bind_eq_ok] at h
    obtain ⟨d, h1, h2⟩ := h
    obtain ⟨k1, k2, k3⟩ := hf b x d (by simp) hb h1
    obtain ⟨m1, m2, m3⟩ := foldlM_all P R k1 (fun b y c hy => hf b y c (by simp [hy])) h2
    refine ⟨m1, fun y hy => ?_, fun y hy => m3 y (k3 y hy)⟩
    rcases List.mem_cons.1 hy with rfl | hy
    · exact m3 _ k2
    · exact m2 y hy

namespace Lam
variable {L s : Lam Int} {D : List (Lam Int)}

/-- `peripheral_components` counts the curves around vertices -/
theorem per_spec (hs : s.Consistent) (hu : s.Unions D) (hD : ∀ Y ∈ D, Basic s.tri Y) {per : List (Lam Int × (Int × List Int))} (h : s.peripheralComponents = .ok per) :
    (∀ p ∈ per, Basic s.tri p.1 ∧ 0 < p.2.1 ∧ ((D.map Lam.geometric).count p.1.geometric : Int) = p.2.1) ∧
    ∀ v, s.tri.Star v → s.tri.curveFromCutSequence v ∈ D → (s.tri.curveFromCutSequence v : Lam Int).geometric ∈ keys per := by
  have hc := hs.1.1.comp
  obtain ⟨vs, hv, μ, h1, h2, h3⟩ := peripheralComponents_ok hs
  cases h.symm.trans h3
  obtain ⟨v1, v2, v3, v4⟩ := hc.vertices_mem hv
  have hm := isMult_mu hs
  constructor
  · intro p hp
    obtain ⟨v, hvf, rfl⟩ := List.mem_map.1 hp
    obtain ⟨hvs, hpos⟩ := List.mem_filter.1 hvf
    have hpos : 0 < μ v := by simpa using hpos
    obtain ⟨x, hx⟩ := List.exists_mem_of_ne_nil _ (v2 v hvs).1.ne
    have hxl := (v2 v hvs).2.2 x hx
    have hst : s.tri.Star v := ⟨hs.1.1, x, hxl, hc.vertexOf_of_mem hv hvs hx⟩
    refine ⟨.inl ⟨v, hst, rfl⟩, hpos, ?_⟩
    obtain ⟨y, n, ⟨u, y1, y2⟩, y3, y4⟩ := hm.attained x hxl
    rw [hc.vertexOf_of_mem hv hvs hx] at y1
    cases y1
    rw [← h2 v hvs x hx] at y4
    refine Hub.count (x := y) ⟨hs, hst, ?_⟩ hpos.le y2 ?_ hu (fun Y hY => (hD Y hY).connected)
    · intro z hz
      have hzl := (v2 v hvs).2.2 z hz
      have := hm.le z _ hzl (hs.left hzl)
      rw [← h2 v hvs z hz] at this
      omega
    · rw [lf_eq y3]; omega
  · intro v hst hvD
    obtain ⟨e, e1, e2⟩ := hst.ex
    obtain ⟨w, ws, k1, k2, k3, k4, -⟩ := hc.vertexOf_ok e1
    rw [hv] at k2; cases k2
    rw [e2] at k1; cases k1
    obtain ⟨N, hN⟩ := hu.pull hs hvD
    obtain ⟨y, n, ⟨u, y1, y2⟩, y3, y4⟩ := hm.attained e e1
    rw [e2] at y1; cases y1
    have := hub_of_part hs hst hN y2
    rw [lf_eq y3] at this
    refine List.mem_map.2 ⟨_, List.mem_map.2 ⟨v, List.mem_filter.2 ⟨k3, ?_⟩, rfl⟩, rfl⟩
    rw [decide_eq_true_eq, h2 v k3 e k4, y4]
    omega

theorem parallelArc_some {x : Int} (hs : s.WellFormed) (hx : s.tri.IsLabel x) {K : Lam Int} {k : Int} (h : s.parallelArc x = .ok (some (K, k))) :
    K = s.tri.edgeArcOf x ∧ k = - s.w x ∧ 0 < k := by
  unfold parallelArc at h
  split at h
  · rw [wt_eq hs.2 hx, py_bind_ok] at h
    split at h
    · cases h
      exact ⟨rfl, rfl, by assumption⟩
    · cases h
  · cases h

theorem parallelArc_found {x : Int} (hs : s.WellFormed) (hx : s.tri.IsLabel x) (h0 : 0 ≤ x) (hw : s.w x < 0) : s.parallelArc x = .ok (some (s.tri.edgeArcOf x, - s.w x)) := by
  unfold parallelArc
  rw [if_pos (by unfold sign; rw [if_pos (by unfold norm inv; omega)]), wt_eq hs.2 hx, py_bind_ok, if_pos (by omega)]
  rfl

/-- `parallel_components` counts the arcs and curves parallel to edges -/
theorem par_spec (hs : s.Consistent) (hu : s.Unions D) (hD : ∀ Y ∈ D, Basic s.tri Y) {par : List (Lam Int × (Int × Int))} (h : s.parallelComponents = .ok par) :
    (∀ p ∈ par, Basic s.tri p.1 ∧ 0 < p.2.1 ∧ ((D.map Lam.geometric).count p.1.geometric : Int) = p.2.1) ∧
    (∀ f, s.tri.IsLabel f → s.tri.edgeArcOf f ∈ D → (s.tri.edgeArcOf f : Lam Int).geometric ∈ keys par) ∧
    ∀ f β η X, Loop s.tri f β η X → s.tri.curveFromCutSequence X ∈ D → (s.tri.curveFromCutSequence X : Lam Int).geometric ∈ keys par := by
  have hcon : ∀ Y ∈ D, Y.Connected := fun Y hY => (hD Y hY).connected
  obtain ⟨T1, T2, -⟩ := foldlM_all (P := fun d => Tally s.tri (Basic s.tri) (fun v : Int × Int => v.1) (D.map Lam.geometric) d)
    (R := fun x d => (∀ K k, s.parallelArc x = .ok (some (K, k)) → K.geometric ∈ keys d) ∧ ∀ K k, s.parallelCurve x = .ok (some (K, k)) → K.geometric ∈ keys d)
    Tally.nil (by
      intro d x d' hx hd hf
      have hxl := mem_labels.1 hx
      unfold parallelStep at hf
      simp only [py_bind_eq_ok] at hf
      obtain ⟨arc, a1, curve, a2, a3⟩ := hf
      obtain ⟨d1, b1, b2, b3, b4⟩ : ∃ d1, Tally s.tri (Basic s.tri) (fun v : Int × Int => v.1) (D.map Lam.geometric) d1 ∧ (∀ K k, arc = some (K, k) → K.geometric ∈ keys d1) ∧
          (∀ g ∈ keys d, g ∈ keys d1) ∧ ((curve = none → d1 = d') ∧ ∀ c k, curve = some (c, k) → setComponent d1 c (k, x) = d') := by
        cases arc with
        | none => exact ⟨d, hd, by simp, fun _ h => h, fun e => by subst e; exact Except.ok.inj a3, fun c k e => by subst e; exact Except.ok.inj a3⟩
        | some q =>
          obtain ⟨K, k⟩ := q
          obtain ⟨p1, p2, p3⟩ := parallelArc_some hs.1 hxl a1
          refine ⟨setComponent d K (k, x), hd.set (by rw [p1]; rfl) (by rw [p1]; exact .inr (.inl ⟨x, hxl, rfl⟩)) p3 ?_, ?_, ?_, fun e => by subst e; exact Except.ok.inj a3, fun c k e => by subst e; exact Except.ok.inj a3⟩
          · rw [p1, arc_count hs hxl (by omega) hu hcon, p2]
          · rintro K' k' e
            cases e
            exact mem_keys_set.2 (.inr rfl)
          · exact fun g hg => mem_keys_set.2 (.inl hg)
      obtain ⟨c1, c2, c3⟩ : Tally s.tri (Basic s.tri) (fun v : Int × Int => v.1) (D.map Lam.geometric) d' ∧ (∀ K k, curve = some (K, k) → K.geometric ∈ keys d') ∧
          (∀ g ∈ keys d1, g ∈ keys d') := by
        cases curve with
        | none => rw [← b4.1 rfl]; exact ⟨b1, by simp, fun _ h => h⟩
        | some q =>
          obtain ⟨K, k⟩ := q
          obtain ⟨p1, β, η, X, a, p2, p3, y, y1, y2, y3⟩ := parallelCurve_belt hs hxl a2
          rw [← b4.2 K k rfl]
          refine ⟨b1.set (by rw [p2]; rfl) (by rw [p2]; exact .inr (.inr ⟨x, β, η, X, p3.loop, rfl⟩)) p1 ?_, ?_, fun g hg => mem_keys_set.2 (.inl hg)⟩
          · rw [p2]; exact p3.count p1.le y1 y2 y3 hu hcon
          · rintro K' k' e
            cases e
            exact mem_keys_set.2 (.inr rfl)
      refine ⟨c1, ⟨?_, ?_⟩, ?_⟩
      · intro K k e
        rw [a1] at e
        exact c3 _ (b2 K k (Except.ok.inj e))
      · intro K k e
        rw [a2] at e
        exact c2 K k (Except.ok.inj e)
      · rintro y ⟨r1, r2⟩
        exact ⟨fun K k e => c3 _ (b3 _ (r1 K k e)), fun K k e => c3 _ (b3 _ (r2 K k e))⟩) h
  refine ⟨fun p hp => ⟨T1.kind p hp, T1.pos p hp, T1.count p hp⟩, ?_, ?_⟩
  · intro f hf hfD
    obtain ⟨N, hN⟩ := hu.pull hs hfD
    have hw := arc_of_part hf hN
    by_cases q : 0 ≤ f
    · exact (T2 f (mem_labels.2 hf)).1 _ _ (parallelArc_found hs.1 hf q hw)
    · have := (T2 (inv f) (mem_labels.2 (isLabel_inv.2 hf))).1 _ _ (parallelArc_found hs.1 (isLabel_inv.2 hf) (by unfold inv; omega) (by rw [w_inv]; exact hw))
      have e : norm (inv f) = norm f := by unfold norm inv; omega
      unfold edgeArcOf at this ⊢
      rw [e] at this
      exact this
  · intro f β η X hl hX
    obtain ⟨N, hN⟩ := hu.pull hs hX
    obtain ⟨a, hb⟩ := belt_of_part hs hl hN
    obtain ⟨k', -, hk⟩ := hb.found (by omega)
    exact (T2 f (mem_labels.2 hl.sweep.label)).2 _ _ hk

/-- an encoding takes different laminations to different ones -/
theorem same_enc {h : Enc} (hh : h.Legal) {X K Y c : Lam Int} (hX : X.WellFormed) (hK : K.WellFormed) (h1 : h.applyLam X = .ok Y) (h2 : h.applyLam K = .ok c) :
    X.geometric = K.geometric ↔ Y.geometric = c.geometric := by
  have t : X.tri = K.tri := (Enc.applyLam_source h1).symm.trans (Enc.applyLam_source h2)
  have u1 := hh.undo hX h1
  have u2 := hh.undo hK h2
  constructor
  · intro e
    have := Enc.applyLam_cls h2 t e
    rw [h1] at this
    rw [Except.ok.inj this]
  · intro e
    have := Enc.applyLam_cls u2.2.2.2 (u1.2.1.trans u2.2.1.symm) e
    rw [u1.2.2.2] at this
    rw [Except.ok.inj this]

theorem count_enc {h : Enc} (hh : h.Legal) {K c : Lam Int} (hK : K.WellFormed) (h2 : h.applyLam K = .ok c) : ∀ {D D' : List (Lam Int)}, (∀ X ∈ D, X.WellFormed) →
    D.mapM h.applyLam = .ok D' → (D'.map Lam.geometric).count c.geometric = (D.map Lam.geometric).count K.geometric
  | [], D', _, hm => by cases hm; rfl
  | X :: D, D', hD, hm => by
    rw [List.mapM_cons, py_bind_eq_ok] at hm
    obtain ⟨Y, y1, hm⟩ := hm
    rw [py_bind_eq_ok] at hm
    obtain ⟨Ys, y2, hm⟩ := hm
    cases hm
    rw [List.map_cons, List.map_cons, List.count_cons, List.count_cons, count_enc hh hK h2 (fun X hX => hD X (by simp [hX])) y2]
    have := same_enc hh (hD X (by simp)) hK y1 h2
    by_cases q : X.geometric = K.geometric
    · rw [if_pos (by simpa using this.1 q), if_pos (by simpa using q)]
    · rw [if_neg (by simpa using fun h => q (this.2 h)), if_neg (by simpa using q)]

/-- connected, and the class is the right one -/
def Prime (c : Lam Int) : Prop := c.Consistent ∧ c.Connected ∧ ((c.cls = .curve ∧ c.NoArcs) ∨ (c.cls = .arc ∧ ¬ c.NoArcs))

theorem Basic.prime {T : Triangulation} (hT : T.Valid) {Y : Lam Int} (h : Basic T Y) : Y.Prime ∧ Y.tri = T := by
  have hc := h.connected
  rcases h with ⟨v, h, rfl⟩ | ⟨f, h, rfl⟩ | ⟨f, β, η, X, h, rfl⟩
  · exact ⟨⟨h.mult.1, hc, .inl ⟨rfl, link_noArcs h.valid h.ex⟩⟩, rfl⟩
  · refine ⟨⟨?_, hc, .inr ⟨rfl, fun hn => ?_⟩⟩, rfl⟩
    · rw [consistent_iff]
      refine ⟨arc_wf hT f, ?_⟩
      intro x y z hg
      have l := hT.comp.label_of_glues hg
      have e : ∀ x, T.IsLabel x → max ((T.edgeArcOf f : Lam Int).w x) 0 = 0 := by
        intro x hx
        rw [arc_w hx]
        split_ifs <;> rfl
      unfold TriEven
      rw [e x l.1, e y l.2.1, e z l.2.2]
      intro _ _ _
      decide
    · have := hn.w_nonneg h
      rw [arc_w h, if_pos (.inl rfl)] at this
      omega
  · exact ⟨⟨loop_consistent h, hc, .inl ⟨rfl, h.noArcs⟩⟩, rfl⟩

theorem Prime.enc {c c' : Lam Int} (h : c.Prime) {g : Enc} (hg : g.Legal) (ha : g.applyLam c = .ok c') : c'.Prime := by
  have u := hg.undo h.1.1 ha
  refine ⟨h.1.enc hg ha, h.2.1.enc h.1 hg ha, ?_⟩
  rw [u.2.2.1]
  rcases h.2.2 with ⟨k1, k2⟩ | ⟨k1, k2⟩
  · exact .inl ⟨k1, hg.noArcs k2 ha⟩
  · exact .inr ⟨k1, fun hn => k2 (hg.inv'.noArcs hn u.2.2.2)⟩

theorem componentsMain_spec {S : Lam Int → Py (Lam Int × Enc)} (hL : L.Consistent) (hS : ∀ s g, S L = .ok (s, g) → Shortens L s g ∧ s.Stripped) {comps : List (Lam Int × Int)}
    (h : L.componentsMain S = .ok comps) : L.Unions (flat comps) ∧ (∀ p ∈ comps, p.1.Prime ∧ p.1.tri = L.tri ∧ 0 < p.2) ∧ (keys comps).Nodup := by
  simp only [componentsMain, py_bind_eq_ok] at h
  obtain ⟨⟨s, g⟩, h1, gi, h2, per, h3, d, h4, par, h5, h6⟩ := h
  obtain ⟨H, hst⟩ := hS s g h1
  obtain ⟨hs, D, hu, hD⟩ := hst.unions
  have hl := H.legal
  have e2 := Enc.inverse_eq hl
  change g.inverse = .ok g.inv' at e2
  rw [h2] at e2
  injection e2 with e2
  subst e2
  have hi := hl.inv'
  obtain ⟨K, k1, k2, k3⟩ := H.acts
  have uK := hl.undo hL.1 k1
  have hsL := Enc.applyLam_cls uK.2.2.2 (N := s) k2.symm k3.symm
  obtain ⟨D', D1, D2⟩ := hu.enc hs hi hsL
  have hLu : L.Unions D' := D2.same ⟨rfl, rfl⟩
  have hDw : ∀ X ∈ D, X.WellFormed := fun X hX => (hu.consistent hs X hX).1.1
  obtain ⟨P1, P2⟩ := per_spec hs hu hD h3
  obtain ⟨Q1, Q2, Q3⟩ := par_spec hs hu hD h5
  have tgt : g.inv'.target = L.tri := H.source
  have step : ∀ (α : Type) (l : List (Lam Int × (Int × α))) (d d' : List (Lam Int × Int)),
      (∀ p ∈ l, Basic s.tri p.1 ∧ 0 < p.2.1 ∧ ((D.map Lam.geometric).count p.1.geometric : Int) = p.2.1) →
      Tally L.tri Prime id (D'.map Lam.geometric) d → l.foldlM (fun (d : List (Lam Int × Int)) p => do
        let c ← g.inv'.applyLam p.1
        return setComponent d c p.2.1) d = .ok d' →
      Tally L.tri Prime id (D'.map Lam.geometric) d' ∧ (∀ p ∈ l, ∀ c, g.inv'.applyLam p.1 = .ok c → c.geometric ∈ keys d') ∧ ∀ c ∈ keys d, c ∈ keys d' := by
    intro α l d d' hl' hd hf
    obtain ⟨r1, r2, r3⟩ := foldlM_all (P := fun d => Tally L.tri Prime id (D'.map Lam.geometric) d) (R := fun p d => ∀ c, g.inv'.applyLam p.1 = .ok c → c.geometric ∈ keys d)
      hd (by
        intro b p b' hp hb hm
        rw [py_bind_eq_ok] at hm
        obtain ⟨c, c1, c2⟩ := hm
        cases c2
        obtain ⟨m1, m2, m3⟩ := hl' p hp
        obtain ⟨n1, n2⟩ := m1.prime hs.1.1
        refine ⟨hb.set ?_ (n1.enc hi c1) m2 ?_, ?_, ?_⟩
        · rw [(hi.undo n1.1.1 c1).2.1, tgt]
        · rw [count_enc hi n1.1.1 c1 hDw D1]; exact m3
        · intro c' e
          rw [c1] at e
          cases e
          exact mem_keys_set.2 (.inr rfl)
        · exact fun q hq c' e => mem_keys_set.2 (.inl (hq c' e))) hf
    refine ⟨r1, r2, ?_⟩
    intro x hx
    refine foldlM_inv (fun d => x ∈ keys d) hx ?_ hf
    intro b p b' _ hb hm
    rw [py_bind_eq_ok] at hm
    obtain ⟨c, c1, c2⟩ := hm
    cases c2
    exact mem_keys_set.2 (.inl hb)
  obtain ⟨a1, a2, -⟩ := step _ per [] d P1 Tally.nil h4
  obtain ⟨b1, b2, b3⟩ := step _ par d comps Q1 a1 h6
  have hall : ∀ x ∈ D'.map Lam.geometric, x ∈ keys comps := by
    intro x hx
    obtain ⟨Y', y1, rfl⟩ := List.mem_map.1 hx
    obtain ⟨Y, z1, z2⟩ := mapM_mem_right D1 y1
    have key : ∀ (α : Type) (l : List (Lam Int × (Int × α))), (∀ p ∈ l, Basic s.tri p.1) → (∀ p ∈ l, ∀ c, g.inv'.applyLam p.1 = .ok c → c.geometric ∈ keys comps) → Y.geometric ∈ keys l → Y'.geometric ∈ keys comps := by
      intro α l hl1 hl2 hy
      obtain ⟨p, hp, e⟩ := List.mem_map.1 hy
      obtain ⟨n1, n2⟩ := (hl1 p hp).prime hs.1.1
      have ht : p.1.tri = Y.tri := n2.trans (hu.consistent hs Y z1).2.symm
      have := Enc.applyLam_cls z2 (N := p.1) ht e
      exact hl2 p hp ⟨Y'.tri, Y'.geometric, p.1.cls⟩ this
    rcases hD Y z1 with ⟨v, q1, q2⟩ | ⟨f, q1, q2⟩ | ⟨f, β, η, X, q1, q2⟩
    · refine key _ per (fun p hp => (P1 p hp).1) (fun p hp c hc => b3 _ (a2 p hp c hc)) ?_
      rw [q2]; exact P2 v q1 (q2 ▸ z1)
    · refine key _ par (fun p hp => (Q1 p hp).1) b2 ?_
      rw [q2]; exact Q2 f q1 (q2 ▸ z1)
    · refine key _ par (fun p hp => (Q1 p hp).1) b2 ?_
      rw [q2]; exact Q3 f β η X q1 (q2 ▸ z1)
  refine ⟨hLu.of_perm hL (b1.perm hall) ?_, fun p hp => ⟨b1.kind p hp, b1.tri p hp, b1.pos p hp⟩, pairwise_keys.1 b1.apart⟩
  intro Y hY
  obtain ⟨p, hp, e⟩ := List.mem_flatMap.1 hY
  rw [List.eq_of_mem_replicate e]
  exact b1.tri p hp

end Lam
end Curver
