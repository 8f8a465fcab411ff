import Verif.Proofs.Vertices2
import Verif.Model.MultiHalf
import Verif.Props.LamParts

/-!
# `has_distinct_endpoints`
-/

namespace Curver
open Triangulation

theorem card_two {α β : Type} [DecidableEq α] (f : β → Finset α) : ∀ (D : List β), (∀ X ∈ D, (f X).card ≤ 2) → ∀ F : Finset α, (∀ x, x ∈ F ↔ ∃ X ∈ D, x ∈ f X) →
    F.card ≤ 2 * D.length ∧ (F.card = 2 * D.length ↔ (∀ X ∈ D, (f X).card = 2) ∧ D.Pairwise (fun X Y => Disjoint (f X) (f Y))) := by
  intro D
  induction D with
  | nil =>
    intro _ F hF
    have : F = ∅ := by
      ext x; simp [hF x]
    subst this
    simp
  | cons X D ih =>
    intro hD F hF
    classical
    let G := F.filter (fun x => ∃ Y ∈ D, x ∈ f Y)
    have hG : ∀ x, x ∈ G ↔ ∃ Y ∈ D, x ∈ f Y := by
      intro x
      simp only [G, Finset.mem_filter, hF x]
      constructor
      · exact fun h => h.2
      · rintro ⟨Y, h1, h2⟩; exact ⟨⟨Y, by simp [h1], h2⟩, Y, h1, h2⟩
    have hFG : F = f X ∪ G := by
      ext x
      rw [hF x, Finset.mem_union, hG x]
      simp
    obtain ⟨i1, i2⟩ := ih (fun Y hY => hD Y (by simp [hY])) G hG
    have hX := hD X (by simp)
    have hd : (∀ Y ∈ D, Disjoint (f X) (f Y)) ↔ Disjoint (f X) G := by
      simp only [Finset.disjoint_left, hG]
      constructor
      · rintro h x hx ⟨Y, h1, h2⟩; exact h Y h1 hx h2
      · intro h Y hY x hx hy; exact h hx ⟨Y, hY, hy⟩
    have hu := Finset.card_union_add_card_inter (f X) G
    have hdi : Disjoint (f X) G ↔ (f X ∩ G).card = 0 := by rw [Finset.disjoint_iff_inter_eq_empty, Finset.card_eq_zero]
    rw [← hFG] at hu
    rw [List.length_cons]
    refine ⟨by omega, ?_⟩
    rw [List.forall_mem_cons, List.pairwise_cons, hd, hdi]
    have : F.card = 2 * (D.length + 1) ↔ (f X).card = 2 ∧ G.card = 2 * D.length ∧ (f X ∩ G).card = 0 := by omega
    rw [this, i2]
    tauto

theorem forall₂_mem {α β : Type} {R : α → β → Prop} {l : List α} {m : List β} (h : List.Forall₂ R l m) {y : β} (hy : y ∈ m) : ∃ x ∈ l, R x y := by
  induction h with
  | nil => simp at hy
  | cons h1 h2 ih =>
    rcases List.mem_cons.1 hy with rfl | hy
    · exact ⟨_, by simp, h1⟩
    · obtain ⟨x, x1, x2⟩ := ih hy
      exact ⟨x, by simp [x1], x2⟩

namespace Lam
variable {L K X Y S N : Lam Int} {v : List Int} {h : Enc}

theorem Unions.reaches {D : List (Lam Int)} (hD : L.Unions D) : L.Consistent → L.tri.Star v → (L.Reaches v ↔ ∃ X ∈ D, X.Reaches v) := by
  induction hD with
  | nil hb => intro hL hv; simp [hb.reaches hL.1 hv]
  | cons hu hr ih =>
    intro hL hv
    have w := hu.wf
    rw [hu.reaches hL hv, ih (hu.consistent hL).2 (by rw [w.2.2.2]; exact hv)]
    simp

theorem ends_le (hX : X.Connected) (hc : X.Consistent) {vs : List (List Int)} (hvs : X.tri.vertices = .ok vs) (l : List (List Int)) (hl : l.Nodup) (h : ∀ v ∈ l, v ∈ vs ∧ X.Reaches v) :
    l.length ≤ 2 := by
  by_cases hn : X.NoArcs
  · cases l with
    | nil => simp
    | cons v l =>
      exact absurd (h v (by simp)).2 (hn.reaches (star_of_mem hc.1.1 hvs (h v (by simp)).1))
  · obtain ⟨v, hv, u, hu, hr⟩ := arc_ends hX hc hn hvs
    have : l ⊆ [v, u] := by
      intro t ht
      have := (hr t (h t ht).1).1 (h t ht).2
      simpa using this
    exact (List.Nodup.subperm hl this).length_le

open Classical in
theorem distinct_iff (hL : L.Consistent) {vs l : List (List Int)} (hvs : L.tri.vertices = .ok vs) (hn : l.Nodup) (hl : ∀ v, v ∈ l ↔ v ∈ vs ∧ L.Reaches v)
    {D : List (Lam Int)} (hD : L.Unions D) (cD : ∀ X ∈ D, X.Connected) : l.length = 2 * D.length ↔ (∀ X ∈ D, X.TwoEnds) ∧ D.Pairwise EndApart := by
  let f : Lam Int → Finset (List Int) := fun X => (vs.filter (fun v => decide (X.Reaches v))).toFinset
  have hf : ∀ X v, v ∈ f X ↔ v ∈ vs ∧ X.Reaches v := by intro X v; simp [f]
  have hcD := hD.consistent hL
  have h1 : ∀ X ∈ D, (f X).card ≤ 2 := by
    intro X hX
    have hnd : (vs.filter (fun v => decide (X.Reaches v))).Nodup := (hL.1.1.comp.nodup_vertices hvs).filter _
    rw [List.toFinset_card_of_nodup hnd]
    exact ends_le (cD X hX) (hcD X hX).1 (by rw [(hcD X hX).2]; exact hvs) _ hnd (fun v hv => by simpa using hv)
  obtain ⟨-, h2⟩ := card_two f D h1 l.toFinset (fun v => by
    rw [List.mem_toFinset, hl v]
    constructor
    · rintro ⟨q1, q2⟩
      obtain ⟨X, x1, x2⟩ := (hD.reaches hL (star_of_mem hL.1.1 hvs q1)).1 q2
      exact ⟨X, x1, (hf X v).2 ⟨q1, x2⟩⟩
    · rintro ⟨X, x1, x2⟩
      obtain ⟨q1, q2⟩ := (hf X v).1 x2
      exact ⟨q1, (hD.reaches hL (star_of_mem hL.1.1 hvs q1)).2 ⟨X, x1, q2⟩⟩)
  rw [List.toFinset_card_of_nodup hn] at h2
  rw [h2]
  have e1 : ∀ X ∈ D, ((f X).card = 2 ↔ X.TwoEnds) := by
    intro X hX
    have t := (hcD X hX).2
    rw [Finset.card_eq_two]
    unfold TwoEnds
    constructor
    · rintro ⟨v, u, n, e⟩
      have hv : v ∈ f X := by rw [e]; simp
      have hu : u ∈ f X := by rw [e]; simp
      refine ⟨vs, v, u, by rw [t]; exact hvs, ((hf _ _).1 hv).1, ((hf _ _).1 hu).1, n, fun z hz => ?_⟩
      have := (hf X z)
      rw [e] at this
      simp only [Finset.mem_insert, Finset.mem_singleton] at this
      tauto
    · rintro ⟨vs', v, u, a1, a2, a3, a4, a5⟩
      rw [t, hvs] at a1; cases a1
      refine ⟨v, u, a4, ?_⟩
      ext z
      rw [hf X z]
      simp only [Finset.mem_insert, Finset.mem_singleton]
      constructor
      · rintro ⟨q1, q2⟩; exact (a5 z q1).1 q2
      · intro q
        have : z ∈ vs := by rcases q with rfl | rfl <;> assumption
        exact ⟨this, (a5 z this).2 q⟩
  have e2 : ∀ X ∈ D, ∀ Y ∈ D, (Disjoint (f X) (f Y) ↔ EndApart X Y) := by
    intro X hX Y hY
    have t := (hcD X hX).2
    rw [Finset.disjoint_left]
    unfold EndApart
    constructor
    · intro q vs' hvs' v hv ⟨q1, q2⟩
      rw [t, hvs] at hvs'; cases hvs'
      exact q ((hf _ _).2 ⟨hv, q1⟩) ((hf _ _).2 ⟨hv, q2⟩)
    · intro q v h3 h4
      obtain ⟨h3, h5⟩ := (hf _ _).1 h3
      exact q vs (by rw [t]; exact hvs) v h3 ⟨h5, ((hf _ _).1 h4).2⟩
  refine and_congr (forall₂_congr e1) ?_
  exact List.Pairwise.iff_of_mem (fun {X Y} hX hY => e2 X hX Y hY)

theorem TwoEnds.enc (hX : X.TwoEnds) (hc : X.Consistent) (hh : h.Legal) (ha : h.applyLam X = .ok Y) : Y.TwoEnds := by
  obtain ⟨vs, v, u, a1, a2, a3, a4, a5⟩ := hX
  obtain ⟨vm, vs', ws, m1, m2, m3, m4, m5, m6, m7⟩ := C43_vertex_map h hh
  have ht := Enc.applyLam_source ha
  have htY := (hh.undo hc.1 ha).2.1
  rw [← ht, m2] at a1
  cases a1
  have fwd : ∀ t ∈ vs, ∃ t' ∈ ws, (t, t') ∈ vm := by
    intro t ht
    rw [← m4] at ht
    obtain ⟨⟨_, t'⟩, hm, rfl⟩ := List.mem_map.1 ht
    exact ⟨t', m5.mem_iff.1 (List.mem_map_of_mem (f := Prod.snd) hm), hm⟩
  have back : ∀ w ∈ ws, ∃ t ∈ vs, (t, w) ∈ vm := by
    intro w hw
    obtain ⟨⟨t, w'⟩, hm, rfl⟩ := List.mem_map.1 (m5.mem_iff.2 hw)
    exact ⟨t, by rw [← m4]; exact List.mem_map_of_mem (f := Prod.fst) hm, hm⟩
  have inj : ∀ {a b a' b' : List Int}, (a, b) ∈ vm → (a', b') ∈ vm → (a = a' ↔ b = b') := by
    intro a b a' b' h1 h2
    constructor
    · rintro rfl
      have hk : vm.keys.Nodup := by rw [m4]; exact hh.path.valid_source.comp.nodup_vertices m2
      exact congrArg Prod.snd (List.inj_on_of_nodup_map hk h1 h2 rfl)
    · rintro rfl
      exact congrArg Prod.fst (List.inj_on_of_nodup_map m6 h1 h2 rfl)
  obtain ⟨v', v1, v2⟩ := fwd v a2
  obtain ⟨u', u1, u2⟩ := fwd u a3
  refine ⟨ws, v', u', by rw [htY]; exact m3, v1, u1, fun e => a4 ((inj v2 u2).2 e), fun w hw => ?_⟩
  obtain ⟨t, t1, t2⟩ := back w hw
  rw [reaches_enc hc hh ha (m7 _ _ t2), a5 t t1, inj t2 v2, inj t2 u2]

theorem EndApart.enc {X' Y' : Lam Int} (hXY : EndApart X Y) (hX : X.Consistent) (hY : Y.Consistent) (hh : h.Legal) (ha : h.applyLam X = .ok X') (hb : h.applyLam Y = .ok Y') : EndApart X' Y' := by
  obtain ⟨vm, vs', ws, m1, m2, m3, m4, m5, m6, m7⟩ := C43_vertex_map h hh
  have ht := Enc.applyLam_source ha
  have htX := (hh.undo hX.1 ha).2.1
  intro ws' hw w hm ⟨q1, q2⟩
  rw [htX, m3] at hw; cases hw
  obtain ⟨⟨t, w'⟩, hm', rfl⟩ := List.mem_map.1 (m5.mem_iff.2 hm)
  rw [reaches_enc hX hh ha (m7 _ _ hm')] at q1
  rw [reaches_enc hY hh hb (m7 _ _ hm')] at q2
  exact hXY vs' (by rw [← ht]; exact m2) t (by rw [← m4]; exact List.mem_map_of_mem (f := Prod.fst) hm') ⟨q1, q2⟩

theorem DistinctEnds.enc (hd : L.DistinctEnds) (hL : L.Consistent) (hh : h.Legal) (ha : h.applyLam L = .ok K) : K.DistinctEnds := by
  obtain ⟨D, d1, d2, d3⟩ := hd
  obtain ⟨D', e1, e2, e3⟩ := C65_mapping h hh L hL D d1 (fun X hX => (d2 X hX).1) K ha
  have hcD := d1.consistent hL
  have F := mapM_ok_iff.1 e1
  refine ⟨D', e2, fun Y hY => ⟨e3 Y hY, ?_⟩, ?_⟩
  · obtain ⟨X, hX, hXY⟩ := forall₂_mem F hY
    exact (d2 X hX).2.enc (hcD X hX).1 hh hXY
  · clear e1 e2 e3 d1
    induction F with
    | nil => exact .nil
    | @cons X Y D D' hXY hr ih =>
      rw [List.pairwise_cons] at d3 ⊢
      refine ⟨fun Z hZ => ?_, ih (fun X hX => d2 X (by simp [hX])) d3.2 (fun X hX => hcD X (by simp [hX]))⟩
      obtain ⟨W, w1, w2⟩ := forall₂_mem hr hZ
      exact (d3.1 W w1).enc (hcD X (by simp)).1 (hcD W (by simp [w1])).1 hh hXY w2

end Lam
end Curver
