import Verif.Proofs.FlipSeq
import Verif.Proofs.Relabel

namespace Curver
open Triangulation

namespace Triangulation
variable {S T U : Triangulation} {f g : Int → Int} {d : PyDict Int Int}

theorem DisjointSupport.map_inv_of (hT : T.Valid) {es : List Int} {T' : Triangulation} (h : T.DisjointSupport es) (hm : T.IsMultiflip es T') :
    T'.DisjointSupport (es.map inv) := hm.disjoint hT h

theorem Valid.encodeMultiflip_ok_iff (hT : T.Valid) {es : List Int} {m : LMove} : T.encodeMultiflip es = .ok m ↔
    ∃ T', T.DisjointSupport es.dedup ∧ T.IsMultiflip es.dedup T' ∧
      m = ⟨.multiflip (mf T T' es.dedup), .multiflip (mf T' T (es.dedup.map inv))⟩ := by
  have key : T.encodeMultiflip es = T.encodeMultiflip es.dedup := by
    unfold encodeMultiflip
    rw [List.dedup_idem]
  rw [key]
  have hn := List.nodup_dedup es
  generalize es.dedup = es at hn ⊢
  by_cases hl : ∀ e ∈ es, T.IsLabel e
  · by_cases hd : T.DisjointSupport es
    · obtain ⟨T', h1, h2⟩ := hT.encodeMultiflip_eq hd
      rw [h2]
      constructor
      · intro h; cases h; exact ⟨T', hd, h1, rfl⟩
      · rintro ⟨T'', _, h3, rfl⟩
        rw [h1.unique hT.comp hl h3]
    · have := hT.comp.encodeMultiflip_assertionError (es := es) hl (by rwa [hn.dedup])
      rw [this]
      constructor
      · intro h; cases h
      · rintro ⟨_, h, _⟩; exact absurd h hd
  · have := hT.comp.encodeMultiflip_keyError (es := es) (by push Not at hl; exact hl)
    rw [this]
    constructor
    · intro h; cases h
    · rintro ⟨_, h, _⟩; exact absurd h.1 hl

theorem Valid.encodeFlip_ok_iff (hT : T.Valid) {e : Int} {m : LMove} : T.encodeFlip e = .ok m ↔
    ∃ T', T.Flippable e ∧ T.IsMultiflip [e] T' ∧
      m = ⟨.flip ⟨T, T', e, T.sq e⟩, .flip ⟨T', T, inv e, T'.sq (inv e)⟩⟩ := by
  by_cases hl : T.IsLabel e
  · by_cases hf : T.Flippable e
    · obtain ⟨T', h1, h2⟩ := hT.encodeFlip_eq hf
      rw [h2]
      constructor
      · intro h; cases h; exact ⟨T', hf, h1, rfl⟩
      · rintro ⟨T'', _, h3, rfl⟩
        rw [h1.unique hT.comp (by simpa using hl) h3]
    · have := hT.comp.encodeMultiflip_assertionError (es := [e]) (by simpa using hl) (by simpa [disjoint_singleton] using hf)
      constructor
      · intro h; simp [encodeFlip, this] at h
      · rintro ⟨_, h, _⟩; exact absurd h hf
  · have := hT.comp.encodeMultiflip_keyError (es := [e]) (by simpa using hl)
    constructor
    · intro h; simp [encodeFlip, this] at h
    · rintro ⟨_, h, _⟩; exact absurd h.1 hl

end Triangulation

theorem PyDict.IsFun.swap_swap {S T : Triangulation} {f : Int → Int} {d : PyDict Int Int} (hd : d.IsFun S f) (hf : S.IsIsometry T f) :
    PyDict.ofList ((PyDict.ofList (d.map (fun p => (p.2, p.1)))).map (fun p => (p.2, p.1))) = d := by
  have hv := hd.values_nodup hf
  rw [PyDict.ofList_of_nodup _ hv, List.map_map]
  have : (d.map ((fun p : Int × Int => (p.2, p.1)) ∘ fun p => (p.2, p.1))) = d := by
    simp [Function.comp_def]
  rw [this, PyDict.ofList_of_nodup _ hd.1]

namespace LMove
variable {m : LMove}

theorem Legal.inverse (h : m.Legal) : m.inverse.Legal := by
  cases h with
  | flip T e m hT h =>
    obtain ⟨T', h1, h2, rfl⟩ := hT.encodeFlip_ok_iff.1 h
    have hd := disjoint_singleton.2 h1
    refine .flip T' (inv e) _ h2.valid (h2.valid.encodeFlip_ok_iff.2 ⟨T, ?_, h2.inverse hT hd, ?_⟩)
    · exact disjoint_singleton.1 (h2.disjoint hT hd)
    · simp [LMove.inverse]
  | multiflip T es m hT h =>
    obtain ⟨T', h1, h2, rfl⟩ := hT.encodeMultiflip_ok_iff.1 h
    have hn : (es.dedup.map inv).dedup = es.dedup.map inv := by
      rw [List.dedup_eq_self]
      exact (List.nodup_dedup es).map (fun a b h => by rwa [inv_inj] at h)
    refine .multiflip T' (es.dedup.map inv) _ h2.valid (h2.valid.encodeMultiflip_ok_iff.2 ⟨T, ?_, ?_, ?_⟩)
    · rw [hn]; exact h2.disjoint hT h1
    · rw [hn]; exact h2.inverse hT h1
    · rw [hn]; simp [LMove.inverse, List.map_map, Function.comp_def]
  | isometry S T f d m hS hT hd hf h =>
    obtain ⟨g, hg, hgf, hfg⟩ := hf.exists_inverse hS.comp hT.comp
    refine .isometry T S g _ _ hT hS (hd.inverse hf hg hgf hfg) hg ?_
    obtain ⟨i, h1, h2, h3⟩ := Isometry.create_ok hd hf
    obtain ⟨i', h4, h5, h6⟩ := Isometry.create_ok (hd.inverse hf hg hgf hfg) hg
    unfold LMove.isometry at h ⊢
    rw [h1, py_bind_ok, h4, py_bind_ok] at h
    cases h
    dsimp only
    rw [h4, py_bind_ok, hd.swap_swap hf, h1]; rfl

/-- what the legal moves look like -/
inductive Shape : LMove → Prop
  | flip (S T : Triangulation) (e : Int) (hS : S.Valid) (he : S.Flippable e) (h : S.IsMultiflip [e] T) :
      Shape ⟨.flip ⟨S, T, e, S.sq e⟩, .flip ⟨T, S, inv e, T.sq (inv e)⟩⟩
  | multiflip (S T : Triangulation) (es : List Int) (hS : S.Valid) (he : S.DisjointSupport es) (h : S.IsMultiflip es T) :
      Shape ⟨.multiflip (mf S T es), .multiflip (mf T S (es.map inv))⟩
  | isometry (S T : Triangulation) (f g : Int → Int) (i i' : Isometry) (hS : S.Valid) (hT : T.Valid) (hf : S.IsIsometry T f)
      (hg : T.IsIsometry S g) (hi : i.Acts S T f) (hi' : i'.Acts T S g) (hgf : ∀ e, S.IsLabel e → g (f e) = e)
      (hfg : ∀ e, T.IsLabel e → f (g e) = e) : Shape ⟨.isometry i, .isometry i'⟩

theorem Legal.shape (h : m.Legal) : m.Shape := by
  cases h with
  | flip T e m hT h =>
    obtain ⟨T', h1, h2, rfl⟩ := hT.encodeFlip_ok_iff.1 h
    exact .flip T T' e hT h1 h2
  | multiflip T es m hT h =>
    obtain ⟨T', h1, h2, rfl⟩ := hT.encodeMultiflip_ok_iff.1 h
    exact .multiflip T T' _ hT h1 h2
  | isometry S T f d m hS hT hd hf h =>
    obtain ⟨i, i', g, h1, h2, h3, h4, h5, h6, h7⟩ := LMove.isometry_ok hS.comp hT.comp hd hf
    rw [h1] at h; cases h
    exact .isometry S T f g i i' hS hT hf h5 h2 h3 h6 h7

theorem Legal.valid (h : m.Legal) : m.move.source.Valid ∧ m.move.target.Valid ∧ m.move.target.zeta = m.move.source.zeta ∧
    m.inverse.move.source = m.move.target ∧ m.inverse.move.target = m.move.source := by
  cases h.shape with
  | flip S T e hS he hm => exact ⟨hS, hm.valid, hm.zeta, rfl, rfl⟩
  | multiflip S T es hS he hm => exact ⟨hS, hm.valid, hm.zeta, rfl, rfl⟩
  | isometry S T f g i i' hS hT hf hg hi hi' hgf hfg =>
    simp only [Move.source, Move.target, hi.source, hi.target]
    exact ⟨hS, hT, hf.zeta, hi'.source, hi'.target⟩

section
variable {R : Type} [CommRing R] [LinearOrder R] [IsStrictOrderedRing R] [Halvable R]

theorem Legal.applyLam (h : m.Legal) {L L' : Lam R} (hL : L.WellFormed) (ht : L.tri = m.move.source)
    (ha : m.move.applyLam L = .ok L') : L'.tri = m.move.target ∧ L'.WellFormed ∧ L'.cls = L.cls ∧
      m.inverse.move.applyLam L' = .ok L := by
  cases h.shape with
  | flip S T e hS he hm =>
    subst ht
    obtain ⟨rfl, h4⟩ := (ef_applyLam_iff hL he).1 ha
    have hd := disjoint_singleton.2 he
    have hw := h4.wellFormed hL hm
    exact ⟨rfl, hw, h4.cls, (ef_applyLam_iff hw (disjoint_singleton.1 (hm.disjoint hL.1 hd))).2 ⟨rfl, h4.inverse hL hd hm⟩⟩
  | multiflip S T es hS he hm =>
    replace ht : L.tri = S := ht
    subst ht
    obtain ⟨rfl, h4⟩ := (mf_applyLam_iff hL he).1 ha
    have hw := h4.wellFormed hL hm
    exact ⟨rfl, hw, h4.cls, (mf_applyLam_iff hw (hm.disjoint hL.1 he)).2 ⟨rfl, h4.inverse hL he hm⟩⟩
  | isometry S T f g i i' hS hT hf hg hi hi' hgf hfg =>
    replace ht : L.tri = S := ht.trans hi.source
    subst ht
    obtain ⟨rfl, h2⟩ := (hi.applyLam_iff hf hL rfl).1 ha
    have hw : L'.WellFormed := ⟨hT, by rw [h2.2.1, hL.2, hf.zeta]⟩
    exact ⟨hi.target.symm, hw, h2.1, (hi'.applyLam_iff hg hw rfl).2 ⟨rfl, h2.inverse hg hfg⟩⟩

theorem Legal.applyLam_total (h : m.Legal) {L : Lam R} (hL : L.Consistent) (ht : L.tri = m.move.source) :
    ∃ L', m.move.applyLam L = .ok L' ∧ L'.tri = m.move.target ∧ L'.Consistent ∧ L'.cls = L.cls := by
  cases h.shape with
  | flip S T e hS he hm =>
    subst ht
    have hd := disjoint_singleton.2 he
    obtain ⟨L', rfl, h4⟩ := hL.flipsTo hd T
    exact ⟨L', (ef_applyLam_iff hL.1 he).2 ⟨rfl, h4⟩, rfl, h4.consistent hL hd hm, h4.cls⟩
  | multiflip S T es hS he hm =>
    replace ht : L.tri = S := ht
    subst ht
    obtain ⟨L', rfl, h4⟩ := hL.flipsTo he T
    exact ⟨L', (mf_applyLam_iff hL.1 he).2 ⟨rfl, h4⟩, rfl, h4.consistent hL he hm, h4.cls⟩
  | isometry S T f g i i' hS hT hf hg hi hi' hgf hfg =>
    replace ht : L.tri = S := ht.trans hi.source
    subst ht
    obtain ⟨L', h1, rfl, h3⟩ := hi.applyLam hf hL.1 rfl
    exact ⟨L', h1, hi.target.symm, h3.consistent hf hL hT, h3.1⟩

end

theorem Legal.applyHom (h : m.Legal) {x : Hom} (hx : x.WellFormed) (ht : x.tri = m.move.source) :
    ∃ x', m.move.applyHom x = .ok x' ∧ x'.tri = m.move.target ∧ x'.WellFormed := by
  cases h.shape with
  | flip S T e hS he hm =>
    subst ht
    obtain ⟨x', h1, h2, h3, _⟩ := ef_applyHom hx he hm
    exact ⟨x', h1, h2, h3⟩
  | multiflip S T es hS he hm =>
    replace ht : x.tri = S := ht
    subst ht
    obtain ⟨x', h1, h2, h3, _⟩ := mf_applyHom hx he hm
    exact ⟨x', h1, h2, h3⟩
  | isometry S T f g i i' hS hT hf hg hi hi' hgf hfg =>
    replace ht : x.tri = S := ht.trans hi.source
    subst ht
    obtain ⟨x', h1, rfl, h3⟩ := hi.applyHom hf hx rfl
    exact ⟨x', h1, hi.target.symm, hT, by rw [h3.1, hx.2, hf.zeta]⟩

theorem Legal.homologous_iff (h : m.Legal) {x₁ x₂ x₁' x₂' : Hom} (hx₁ : x₁.WellFormed) (hx₂ : x₂.WellFormed)
    (t₁ : x₁.tri = m.move.source) (t₂ : x₂.tri = m.move.source) (a₁ : m.move.applyHom x₁ = .ok x₁')
    (a₂ : m.move.applyHom x₂ = .ok x₂') : x₁'.Homologous x₂' ↔ x₁.Homologous x₂ := by
  cases h.shape with
  | flip S T e hS he hm =>
    subst t₁
    obtain ⟨y₁, h1, h2, h3, h4⟩ := ef_applyHom hx₁ he hm
    replace t₂ : x₂.tri = x₁.tri := t₂
    obtain ⟨y₂, k1, k2, k3, k4⟩ := ef_applyHom hx₂ (t₂ ▸ he) (t₂ ▸ hm)
    rw [t₂] at k1
    cases a₁.symm.trans h1; cases a₂.symm.trans k1
    exact Hom.FlipsTo.homologous_iff hx₁ hx₂ t₂.symm (disjoint_singleton.2 he) (h2 ▸ hm) (h2.trans k2.symm) h4 k4
  | multiflip S T es hS he hm =>
    replace t₁ : x₁.tri = S := t₁
    subst t₁
    obtain ⟨y₁, h1, h2, h3, h4⟩ := mf_applyHom hx₁ he hm
    replace t₂ : x₂.tri = x₁.tri := t₂
    obtain ⟨y₂, k1, k2, k3, k4⟩ := mf_applyHom hx₂ (t₂ ▸ he) (t₂ ▸ hm)
    rw [t₂] at k1
    cases a₁.symm.trans h1; cases a₂.symm.trans k1
    exact Hom.FlipsTo.homologous_iff hx₁ hx₂ t₂.symm he (h2 ▸ hm) (h2.trans k2.symm) h4 k4
  | isometry S T f g i i' hS hT hf hg hi hi' hgf hfg =>
    replace t₁ : x₁.tri = S := t₁.trans hi.source
    replace t₂ : x₂.tri = S := t₂.trans hi.source
    subst t₁
    obtain ⟨y₁, h1, h2, h3⟩ := hi.applyHom hf hx₁ rfl
    obtain ⟨y₂, k1, k2, k3⟩ := hi.applyHom hf hx₂ t₂
    cases a₁.symm.trans h1; cases a₂.symm.trans k1
    exact Hom.MapsTo.homologous_iff h3 k3 (h2 ▸ hf) hS (h2 ▸ hT) t₂.symm (h2.trans k2.symm)

theorem Legal.hom_back (h : m.Legal) {x x' : Hom} (hx : x.WellFormed)
    (t : x.tri = m.move.source) (a : m.move.applyHom x = .ok x') :
    ∃ x'', m.inverse.move.applyHom x' = .ok x'' ∧ x.Homologous x'' := by
  obtain ⟨y, h1, h2, h3⟩ := h.applyHom hx t
  cases a.symm.trans h1
  have hv := h.valid
  obtain ⟨z, k1, k2, k3⟩ := h.inverse.applyHom h3 (h2.trans hv.2.2.2.1.symm)
  refine ⟨z, k1, ?_⟩
  cases h.shape with
  | flip S T e hS he hm =>
    subst t
    obtain ⟨y₁, b1, b2, b3, b4⟩ := ef_applyHom hx he hm
    cases a.symm.trans b1
    replace h2 : x'.tri = T := h2
    subst h2
    obtain ⟨y₁, c1, c2, c3, c4⟩ := ef_applyHom b3 (disjoint_singleton.1 (hm.disjoint hx.1 (disjoint_singleton.2 he)))
      (hm.inverse hx.1 (disjoint_singleton.2 he))
    cases k1.symm.trans c1
    exact b4.back hx (disjoint_singleton.2 he) hm c4 c2
  | multiflip S T es hS he hm =>
    replace t : x.tri = S := t
    subst t
    obtain ⟨y₁, b1, b2, b3, b4⟩ := mf_applyHom hx he hm
    cases a.symm.trans b1
    replace h2 : x'.tri = T := h2
    subst h2
    obtain ⟨y₁, c1, c2, c3, c4⟩ := mf_applyHom b3 (hm.disjoint hx.1 he) (hm.inverse hx.1 he)
    cases k1.symm.trans c1
    exact b4.back hx he hm c4 c2
  | isometry S T f g i i' hS hT hf hg hi hi' hgf hfg =>
    replace t : x.tri = S := t.trans hi.source
    subst t
    obtain ⟨y₁, b1, b2, b3⟩ := hi.applyHom hf hx rfl
    cases a.symm.trans b1
    subst b2
    obtain ⟨y₂, c1, c2, c3⟩ := hi'.applyHom hg h3 rfl
    cases k1.symm.trans c1
    refine ⟨c2.symm, NullHomologous.zero.congr ?_⟩
    intro e he
    have := c3.2 (f e) (hf.maps e he)
    rw [hgf e he, b3.2 e he] at this
    rw [this]; ring

/-- moves are additive on homology -/
theorem Legal.hom_add (h : m.Legal) {x y z x' y' z' : Hom} (hx : x.WellFormed) (hy : y.WellFormed) (hz : z.WellFormed)
    (tx : x.tri = m.move.source) (ty : y.tri = m.move.source) (tz : z.tri = m.move.source)
    (ax : m.move.applyHom x = .ok x') (ay : m.move.applyHom y = .ok y') (az : m.move.applyHom z = .ok z') (k l : Int)
    (hs : ∀ e, m.move.source.IsLabel e → z.v e = k * x.v e + l * y.v e) :
    ∀ e, m.move.target.IsLabel e → z'.v e = k * x'.v e + l * y'.v e := by
  have hflip : ∀ (S T : Triangulation) (es : List Int), S.Valid → S.DisjointSupport es → S.IsMultiflip es T → x.tri = S →
      y.tri = S → z.tri = S → (∀ e, S.IsLabel e → z.v e = k * x.v e + l * y.v e) → Hom.FlipsTo es x x' → Hom.FlipsTo es y y' →
      Hom.FlipsTo es z z' → ∀ e, T.IsLabel e → z'.v e = k * x'.v e + l * y'.v e := by
    intro S T es hS he hm hx hy hz hs h1 h2 h3 e hl
    rw [h3.2, h1.2, h2.2, hs e (hm.isLabel_iff.1 hl), hx, hy, hz]
    have hl := he.1
    clear he hm h1 h2 h3
    induction es with
    | nil => simp
    | cons c es ih =>
      have := ih (fun e he => hl e (by simp [he]))
      simp only [List.map_cons, List.sum_cons]
      rw [hs c (hl c (by simp))]
      linear_combination this
  cases h.shape with
  | flip S T e hS he hm =>
    obtain ⟨x₁, p1, p2, p3, p4⟩ := ef_applyHom hx (by rw [tx]; exact he) (by rw [tx]; exact hm)
    obtain ⟨y₁, q1, q2, q3, q4⟩ := ef_applyHom hy (by rw [ty]; exact he) (by rw [ty]; exact hm)
    obtain ⟨z₁, r1, r2, r3, r4⟩ := ef_applyHom hz (by rw [tz]; exact he) (by rw [tz]; exact hm)
    rw [tx] at p1; rw [ty] at q1; rw [tz] at r1
    cases ax.symm.trans p1; cases ay.symm.trans q1; cases az.symm.trans r1
    exact hflip S T [e] hS (disjoint_singleton.2 he) hm tx ty tz hs p4 q4 r4
  | multiflip S T es hS he hm =>
    obtain ⟨x₁, p1, p2, p3, p4⟩ := mf_applyHom hx (by rw [tx]; exact he) (by rw [tx]; exact hm)
    obtain ⟨y₁, q1, q2, q3, q4⟩ := mf_applyHom hy (by rw [ty]; exact he) (by rw [ty]; exact hm)
    obtain ⟨z₁, r1, r2, r3, r4⟩ := mf_applyHom hz (by rw [tz]; exact he) (by rw [tz]; exact hm)
    rw [tx] at p1; rw [ty] at q1; rw [tz] at r1
    cases ax.symm.trans p1; cases ay.symm.trans q1; cases az.symm.trans r1
    exact hflip S T es hS he hm tx ty tz hs p4 q4 r4
  | isometry S T f g i i' hS hT hf hg hi hi' hgf hfg =>
    simp only [Move.source, Move.target, hi.source, hi.target] at tx ty tz hs ⊢
    obtain ⟨x₁, p1, p2, p3⟩ := hi.applyHom hf hx tx
    obtain ⟨y₁, q1, q2, q3⟩ := hi.applyHom hf hy ty
    obtain ⟨z₁, r1, r2, r3⟩ := hi.applyHom hf hz tz
    cases ax.symm.trans p1; cases ay.symm.trans q1; cases az.symm.trans r1
    intro e he
    obtain ⟨u, hu, rfl⟩ := hf.surj he
    rw [p3.2 u (tx ▸ hu), q3.2 u (ty ▸ hu), r3.2 u (tz ▸ hu), hs u hu]

/-- an identity isometry has equal source and target -/
theorem _root_.Curver.Triangulation.IsIsometry.eq_of_id {S T : Triangulation} (hS : S.Valid) (hT : T.Valid) {f : Int → Int}
    (hf : S.IsIsometry T f) (h : ∀ e, S.IsLabel e → f e = e) : S = T := by
  have h1 : ∀ a b c, S.Glues a b c → T.Glues a b c := by
    intro a b c hg
    have hl := hS.comp.label_of_glues hg
    have := hf.glues _ _ _ hg
    rwa [h a hl.1, h b hl.2.1, h c hl.2.2] at this
  apply Valid.ext hS hT
  intro a b c
  refine ⟨h1 a b c, fun hg => ?_⟩
  have hl := hT.comp.label_of_glues hg
  rw [hf.isLabel] at hl
  obtain ⟨b', c', hg'⟩ := hS.comp.exists_glues hl.1
  obtain ⟨rfl, rfl⟩ := hT.comp.glues_unique hg (h1 _ _ _ hg')
  exact hg'

theorem Legal.isIdentity (h : m.Legal) (hi : m.move.isIdentityIsometry = true) : m.move.source = m.move.target ∧
    m.inverse.move.isIdentityIsometry = true := by
  cases h.shape with
  | flip S T e hS he hm => simp [Move.isIdentityIsometry] at hi
  | multiflip S T es hS he hm => simp [Move.isIdentityIsometry] at hi
  | isometry S T f g i i' hS hT hf hg hi1 hi' hgf hfg =>
    simp only [Move.isIdentityIsometry] at hi
    rw [hi1.isIdentity_iff] at hi
    have := hf.eq_of_id hS hT hi
    refine ⟨by simp only [Move.source, Move.target, hi1.source, hi1.target, this], ?_⟩
    simp only [LMove.inverse, Move.isIdentityIsometry]
    rw [hi'.isIdentity_iff]
    intro e he
    rw [← this] at he
    conv_lhs => rw [← hi e he]
    exact hgf e he

theorem Legal.isIdentity_applyLam {R : Type} [CommRing R] [LinearOrder R] [IsStrictOrderedRing R] [Halvable R] (h : m.Legal)
    (hi : m.move.isIdentityIsometry = true) {L : Lam R} (hL : L.WellFormed) (ht : L.tri = m.move.source) :
    m.move.applyLam L = .ok L := by
  cases h.shape with
  | flip S T e hS he hm => simp [Move.isIdentityIsometry] at hi
  | multiflip S T es hS he hm => simp [Move.isIdentityIsometry] at hi
  | isometry S T f g i i' hS hT hf hg hi1 hi' hgf hfg =>
    simp only [Move.isIdentityIsometry] at hi
    rw [hi1.isIdentity_iff] at hi
    have := hf.eq_of_id hS hT hi
    replace ht : L.tri = S := ht.trans hi1.source
    subst ht
    exact (hi1.applyLam_iff hf hL rfl).2 ⟨this, rfl, rfl, fun e he => by rw [hi e he]⟩

theorem Legal.isIdentity_applyHom (h : m.Legal) (hi : m.move.isIdentityIsometry = true) {x : Hom} (hx : x.WellFormed)
    (ht : x.tri = m.move.source) : m.move.applyHom x = .ok x := by
  cases h.shape with
  | flip S T e hS he hm => simp [Move.isIdentityIsometry] at hi
  | multiflip S T es hS he hm => simp [Move.isIdentityIsometry] at hi
  | isometry S T f g i i' hS hT hf hg hi1 hi' hgf hfg =>
    simp only [Move.isIdentityIsometry] at hi
    rw [hi1.isIdentity_iff] at hi
    have := hf.eq_of_id hS hT hi
    replace ht : x.tri = S := ht.trans hi1.source
    subst ht
    obtain ⟨x', h1, h2, h3⟩ := hi1.applyHom hf hx rfl
    have h4 : x.MapsTo f x := ⟨rfl, fun e he => by rw [hi e he]⟩
    have := Hom.MapsTo.unique hx hf h3 h4 h2 this
    subst this
    exact h1

/-- the identity isometry is legal -/
theorem _root_.Curver.Triangulation.Valid.idIsometry {T : Triangulation} (hT : T.Valid) : ∃ m, T.idIsometry = .ok m ∧ m.Legal ∧
    m.move.source = T ∧ m.move.target = T ∧ m.move.isIdentityIsometry = true := by
  obtain ⟨i, i', h1, h2, h3, h4, h5⟩ := idIsometry_eq hT.comp
  refine ⟨_, h1, ?_, h2.source, h2.target, h4⟩
  exact .isometry T T (fun e => e) (T.labels.map (fun i => (i, i))) _ hT hT (by
    refine ⟨by simpa [PyDict.keys, List.map_map, Function.comp_def] using nodup_labels, ?_⟩
    intro e v
    rw [List.mem_map]
    constructor
    · rintro ⟨a, ha, h⟩; cases h; exact ⟨mem_labels.1 ha, rfl⟩
    · rintro ⟨h, rfl⟩; exact ⟨_, mem_labels.2 h, rfl⟩) (IsIsometry.id T) h1

end LMove
end Curver
