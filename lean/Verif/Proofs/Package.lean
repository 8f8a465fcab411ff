import Verif.Spec.Package
import Verif.Proofs.Trim
import Verif.Proofs.EncodeSeq

namespace Curver
open Triangulation

theorem PyDict.IsFun.perm {S : Triangulation} {f : Int → Int} {d d' : PyDict Int Int} (h : d.IsFun S f) (hp : d.Perm d') :
    d'.IsFun S f := by
  refine ⟨?_, fun e v => by rw [← h.2 e v, hp.mem_iff]⟩
  exact (hp.map Prod.fst).nodup_iff.1 h.1

theorem PyDict.IsFun.nodup {S : Triangulation} {f : Int → Int} {d : PyDict Int Int} (h : d.IsFun S f) : d.Nodup := h.1.of_map

theorem PyDict.IsFun.eq {S : Triangulation} {f : Int → Int} {d d' : PyDict Int Int} (h : d.IsFun S f) (h' : d'.IsFun S f) :
    d.eq d' = true := by
  unfold PyDict.eq
  have hp : d.Perm d' := by
    rw [List.perm_ext_iff_of_nodup h.nodup h'.nodup]
    rintro ⟨a, b⟩; rw [h.2, h'.2]
  rw [Bool.and_eq_true, beq_iff_eq, List.all_eq_true]
  refine ⟨hp.length_eq, ?_⟩
  rintro ⟨a, b⟩ hm
  obtain ⟨h1, rfl⟩ := (h.2 _ _).1 hm
  simpa using h'.get? h1

theorem PyDict.IsFun.eq_iff {S : Triangulation} {f f' : Int → Int} {d d' : PyDict Int Int} (h : d.IsFun S f) (h' : d'.IsFun S f') :
    d.eq d' = true ↔ ∀ e, S.IsLabel e → f e = f' e := by
  constructor
  · intro he e hl
    unfold PyDict.eq at he
    rw [Bool.and_eq_true, List.all_eq_true] at he
    have := he.2 (e, f e) ((h.2 _ _).2 ⟨hl, rfl⟩)
    rw [decide_eq_true_eq, h'.get? hl] at this
    exact (Option.some.inj this).symm
  · intro he
    exact h.eq ⟨h'.1, fun e v => by
      rw [h'.2]
      constructor
      · rintro ⟨h1, rfl⟩; exact ⟨h1, (he e h1).symm⟩
      · rintro ⟨h1, rfl⟩; exact ⟨h1, he e h1⟩⟩

theorem pySetEq_iff {α : Type _} [DecidableEq α] {s s' : List α} : pySetEq s s' = true ↔ ∀ x, x ∈ s ↔ x ∈ s' := by
  unfold pySetEq
  simp only [Bool.and_eq_true, List.all_eq_true, decide_eq_true_eq]
  exact ⟨fun h x => ⟨h.1 x, h.2 x⟩, fun h => ⟨fun x => (h x).1, fun x => (h x).2⟩⟩

namespace LMove
variable {m m' : LMove}

/-- equal moves do the same -/
theorem Legal.eq_acts (h : m.Legal) (h' : m'.Legal) (he : m.move.eq m'.move = true) :
    m.move.source = m'.move.source ∧ m.move.target = m'.move.target ∧ m.move.isIdentityIsometry = m'.move.isIdentityIsometry ∧
      (∀ (R : Type) [CommRing R] [LinearOrder R] [IsStrictOrderedRing R] [Halvable R] (L L' : Lam R), L.WellFormed → L.tri = m.move.source →
        (m.move.applyLam L = .ok L' ↔ m'.move.applyLam L = .ok L')) ∧
      ∀ x : Hom, x.WellFormed → x.tri = m.move.source → m.move.applyHom x = m'.move.applyHom x := by
  cases h.shape with
  | flip S T e hS hf hm =>
    cases h'.shape with
    | flip S' T' e' hS' hf' hm' =>
      simp only [Move.eq, Triangulation.eq_decide, Bool.and_eq_true, decide_eq_true_eq, beq_iff_eq] at he
      obtain ⟨⟨rfl, rfl⟩, rfl⟩ := he
      exact ⟨rfl, rfl, rfl, fun _ _ _ _ _ _ _ _ _ => Iff.rfl, fun _ _ _ => rfl⟩
    | multiflip => simp [Move.eq] at he
    | isometry => simp [Move.eq] at he
  | multiflip S T es hS hf hm =>
    cases h'.shape with
    | flip => simp [Move.eq] at he
    | isometry => simp [Move.eq] at he
    | multiflip S' T' es' hS' hf' hm' =>
      simp only [Move.eq, Triangulation.eq_decide, Bool.and_eq_true, decide_eq_true_eq, pySetEq_iff, mf] at he
      obtain ⟨⟨rfl, rfl⟩, he⟩ := he
      have hp : es.Perm es' := (List.perm_ext_iff_of_nodup (hf.nodup hS.comp) (hf'.nodup hS.comp)).2 he
      refine ⟨rfl, rfl, rfl, ?_, ?_⟩
      · intro R _ _ _ _ L L' hL ht
        replace ht : L.tri = S := ht
        subst ht
        simp only [Move.applyLam]
        rw [mf_applyLam_iff hL hf, mf_applyLam_iff hL hf', Lam.flipsTo_iff hL hf.1, Lam.flipsTo_iff hL hf'.1]
        simp only [he]
      · intro x hx ht
        replace ht : x.tri = S := ht
        subst ht
        simp only [Move.applyHom]
        obtain ⟨y, k1, k2, _, k3⟩ := mf_applyHom hx hf hm
        obtain ⟨y', k4, k5, _, k6⟩ := mf_applyHom hx hf' hm'
        have : Hom.FlipsTo es x y' := ⟨k6.1, fun u => by rw [k6.2 u, (hp.map _).sum_eq]⟩
        rw [k1, k4, Hom.FlipsTo.unique (by rw [k2, k5]) k3 this]
  | isometry S T f g i i' hS hT hf hg hi hi' hgf hfg =>
    cases h'.shape with
    | flip => simp [Move.eq] at he
    | multiflip => simp [Move.eq] at he
    | isometry S' T' f' g' j j' hS' hT' hf' hg' hj hj' hgf' hfg' =>
      simp only [Move.eq, Triangulation.eq_decide, Bool.and_eq_true, decide_eq_true_eq] at he
      obtain ⟨⟨e1, e2⟩, he⟩ := he
      rw [hi.source, hj.source] at e1
      rw [hi.target, hj.target] at e2
      subst e1 e2
      rw [hi.label.eq_iff hj.label] at he
      refine ⟨hi.source.trans hj.source.symm, hi.target.trans hj.target.symm, ?_, ?_, ?_⟩
      · simp only [Move.isIdentityIsometry]
        rw [Bool.eq_iff_iff, hi.isIdentity_iff, hj.isIdentity_iff]
        exact ⟨fun h e hl => by rw [← he e hl, h e hl], fun h e hl => by rw [he e hl, h e hl]⟩
      · intro R _ _ _ _ L L' hL ht
        replace ht : L.tri = S := ht.trans hi.source
        subst ht
        simp only [Move.applyLam]
        rw [hi.applyLam_iff hf hL rfl, hj.applyLam_iff hf' hL rfl]
        unfold Lam.MapsTo
        constructor
        · rintro ⟨rfl, a, b, c⟩; exact ⟨rfl, a, b, fun e hl => by rw [← he e hl, c e hl]⟩
        · rintro ⟨rfl, a, b, c⟩; exact ⟨rfl, a, b, fun e hl => by rw [he e hl, c e hl]⟩
      · intro x hx ht
        replace ht : x.tri = S := ht.trans hi.source
        subst ht
        simp only [Move.applyHom]
        obtain ⟨y, k1, k2, k3⟩ := hi.applyHom hf hx rfl
        obtain ⟨y', k4, k5, k6⟩ := hj.applyHom hf' hx rfl
        have : x.MapsTo f y' := ⟨k6.1, fun e hl => by rw [he e hl, k6.2 e hl]⟩
        rw [k1, k4, Hom.MapsTo.unique hx hf k3 this k2 k5]

/-- what is packaged rebuilds an equal move -/
theorem Legal.rebuild (h : m.Legal) {item : EncItem} (hs : m.move.package.SameData item) :
    ∃ m', item.StandsFor m.move.source [m'] m.move.target ∧ m'.Legal ∧ m.Equal m' := by
  cases h.shape with
  | flip S T e hS hf hm =>
    simp only [Move.package] at hs
    cases hs
    have := hS.encodeFlip_ok_iff.2 ⟨T, hf, hm, rfl⟩
    refine ⟨_, .flip e _ this, h, ?_⟩
    simp [Equal, Move.eq, Triangulation.eq_decide]
  | multiflip S T es hS hf hm =>
    simp only [Move.package] at hs
    cases hs with
    | multiflip es es' hp =>
      simp only [mf] at hp
      have hf' := hf.perm hS.comp hp
      have hn := hf'.nodup hS.comp
      have : S.encodeMultiflip es' = .ok ⟨.multiflip (mf S T es'), .multiflip (mf T S (es'.map inv))⟩ := by
        rw [hS.encodeMultiflip_ok_iff, hn.dedup]
        exact ⟨T, hf', hm.of_mem_iff (fun e => hp.mem_iff), rfl⟩
      refine ⟨⟨.multiflip (mf S T es'), .multiflip (mf T S (es'.map inv))⟩, .multiflip es' _ this, .multiflip _ _ _ hS this, ?_⟩
      simp only [Equal, Move.eq, Triangulation.eq_decide, mf, Bool.and_eq_true, decide_true, true_and, pySetEq_iff, hp.mem_iff,
        implies_true, (hp.map inv).mem_iff, and_self]
  | isometry S T f g i i' hS hT hf hg hi hi' hgf hfg =>
    simp only [Move.package] at hs
    simp only [Move.source, Move.target, hi.source, hi.target]
    by_cases hid : i.isIdentity = true
    · rw [if_pos hid] at hs
      cases hs
      have hid' := hi.isIdentity_iff.1 hid
      have := hf.eq_of_id hS hT hid'
      subst this
      obtain ⟨j, j', k1, k2, k3, k4, k5⟩ := idIsometry_eq hS.comp
      obtain ⟨m', l1, l2, _⟩ := hS.idIsometry
      cases k1.symm.trans l1
      refine ⟨_, .none _ k1, l2, ?_⟩
      simp only [Equal, Move.eq, Triangulation.eq_decide, Bool.and_eq_true, decide_eq_true_eq, hi.source, hi.target, k2.source, k2.target,
        hi'.source, hi'.target, k3.source, k3.target, true_and, hi.label.eq_iff k2.label, hi'.label.eq_iff k3.label]
      refine ⟨hid', fun e hl => ?_⟩
      have := hgf e hl
      rwa [hid' e hl] at this
    · rw [if_neg hid] at hs
      cases hs with
      | dict d d' hp =>
        have hb : S.SignedBij f := ⟨fun e hl => hf.isLabel.1 (hf.maps e hl), hf.inj, hf.inverts⟩
        have hd' := hi.label.perm hp
        obtain ⟨T', d'', a1, a2, a3, a4, _⟩ := hb.encodeRelabel_isometry hS hd'.1 (fun e v hv => (hd'.2 e v).1 hv)
          (fun i hi => .inl (hd'.keys.2 (mem_indices_isLabel hi)))
        have hTT : T' = T := by
          have := (hg.comp a2).eq_of_id hT a1 (fun e hl => hfg e hl)
          exact this.symm
        subst hTT
        obtain ⟨j, j', g', b1, b2, b3, _, b4, b5, b6⟩ := LMove.isometry_ok hS.comp hT.comp a3 hf
        rw [b1] at a4
        have hl : LMove.Legal ⟨.isometry j, .isometry j'⟩ := .isometry S T' f d'' _ hS hT a3 hf b1
        have hsf := EncItem.StandsFor.relabel (T := S) d' _ (fun i _ hi => .inl (hd'.keys.2 hi)) a4 hl
        simp only [Move.target, b2.target] at hsf
        refine ⟨_, hsf, hl, ?_⟩
        simp only [Equal, Move.eq, Triangulation.eq_decide, Bool.and_eq_true, decide_eq_true_eq, hi.source, hi.target, b2.source, b2.target,
          hi'.source, hi'.target, b3.source, b3.target, true_and, hi.label.eq b2.label, hi'.label.eq_iff b3.label]
        intro e hl
        obtain ⟨u, hu, rfl⟩ := hf.surj hl
        rw [hgf u hu, b5 u hu]

end LMove

theorem Path.rebuild {S T : Triangulation} {ms : List LMove} (h : Path S ms T) {items : List EncItem}
    (hs : List.Forall₂ EncItem.SameData (ms.map (fun m => m.move.package)) items) :
    ∃ ms', EncItem.AllStandFor S items ms' T ∧ List.Forall₂ LMove.Equal ms ms' := by
  induction h generalizing items with
  | nil T hT =>
    cases hs
    exact ⟨[], .nil T hT, .nil⟩
  | cons m ms T h hp ih =>
    rw [List.map_cons, List.forall₂_cons_left_iff] at hs
    obtain ⟨item, items', h1, h2, rfl⟩ := hs
    obtain ⟨m', k1, k2, k3⟩ := h.rebuild h1
    obtain ⟨ms', l1, l2⟩ := ih h2
    exact ⟨m' :: ms', .cons _ _ _ _ _ [m'] ms' h.valid.1 k1 l1, .cons k3 l2⟩

theorem Path.equal_performLam {R : Type} [CommRing R] [LinearOrder R] [IsStrictOrderedRing R] [Halvable R] {S T T' : Triangulation}
    {ms ms' : List LMove} (h : Path S ms T) (h' : Path S ms' T') (he : List.Forall₂ LMove.Equal ms ms') {L : Lam R} (hL : L.Consistent)
    (ht : L.tri = S) : Curver.performLam ms L = Curver.performLam ms' L := by
  induction he generalizing S L with
  | nil => rfl
  | @cons m m' ms ms' hm hms ih =>
    obtain ⟨a1, a2, a3⟩ := Path.cons_iff.1 h
    obtain ⟨b1, b2, b3⟩ := Path.cons_iff.1 h'
    obtain ⟨c1, c2, _, c3, _⟩ := a1.eq_acts b1 hm.1
    obtain ⟨L', d1, d2, d3, d4⟩ := a1.applyLam_total hL (ht.trans a2)
    have d5 := (c3 R L L' hL.1 (ht.trans a2)).1 d1
    simp only [Curver.performLam, d1, d5, py_bind_ok]
    exact ih a3 (c2 ▸ b3) d3 d2

theorem Path.equal_performHom {S T T' : Triangulation}
    {ms ms' : List LMove} (h : Path S ms T) (h' : Path S ms' T') (he : List.Forall₂ LMove.Equal ms ms') {x : Hom} (hx : x.WellFormed)
    (ht : x.tri = S) : Curver.performHom ms x = Curver.performHom ms' x := by
  induction he generalizing S x with
  | nil => rfl
  | @cons m m' ms ms' hm hms ih =>
    obtain ⟨a1, a2, a3⟩ := Path.cons_iff.1 h
    obtain ⟨b1, b2, b3⟩ := Path.cons_iff.1 h'
    obtain ⟨c1, c2, _, _, c3⟩ := a1.eq_acts b1 hm.1
    obtain ⟨y, d1, d2, d3⟩ := a1.applyHom hx (ht.trans a2)
    have d5 := c3 x hx (ht.trans a2)
    simp only [Curver.performHom, ← d5, d1, py_bind_ok]
    exact ih a3 (c2 ▸ b3) d3 d2

end Curver
