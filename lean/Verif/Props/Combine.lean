import Verif.Proofs.Combine
import Verif.Proofs.Package
import Verif.Props.Encoding

/-!
# C30: `combine_isometries`
-/

namespace Curver
open Triangulation

theorem Enc.isId_of_not_isometry {m : LMove} (h : m.isIsometry = false) : Enc.isId m = false := by
  unfold Enc.isId Move.isIdentityIsometry
  unfold LMove.isIsometry at h
  cases hm : m.move <;> simp_all

/-- only an identity at the front is dropped -/
theorem Enc.trim_front {m : LMove} {l : List LMove} (hl : ∀ n ∈ l, n.isIsometry = false) :
    Enc.trim (Enc.trim (m :: l)) = if l ≠ [] ∧ Enc.isId m = true then l else m :: l := by
  have red : ∀ s : List LMove, s ≠ [] → (∀ n ∈ s, n.isIsometry = false) → Enc.trim s = s := by
    intro s hs h
    rw [← Enc.reduced_iff (h := ⟨.encoding, s, m.move.source, m.move.source⟩) hs]
    refine .inr ⟨fun n hn => ?_, fun n hn => ?_⟩
    · exact Enc.isId_of_not_isometry (h n (List.mem_of_mem_head? (by simpa using hn)))
    · exact Enc.isId_of_not_isometry (h n (List.mem_of_getLast? (by simpa using hn)))
  by_cases hn : l = []
  · subst hn; simp [Enc.trim, Enc.droppable]
  have hlast : ∀ n, (m :: l).getLast? = some n → Enc.isId n = false := by
    intro n hn'
    rw [List.getLast?_cons_of_ne_nil hn] at hn'
    exact Enc.isId_of_not_isometry (hl n (List.mem_of_getLast? hn'))
  by_cases hi : Enc.isId m = true
  · rw [if_pos ⟨hn, hi⟩]
    have : Enc.trim (m :: l) = l := by
      unfold Enc.trim
      have h1 : Enc.droppable (m :: l) (m :: l).getLast? = false := by
        unfold Enc.droppable
        cases hg : (m :: l).getLast? with
        | none => simp
        | some n =>
          have := hlast n hg
          unfold Enc.isId at this
          simp [this]
      rw [h1]
      have h2 : Enc.droppable (m :: l) (m :: l).head? = true := by
        unfold Enc.droppable
        unfold Enc.isId at hi
        simp only [List.head?_cons, Option.map_some, Option.getD_some, hi, Bool.and_true, decide_eq_true_eq, List.length_cons]
        have := List.length_pos_iff.2 hn
        omega
      simp only [Bool.false_eq_true, if_false]
      rw [if_pos h2]; rfl
    rw [this]
    exact red l hn hl
  · rw [if_neg (fun h => hi h.2)]
    have : Enc.trim (m :: l) = m :: l := by
      rw [← Enc.reduced_iff (h := ⟨.encoding, m :: l, m.move.source, m.move.source⟩) (by simp)]
      refine .inr ⟨fun n hn' => ?_, fun n hn' => hlast n hn'⟩
      simp only [List.head?_cons, Option.some.injEq] at hn'
      subst hn'
      exact Bool.eq_false_iff.2 hi
    rw [this, this]

/-- C30: `combine_isometries` succeeds, with the same source, target and class of map; it acts on laminations exactly as `h` and
on homology classes as `h` (the chains computed may differ by boundaries of triangles).  It consists of as many flips and multiflips
as `h` had, with one isometry `m` in front, that is left out if it is the identity (and anything else remains). -/
theorem C30_combine (h : Enc) (hh : h.Legal) :
    ∃ k, h.combineIsometries = .ok k ∧ k.Legal ∧ k.source = h.source ∧ k.target = h.target ∧
      k.kind = (if h.source = h.target then .mappingClass else .mapping) ∧
      (∀ (R : Type) [CommRing R] [LinearOrder R] [IsStrictOrderedRing R] [Halvable R] (L : Lam R), L.Consistent →
        k.applyLam L = h.applyLam L) ∧
      (∀ x x' : Hom, x.WellFormed → h.applyHom x = .ok x' → ∃ y', k.applyHom x = .ok y' ∧ x'.Homologous y') ∧
      ∃ m ns, m.isIsometry = true ∧ (∀ n ∈ ns, n.isIsometry = false) ∧ ns.length = h.sequence.countP (fun n => !n.isIsometry) ∧
        k.sequence = (if ns ≠ [] ∧ m.move.isIdentityIsometry = true then ns else m :: ns) := by
  have hS := hh.path.valid_source
  have hV := hh.path.valid_target
  have hid : PyDict.IsFun (h.source.labels.map (fun i => (i, i))) h.source (fun e => e) := by
    refine ⟨by simpa [PyDict.keys, List.map_map, Function.comp_def] using nodup_labels, ?_⟩
    intro e v
    rw [List.mem_map]
    constructor
    · rintro ⟨i, hi, h⟩; cases h; exact ⟨mem_labels.1 hi, rfl⟩
    · rintro ⟨h, rfl⟩; exact ⟨v, mem_labels.2 h, rfl⟩
  obtain ⟨items, ns, d', π, U, a1, a2, a3, a4, a5, a6, a7, a8⟩ := Enc.combine_loop hh.path hS hid (IsIsometry.id _) [] _ rfl
  have hU := a2.path.valid_target
  obtain ⟨g, hg, hgf, hfg⟩ := a4.exists_inverse hV.comp hU.comp
  have hd := a3.inverse a4 hg hgf hfg
  have hb : U.SignedBij g := ⟨fun e hl => hg.isLabel.1 (hg.maps e hl), hg.inj, hg.inverts⟩
  obtain ⟨T', d'', c1, c2, c3, c4, _⟩ := hb.encodeRelabel_isometry hU hd.1 (fun e v hv => (hd.2 e v).1 hv)
    (fun i hi => .inl (hd.keys.2 (mem_indices_isLabel hi)))
  have hTT : h.target = T' := (a4.comp c2).eq_of_id hV c1 (fun e hl => hgf e hl)
  subst hTT
  obtain ⟨j, j', g', b1, b2, b3, _, b4, b5, b6⟩ := LMove.isometry_ok hU.comp hV.comp c3 hg
  rw [b1] at c4
  have hl : LMove.Legal ⟨.isometry j, .isometry j'⟩ := .isometry U h.target g d'' _ hU hV c3 hg b1
  have hsf := EncItem.StandsFor.relabel (T := U) _ _ (fun i _ hi => .inl (hd.keys.2 hi)) c4 hl
  simp only [Move.target, b2.target] at hsf
  have hall := a2.append (.single hU hV hsf)
  have henc := hall.encode (by simp)
  rw [List.reverse_append, List.reverse_append, List.reverse_singleton, List.reverse_singleton, List.singleton_append, List.singleton_append]
    at henc
  have hp : Path h.source (⟨.isometry j, .isometry j'⟩ :: ns.reverse : List LMove).reverse h.target := by
    rw [List.reverse_cons, List.reverse_reverse]; exact hall.path
  have hsm := Enc.sameMap_trim_trim (if h.source = h.target then .mappingClass else .mapping) h.kind hp
  refine ⟨⟨if h.source = h.target then .mappingClass else .mapping,
    Enc.trim (Enc.trim (⟨.isometry j, .isometry j'⟩ :: ns.reverse)), h.source, h.target⟩, ?_,
    Enc.legal_mk _ (Enc.trim_ne_nil (by simp)) (Enc.path_trim hp) ?_, rfl, rfl, rfl, ?_, ?_,
    ⟨.isometry j, .isometry j'⟩, ns.reverse, rfl, ?_, ?_, ?_⟩
  · unfold Enc.combineIsometries
    dsimp only
    rw [PyDict.ofList_of_nodup _ hid.1]
    have : h.sequence.reverse = h.performed := rfl
    rw [this, a1, py_bind_ok, List.nil_append]
    exact henc
  · intro hk; by_contra hc; rw [if_neg hc] at hk; cases hk
  · intro R _ _ _ _ L hL
    rw [hsm.lam R L hL.1, Enc.applyLam_eq, Enc.applyLam_eq]
    dsimp only
    by_cases ht : h.source = L.tri
    · rw [if_pos ht, if_pos ht, Enc.performed, List.reverse_cons, List.reverse_reverse]
      obtain ⟨L', l1, l2, l3, _⟩ := hh.path.performLam_total hL ht.symm
      obtain ⟨M', m1, m2⟩ := a7 R L L' L hL hL ht.symm ht.symm ⟨rfl, rfl, fun _ _ => rfl⟩ l1
      obtain ⟨_, n1, n2, n3, _⟩ := a2.path.performLam_total hL ht.symm
      cases m1.symm.trans n1
      rw [performLam_append, m1, py_bind_ok, l1]
      simp only [performLam, Move.applyLam]
      have : j.applyLam M' = .ok L' := (b2.applyLam_iff hg n3.1 n2).2 ⟨l2,
        (m2.inverse (by rw [l2, n2]; exact hg) (fun e he => hfg e (n2 ▸ he)))⟩
      rw [this]; rfl
    · rw [if_neg ht, if_neg ht]
  · intro x x' hx hxx
    rw [hsm.hom x hx, Enc.applyHom_eq]
    rw [Enc.applyHom_eq] at hxx
    dsimp only
    by_cases ht : h.source = x.tri
    · rw [if_pos ht] at hxx ⊢
      rw [Enc.performed, List.reverse_cons, List.reverse_reverse]
      obtain ⟨_, l1, l2, l3⟩ := hh.path.performHom hx ht.symm
      cases hxx.symm.trans l1
      obtain ⟨y, m1, m2⟩ := a8 x x' x hx hx ht.symm ht.symm (NullHomologous.zero.congr (by intro e _; ring)) l1
      obtain ⟨_, n1, n2, n3⟩ := a2.path.performHom hx ht.symm
      cases m1.symm.trans n1
      obtain ⟨y', o1, o2, o3⟩ := b2.applyHom hg n3 n2
      refine ⟨y', ?_, ?_⟩
      · rw [performHom_append, m1, py_bind_ok]
        simp only [performHom, Move.applyHom, o1]; rfl
      · refine ⟨l2.trans o2.symm, ?_⟩
        have := m2.neg
        refine this.congr ?_
        intro e he
        have h1 := o3.2 (π e) (by rw [n2]; exact a4.maps e (l2 ▸ he))
        rw [hgf e (l2 ▸ he)] at h1
        rw [h1]; ring
    · rw [if_neg ht] at hxx; cases hxx
  · intro n hn; exact a5 n (by simpa using hn)
  · rw [List.length_reverse, a6, Enc.performed, List.countP_reverse]
  · exact Enc.trim_front (fun n hn => a5 n (by simpa using hn))

/-- C30 needs the exception for the identity: the combination of a single flip has no isometry at all, contradicting the docstring
("only has one isometry (at the front)"). -/
theorem C30_identity_is_dropped : ∃ h k : Enc, h.Legal ∧ h.combineIsometries = .ok k ∧ ∀ m ∈ k.sequence, m.isIsometry = false := by
  refine ⟨⟨.mapping, [torusFlip], torusFlip.move.source, torusFlip.move.target⟩, ⟨.mapping, [torusFlip], torusFlip.move.source, torusFlip.move.target⟩,
    ⟨by simp, Path.single torusFlip_legal, by simp⟩, by decide +kernel, ?_⟩
  intro m hm
  simp only [List.mem_singleton] at hm
  subst hm; rfl

/-- a non-trivial case: the cube of the twist has three flips and three isometries, that are collected at the front -/
example : (do
    let h ← torusTwist.mul torusTwist
    let h ← h.mul torusTwist
    let k ← h.combineIsometries
    return (h.sequence.map (·.isIsometry), k.sequence.map (·.isIsometry)) : Py _) =
      .ok ([true, false, true, false, true, false], [true, false, false, false]) := by decide +kernel

/-- the hypothesis of the theorem is met by a mapping class that is not made of isometries -/
example : torusTwist.Legal ∧ torusTwist.kind = .mappingClass ∧ torusTwist.len = 2 := ⟨torusTwist_spec.2.1, torusTwist_spec.2.2.1, torusTwist_spec.2.2.2.1⟩

end Curver
