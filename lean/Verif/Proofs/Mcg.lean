import Verif.Spec.Mcg
import Verif.Proofs.MappingEq
import Verif.Proofs.Cayley

namespace Curver
open Triangulation

namespace Enc

/-- equality of mappings is compatible with composition on the left -/
theorem Agree.comp_left {k k' g h h' : Enc} (H : h.Agree h') (K : IsComposite k g h) (K' : IsComposite k' g h') (hg : g.Legal)
    (hh : h.Legal) (hh' : h'.Legal) (he : g.source = h.target) : k.Agree k' := by
  refine ⟨by rw [K.source, K'.source]; exact H.source, by rw [K.target, K'.target], ?_, ?_⟩
  · have hw := hh.path.valid_source.asLamination_consistent.1
    rw [K.source, K.lam Int _ hw, K'.lam Int _ hw, H.edges]
  · intro x y z hx hy hz
    rw [K.hom x hx, py_bind_eq_ok] at hy
    rw [K'.hom x hx, py_bind_eq_ok] at hz
    obtain ⟨y', y1, y2⟩ := hy
    obtain ⟨z', z1, z2⟩ := hz
    have tx : x.tri = h.source := by
      rw [applyHom_eq] at y1; split at y1
      · rename_i h'; exact h'.symm
      · cases y1
    obtain ⟨a1, a2, a3⟩ := hh.act_ok hx tx
    cases a1.symm.trans y1
    obtain ⟨b1, b2, b3⟩ := hh'.act_ok hx (tx.trans H.source)
    cases b1.symm.trans z1
    have hom := H.homology x _ _ hx y1 z1
    obtain ⟨c1, c2, c3⟩ := hg.act_ok a2 (a3.trans he.symm)
    obtain ⟨d1, d2, d3⟩ := hg.act_ok b2 (b3.trans (H.target.symm.trans he.symm))
    cases c1.symm.trans y2
    cases d1.symm.trans z2
    exact (hg.hom_congr a2 b2 y2 z2).2 hom

end Enc

namespace Mcg
variable {S : Mcg}

/-- the moves of a word -/
def movesOf (S : Mcg) (w : List Str) : List LMove := (w.map (fun g => ((S.mappingClasses.get? g).map Enc.sequence).getD [])).flatten

theorem movesOf_cons {g : Str} {w : List Str} {h : Enc} (hg : S.mappingClasses.get? g = some h) : S.movesOf (g :: w) = h.sequence ++ S.movesOf w := by
  simp [movesOf, hg]

theorem mapM_moves {w : List Str} (hw : ∀ g ∈ w, g ∈ S.mappingClasses.keys) :
    w.mapM (fun letter => do
      let h ← S.mappingClasses.get letter
      return h.sequence) = (.ok (w.map (fun g => ((S.mappingClasses.get? g).map Enc.sequence).getD [])) : Py _) := by
  apply mapM_ok
  intro g hg
  obtain ⟨h, hh⟩ := Option.isSome_iff_exists.1 (PyDict.get?_isSome_iff.2 (hw g hg))
  rw [PyDict.get_eq_ok_iff.2 hh, hh]; rfl

theorem Legal.get (hS : S.Legal) {g : Str} (hg : g ∈ S.mappingClasses.keys) : ∃ h, S.mappingClasses.get? g = some h ∧ h.Legal ∧
    h.kind = .mappingClass ∧ h.source = S.triangulation ∧ h.target = S.triangulation := by
  obtain ⟨h, hh⟩ := Option.isSome_iff_exists.1 (PyDict.get?_isSome_iff.2 hg)
  obtain ⟨a, b, c⟩ := hS.legal g h hh
  exact ⟨h, hh, a, b, c, (a.mappingClass b).symm.trans c⟩

theorem Legal.path (hS : S.Legal) {w : List Str} (hw : ∀ g ∈ w, g ∈ S.mappingClasses.keys) :
    Path S.triangulation (S.movesOf w).reverse S.triangulation := by
  induction w with
  | nil => exact .nil _ hS.valid
  | cons g w ih =>
    obtain ⟨h, hh, a, b, c, d⟩ := hS.get (hw g (by simp))
    rw [movesOf_cons hh, List.reverse_append]
    have := a.path
    rw [c, d] at this
    exact (ih (fun g hg => hw g (by simp [hg]))).append this

theorem Legal.movesOf_ne (hS : S.Legal) {w : List Str} (hw : ∀ g ∈ w, g ∈ S.mappingClasses.keys) (hne : w ≠ []) : S.movesOf w ≠ [] := by
  cases w with
  | nil => exact absurd rfl hne
  | cons g w =>
    obtain ⟨h, hh, a, b, c, d⟩ := hS.get (hw g (by simp))
    rw [movesOf_cons hh]
    intro h
    exact a.nonempty (List.append_eq_nil_iff.1 h).1

theorem Legal.wordLam_eq (hS : S.Legal) {R : Type} [CommRing R] [LinearOrder R] [IsStrictOrderedRing R] [Halvable R] {w : List Str}
    (hw : ∀ g ∈ w, g ∈ S.mappingClasses.keys) {L : Lam R} (hL : L.WellFormed) (ht : L.tri = S.triangulation) :
    S.wordLam w L = performLam (S.movesOf w).reverse L := by
  induction w with
  | nil => rfl
  | cons g w ih =>
    obtain ⟨h, hh, a, b, c, d⟩ := hS.get (hw g (by simp))
    have hw' : ∀ g ∈ w, g ∈ S.mappingClasses.keys := fun g hg => hw g (by simp [hg])
    rw [movesOf_cons hh, List.reverse_append, performLam_append, wordLam, ih hw']
    cases hp : performLam (S.movesOf w).reverse L with
    | error e => rfl
    | ok L' =>
      rw [py_bind_ok, py_bind_ok, PyDict.get_eq_ok_iff.2 hh, py_bind_ok, Enc.applyLam_eq,
        if_pos (c.trans ((hS.path hw').performLam hL ht hp).1.symm)]
      rfl

theorem Legal.wordHom_eq (hS : S.Legal) {w : List Str}
    (hw : ∀ g ∈ w, g ∈ S.mappingClasses.keys) {x : Hom} (hx : x.WellFormed) (ht : x.tri = S.triangulation) :
    S.wordHom w x = performHom (S.movesOf w).reverse x := by
  induction w with
  | nil => rfl
  | cons g w ih =>
    obtain ⟨h, hh, a, b, c, d⟩ := hS.get (hw g (by simp))
    have hw' : ∀ g ∈ w, g ∈ S.mappingClasses.keys := fun g hg => hw g (by simp [hg])
    rw [movesOf_cons hh, List.reverse_append, performHom_append, wordHom, ih hw']
    obtain ⟨y, hp, l1, l2⟩ := (hS.path hw').performHom hx ht
    rw [hp, py_bind_ok, py_bind_ok, PyDict.get_eq_ok_iff.2 hh, py_bind_ok, Enc.applyHom_eq, if_pos (c.trans l1.symm)]
    rfl

/-- the product of the letters of a word -/
theorem Legal.ofLetters_ok (hS : S.Legal) {w : List Str} (hw : ∀ g ∈ w, g ∈ S.mappingClasses.keys) :
    ∃ h, S.ofLetters w = .ok h ∧ S.Denotes w h := by
  have hp := hS.path hw
  unfold ofLetters
  rw [mapM_moves hw, py_bind_ok]
  change ∃ h, (if (S.movesOf w).isEmpty then _ else Enc.create .mappingClass (S.movesOf w)) = _ ∧ _
  by_cases hne : w = []
  · subst hne
    rw [if_pos (by rfl)]
    obtain ⟨p, h1, h2, h3, h4, h5, h6, h7⟩ := hS.valid.idEncoding_spec
    exact ⟨p, h1, h2, h3, h4, fun R _ _ _ _ L hL ht => by rw [h6 R L hL ht]; rfl, fun x hx ht => by rw [h7 x hx ht]; rfl⟩
  · have hm := hS.movesOf_ne hw hne
    rw [if_neg (by simpa using hm), Enc.create_eq _ hm hp]
    have hsm := Enc.sameMap_trim .mappingClass .mappingClass hp
    refine ⟨_, rfl, Enc.legal_mk _ hm hp (fun _ => rfl), rfl, rfl, ?_, ?_⟩
    · intro R _ _ _ _ L hL ht
      rw [hsm.lam R L hL, Enc.applyLam_eq, if_pos ht.symm, hS.wordLam_eq hw hL ht]; rfl
    · intro x hx ht
      rw [hsm.hom x hx, Enc.applyHom_eq, if_pos ht.symm, hS.wordHom_eq hw hx ht]; rfl

theorem ofLetters_error {w : List Str} (hw : ¬ ∀ g ∈ w, g ∈ S.mappingClasses.keys) : S.ofLetters w = .error .keyError := by
  unfold ofLetters
  have : w.mapM (fun letter => do
      let h ← S.mappingClasses.get letter
      return h.sequence) = (.error .keyError : Py _) := by
    induction w with
    | nil => exact absurd (by simp) hw
    | cons g w ih =>
      rw [List.mapM_cons]
      by_cases hg : g ∈ S.mappingClasses.keys
      · obtain ⟨h, hh⟩ := Option.isSome_iff_exists.1 (PyDict.get?_isSome_iff.2 hg)
        rw [PyDict.get_eq_ok_iff.2 hh]
        rw [py_bind_ok, ih]
        · rfl
        · intro hc
          apply hw
          intro g' hg'
          rcases List.mem_cons.1 hg' with h1 | h1
          · rw [h1]; exact hg
          · exact hc g' h1
      · unfold PyDict.get
        rw [PyDict.get?_eq_none_iff.2 hg]; rfl
  rw [this]; rfl

/-- a longer word is a composite -/
theorem Denotes.composite (hS : S.Legal) {g : Str} {w : List Str} {a h k : Enc} (hg : S.mappingClasses.get? g = some a)
    (hh : S.Denotes w h) (hk : S.Denotes (g :: w) k) : Enc.IsComposite k a h := by
  obtain ⟨a1, a2, a3⟩ := hS.legal g a hg
  refine ⟨hk.source.trans hh.source.symm, ?_, ?_, ?_⟩
  · rw [← hk.legal.mappingClass hk.kind, ← a1.mappingClass a2, hk.source, a3]
  · intro R _ _ _ _ L hL
    by_cases ht : L.tri = S.triangulation
    · rw [hk.lam R L hL ht, hh.lam R L hL ht, wordLam, PyDict.get_eq_ok_iff.2 hg]; rfl
    · rw [Enc.applyLam_eq, if_neg (fun h => ht (h.symm.trans hk.source)), Enc.applyLam_eq, if_neg (fun h' => ht (h'.symm.trans hh.source))]; rfl
  · intro x hx
    by_cases ht : x.tri = S.triangulation
    · rw [hk.hom x hx ht, hh.hom x hx ht, wordHom, PyDict.get_eq_ok_iff.2 hg]; rfl
    · rw [Enc.applyHom_eq, if_neg (fun h => ht (h.symm.trans hk.source)), Enc.applyHom_eq, if_neg (fun h' => ht (h'.symm.trans hh.source))]; rfl

theorem Denotes.target {w : List Str} {h : Enc} (hh : S.Denotes w h) : h.target = S.triangulation :=
  (hh.legal.mappingClass hh.kind).symm.trans hh.source

/-! ### cayley -/

/-- one step of the exploration as a total function -/
def next (S : Mcg) (g : Str) (x : Lam Int × List (List Int)) : Lam Int × List (List Int) :=
  match S.cayleyStep g x with
  | .ok y => y
  | .error _ => x

theorem next_eq {g : Str} {x y : Lam Int × List (List Int)} (h : S.cayleyStep g x = .ok y) : S.next g x = y := by
  unfold next
  rw [h]

/-- the images of an element -/
structure ImageOf (h : Enc) (x : Lam Int × List (List Int)) : Prop where
  lam : h.selfImage = .ok x.1
  mat : h.homologyMatrix = .ok x.2

theorem ImageOf.step (hS : S.Legal) {g : Str} {w : List Str} {a h k : Enc} (hg : S.mappingClasses.get? g = some a)
    (hh : S.Denotes w h) (hk : S.Denotes (g :: w) k) {x : Lam Int × List (List Int)} (hx : ImageOf h x) :
    ∃ y, S.cayleyStep g x = .ok y ∧ ImageOf k y := by
  obtain ⟨a1, a2, a3⟩ := hS.legal g a hg
  have a4 := (a1.mappingClass a2).symm.trans a3
  have hc := Denotes.composite hS hg hh hk
  have hw := hS.valid.asLamination_consistent
  obtain ⟨L, l1, l2, l3⟩ := hk.legal.selfImage_ok
  have e1 : a.applyLam x.1 = .ok L := by
    have h1 := l1
    unfold Enc.selfImage at h1
    rw [hk.source, hc.lam Int _ hw.1] at h1
    have h2 := hx.lam
    unfold Enc.selfImage at h2
    rw [hh.source] at h2
    rw [h2, py_bind_ok] at h1
    exact h1
  obtain ⟨_, t, ht, _⟩ := hS.valid.comp.dualTree_ok []
  have ma := a1.homologyMatrix_ok (by rw [a3]; exact ht) (by rw [a4]; exact ht)
  have mh := hh.legal.homologyMatrix_ok (by rw [hh.source]; exact ht) (by rw [hh.target]; exact ht)
  have mk := hk.legal.homologyMatrix_ok (by rw [hk.source]; exact ht) (by rw [hk.target]; exact ht)
  have ga := a1.good
  have gh := hh.legal.good
  have gk := hk.legal.good
  rw [a3, a4] at ma ga
  rw [hh.source, hh.target] at mh gh
  rw [hk.source, hk.target] at mk gk
  have e2 := Except.ok.inj (mh.symm.trans hx.mat)
  refine ⟨(L, Curver.mat S.triangulation S.triangulation t t k.act), ?_, l1, mk⟩
  unfold cayleyStep
  rw [PyDict.get_eq_ok_iff.2 hg, py_bind_ok, e1, py_bind_ok, ma, py_bind_ok]
  dsimp only [py_pure]
  rw [← e2, Curver.mat_length, Curver.mat_comp gh ga hS.valid hS.valid hS.valid ht ht ht]
  congr 2
  rw [Curver.mat_eq_iff (gh.comp ga) gk hS.valid hS.valid ht ht]
  intro y hy ty
  obtain ⟨b1, b2, b3⟩ := hh.legal.act_ok hy (ty.trans hh.source.symm)
  obtain ⟨c1, c2, c3⟩ := a1.act_ok b2 (b3.trans (hh.target.trans a3.symm))
  obtain ⟨d1, d2, d3⟩ := hk.legal.act_ok hy (ty.trans hk.source.symm)
  have := hc.hom y hy
  rw [b1, py_bind_ok, c1, d1] at this
  rw [Except.ok.inj this]
  exact .refl _

theorem Legal.image (hS : S.Legal) {x0 : Lam Int × List (List Int)} {e : Enc} (he : S.ofLetters [] = .ok e) (h0 : ImageOf e x0) {w : List Str}
    (hw : ∀ g ∈ w, g ∈ S.mappingClasses.keys) :
    ∃ h, S.ofLetters w = .ok h ∧ S.Denotes w h ∧ ImageOf h (Cayley.img S.next x0 w) := by
  induction w with
  | nil =>
    obtain ⟨h, h1, h2⟩ := hS.ofLetters_ok hw
    cases he.symm.trans h1
    exact ⟨e, h1, h2, h0⟩
  | cons g w ih =>
    obtain ⟨h, h1, h2, h3⟩ := ih (fun g hg => hw g (by simp [hg]))
    obtain ⟨k, k1, k2⟩ := hS.ofLetters_ok hw
    obtain ⟨a, ha, _⟩ := hS.get (hw g (by simp))
    obtain ⟨y, y1, y2⟩ := h3.step hS ha h2 k2
    refine ⟨k, k1, k2, ?_⟩
    have : Cayley.img S.next x0 (g :: w) = y := by
      exact next_eq y1
    rw [this]; exact y2

theorem flatten_inj {α : Type} (n : Nat) : ∀ {A B : List (List α)}, A.length = B.length → (∀ r ∈ A, r.length = n) → (∀ r ∈ B, r.length = n) →
    A.flatten = B.flatten → A = B := by
  intro A
  induction A with
  | nil => intro B h _ _ _; exact (List.length_eq_zero_iff.1 h.symm).symm
  | cons a A ih =>
    intro B h hA hB he
    cases B with
    | nil => simp at h
    | cons b B =>
      rw [List.flatten_cons, List.flatten_cons] at he
      obtain ⟨h1, h2⟩ := List.append_inj he ((hA a (by simp)).trans (hB b (by simp)).symm)
      rw [h1, ih (by simpa using h) (fun r hr => hA r (by simp [hr])) (fun r hr => hB r (by simp [hr])) h2]

theorem ImageOf.same_iff {u v : List Str} {h k : Enc} (hh : S.Denotes u h) (hk : S.Denotes v k) {x y : Lam Int × List (List Int)}
    (hx : ImageOf h x) (hy : ImageOf k y) : cayleySame x y = true ↔ h.eq k = .ok true := by
  have hv := hh.legal.path.valid_source
  rw [hh.source] at hv
  obtain ⟨_, t, ht, _⟩ := hv.comp.dualTree_ok []
  have mh := hh.legal.homologyMatrix_ok (by rw [hh.source]; exact ht) (by rw [hh.target]; exact ht)
  have mk := hk.legal.homologyMatrix_ok (by rw [hk.source]; exact ht) (by rw [hk.target]; exact ht)
  rw [hh.source, hh.target] at mh
  rw [hk.source, hk.target] at mk
  have e1 := Except.ok.inj (mh.symm.trans hx.mat)
  have e2 := Except.ok.inj (mk.symm.trans hy.mat)
  have hfl : (x.2.flatten == y.2.flatten) = (x.2 == y.2) := by
    rw [Bool.eq_iff_iff, beq_iff_eq, beq_iff_eq]
    constructor
    · apply flatten_inj (S.triangulation.cotree t).length
      · rw [← e1, ← e2, Curver.mat_length, Curver.mat_length]
      · rw [← e1]; intro r hr
        obtain ⟨j, _, rfl⟩ := List.mem_map.1 hr
        simp
      · rw [← e2]; intro r hr
        obtain ⟨j, _, rfl⟩ := List.mem_map.1 hr
        simp
    · intro h; rw [h]
  unfold cayleySame Enc.eq
  rw [hfl, if_neg]
  · rw [hx.lam, py_bind_ok, hy.lam, py_bind_ok, hx.mat, py_bind_ok, hy.mat, py_bind_ok]
    cases x.1.eq y.1 with
    | false => simp
    | true => simp
  · rw [Triangulation.eq_decide, Triangulation.eq_decide, hh.source, hk.source, hh.target, hk.target]; simp

theorem Legal.step_ok (hS : S.Legal) {gens : List Str} (hg : ∀ g ∈ gens, g ∈ S.mappingClasses.keys)
    {x0 : Lam Int × List (List Int)} {e : Enc} (he : S.ofLetters [] = .ok e) (h0 : ImageOf e x0) :
    ∀ g ∈ gens, ∀ w, Cayley.Over gens w → S.cayleyStep g (Cayley.img S.next x0 w) = .ok (S.next g (Cayley.img S.next x0 w)) := by
  intro g hgg w hw
  obtain ⟨h, h1, h2, h3⟩ := hS.image he h0 (fun g hg' => hg g (hw g hg'))
  obtain ⟨k, k1, k2⟩ := hS.ofLetters_ok (w := g :: w) (by
    intro g' hg'
    rcases List.mem_cons.1 hg' with h | h
    · rw [h]; exact hg g hgg
    · exact hg g' (hw g' h))
  obtain ⟨a, ha, _⟩ := hS.get (hg g hgg)
  obtain ⟨y, y1, y2⟩ := h3.step hS ha h2 k2
  rw [y1, next_eq y1]

theorem Legal.same_iff (hS : S.Legal) {gens : List Str} (hg : ∀ g ∈ gens, g ∈ S.mappingClasses.keys)
    {x0 : Lam Int × List (List Int)} {e : Enc} (he : S.ofLetters [] = .ok e) (h0 : ImageOf e x0) :
    ∀ u v, Cayley.Over gens u → Cayley.Over gens v → (cayleySame (Cayley.img S.next x0 u) (Cayley.img S.next x0 v) = true ↔ S.SameElement u v) := by
  intro u v hu hv
  obtain ⟨h, h1, h2, h3⟩ := hS.image he h0 (fun g hg' => hg g (hu g hg'))
  obtain ⟨k, k1, k2, k3⟩ := hS.image he h0 (fun g hg' => hg g (hv g hg'))
  rw [ImageOf.same_iff h2 k2 h3 k3]
  constructor
  · intro H; exact ⟨h, k, h1, k1, H⟩
  · rintro ⟨h', k', a, b, c⟩
    cases h1.symm.trans a; cases k1.symm.trans b; exact c

theorem Legal.sameElement_left (hS : S.Legal) {gens : List Str} (hg : ∀ g ∈ gens, g ∈ S.mappingClasses.keys) {u v w : List Str}
    (hu : Word gens u) (hv : Word gens v) (hw : Word gens w) (h : S.SameElement u v) : S.SameElement (w ++ u) (w ++ v) := by
  have key : ∀ w, Word gens w → ∀ g ∈ w, g ∈ S.mappingClasses.keys := fun w hw g hg' => hg g (hw g hg')
  have app : ∀ u w, Word gens u → Word gens w → Word gens (u ++ w) := by
    intro u w hu hw g hg
    rcases List.mem_append.1 hg with h | h
    · exact hu g h
    · exact hw g h
  induction w with
  | nil => exact h
  | cons g w ih =>
    obtain ⟨p, q, p1, q1, pq⟩ := ih (fun g hg => hw g (by simp [hg]))
    have ow : Word gens w := fun g hg => hw g (by simp [hg])
    have ou := key (w ++ u) (app w u ow hu)
    have ov := key (w ++ v) (app w v ow hv)
    obtain ⟨p', p1', p2⟩ := hS.ofLetters_ok ou
    obtain ⟨q', q1', q2⟩ := hS.ofLetters_ok ov
    cases p1.symm.trans p1'
    cases q1.symm.trans q1'
    obtain ⟨P, P1, P2⟩ := hS.ofLetters_ok (key _ (app _ _ hw hu))
    obtain ⟨Q, Q1, Q2⟩ := hS.ofLetters_ok (key _ (app _ _ hw hv))
    obtain ⟨a, ha, a1, a2, a3, a4⟩ := hS.get (hg g (hw g (by simp)))
    obtain ⟨b, b1, b2⟩ := p2.legal.eq_ok q2.legal
    have hA := b2.1 (Except.ok.inj (b1.symm.trans pq))
    have := hA.comp_left (Denotes.composite hS ha p2 P2) (Denotes.composite hS ha q2 Q2) a1 p2.legal q2.legal (a3.trans p2.target.symm)
    obtain ⟨c, c1, c2⟩ := P2.legal.eq_ok Q2.legal
    exact ⟨P, Q, P1, Q1, by rw [c1, c2.2 this]⟩

/-- the exploration takes place in a group -/
theorem Legal.setting (hS : S.Legal) {gens : List Str} (hg : ∀ g ∈ gens, g ∈ S.mappingClasses.keys) (hf : S.Faithful gens)
    {x0 : Lam Int × List (List Int)} {e : Enc} (he : S.ofLetters [] = .ok e) (h0 : ImageOf e x0) :
    Cayley.Setting gens S.cayleyStep cayleySame S.next x0 := by
  have key : ∀ w, Cayley.Over gens w → ∀ g ∈ w, g ∈ S.mappingClasses.keys := fun w hw g hg' => hg g (hw g hg')
  have iff := hS.same_iff hg he h0
  have refl : ∀ x : Lam Int × List (List Int), cayleySame x x = true := by
    intro x; unfold cayleySame Lam.eq; rw [Triangulation.eq_decide]; simp
  have app : ∀ u w, Cayley.Over gens u → Cayley.Over gens w → Cayley.Over gens (u ++ w) := by
    intro u w hu hw g hg
    rcases List.mem_append.1 hg with h | h
    · exact hu g h
    · exact hw g h
  refine ⟨hS.step_ok hg he h0, fun w _ => refl _, ?_, ?_, ?_, ?_⟩
  · intro u v _ _ h
    unfold cayleySame Lam.eq at *
    rw [Triangulation.eq_decide] at *
    simp only [Bool.and_eq_true, decide_eq_true_eq, beq_iff_eq] at *
    exact ⟨⟨h.1.1.symm, h.1.2.symm⟩, h.2.symm⟩
  · intro u v w _ _ _ h h'
    unfold cayleySame Lam.eq at *
    rw [Triangulation.eq_decide] at *
    simp only [Bool.and_eq_true, decide_eq_true_eq, beq_iff_eq] at *
    exact ⟨⟨h.1.1.trans h'.1.1, h.1.2.trans h'.1.2⟩, h.2.trans h'.2⟩
  · intro u v w hu hv hw h
    rw [iff _ _ hu hv] at h
    rw [iff _ _ (app w u hw hu) (app w v hw hv)]
    exact hS.sameElement_left hg hu hv hw h
  · intro u v w hu hv hw h
    rw [iff _ _ hu hv] at h
    rw [iff _ _ (app u w hu hw) (app v w hv hw)]
    exact hf u v w hu hv hw h

theorem Legal.cayley_eq (hS : S.Legal) (rounds : Nat) (gens : List Str) (length : Int) :
    ∃ x0 e, S.ofLetters [] = .ok e ∧ ImageOf e x0 ∧ S.cayley rounds gens length =
      cayleyLoop S.cayleyStep cayleySame length gens rounds ⟨[(x0, [])], [x0], [[]]⟩ := by
  obtain ⟨e, e1, e2⟩ := hS.ofLetters_ok (w := []) (by simp)
  obtain ⟨_, t, ht, _⟩ := hS.valid.comp.dualTree_ok []
  have mh := e2.legal.homologyMatrix_ok (by rw [e2.source]; exact ht) (by rw [e2.target]; exact ht)
  refine ⟨(e.source.asLamination, _), e, e1, ⟨?_, mh⟩, ?_⟩
  · have := e2.lam Int _ hS.valid.asLamination_consistent.1 rfl
    unfold Enc.selfImage
    rw [e2.source, this]; rfl
  · unfold cayley
    rw [e1, py_bind_ok, mh, py_bind_ok]
    rfl

end Mcg
end Curver
