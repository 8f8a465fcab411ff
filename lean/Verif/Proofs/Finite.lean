import Verif.Spec.Finite
import Verif.Proofs.Mcg

namespace Curver
open Triangulation

variable {T : Triangulation} {gens : PyDict Str Enc}

theorem Enc.Legal.equal_iff {h k : Enc} (hh : h.Legal) (hk : k.Legal) : h.Equal k ↔ h.Agree k := by
  obtain ⟨b, h1, h2⟩ := hh.eq_ok hk
  unfold Enc.Equal
  rw [h1, ← h2]
  exact ⟨fun h => Except.ok.inj h, fun h => by rw [h]⟩

/-- membership in a set of mapping classes -/
theorem Enc.Legal.inSet_ok {x : Enc} (hx : x.Legal) : ∀ {ys : List Enc}, (∀ y ∈ ys, y.Legal) → ∃ b, x.inSet ys = .ok b ∧ (b = true ↔ ∃ y ∈ ys, x.Equal y) := by
  intro ys
  induction ys with
  | nil => intro _; exact ⟨false, rfl, by simp⟩
  | cons y ys ih =>
    intro hys
    obtain ⟨b, h1, h2⟩ := hx.eq_ok (hys y (by simp))
    obtain ⟨c, k1, k2⟩ := ih (fun z hz => hys z (by simp [hz]))
    unfold Enc.inSet
    rw [h1, py_bind_ok]
    cases b with
    | true => exact ⟨true, rfl, by simp; exact .inl h1⟩
    | false =>
      refine ⟨c, by simpa using k1, ?_⟩
      rw [k2]
      constructor
      · rintro ⟨z, hz, hz'⟩; exact ⟨z, by simp [hz], hz'⟩
      · rintro ⟨z, hz, hz'⟩
        rcases List.mem_cons.1 hz with h | h
        · unfold Enc.Equal at hz'; rw [h, h1] at hz'; cases hz'
        · exact ⟨z, h, hz'⟩

namespace GeneratorsOn

/-- the generators as a group object -/
def group (T : Triangulation) (gens : PyDict Str Enc) : Mcg := ⟨T, gens, [], gens⟩

theorem valid (H : GeneratorsOn T gens) : T.Valid := by
  cases gens with
  | nil => exact absurd rfl H.nonempty
  | cons p gens =>
    obtain ⟨a, b, c⟩ := H.legal p.1 p.2 (by simp [PyDict.get?])
    have := a.path.valid_source
    rwa [c] at this

theorem group_legal (H : GeneratorsOn T gens) : (group T gens).Legal := ⟨H.valid, H.legal⟩

theorem mul_ok (H : GeneratorsOn T gens) {l : Str} {g x : Enc} {ls : List Str} (hg : gens.get? l = some g) (hx : (group T gens).Denotes ls x) :
    ∃ y, g.mul x = .ok y ∧ (group T gens).Denotes (l :: ls) y := by
  obtain ⟨a, b, c⟩ := H.legal l g hg
  have hs : g.source = x.target := c.trans hx.target.symm
  have ht : g.target = x.source := (a.mappingClass b).symm.trans (c.trans hx.source.symm)
  have hp := a.path_append hx.legal hs
  have hne : g.sequence ++ x.sequence ≠ [] := by
    intro h; exact a.nonempty (List.append_eq_nil_iff.1 h).1
  have hm := Enc.mul_eq a hx.legal hs
  have hk : g.mulKind x = .mappingClass := by
    unfold Enc.mulKind
    rw [b, hx.kind]
    simp [EncKind.isMapping, ht]
  rw [hk] at hm
  have hcomp : Enc.IsComposite ⟨.mappingClass, Enc.trim (g.sequence ++ x.sequence), x.source, g.target⟩ g x :=
    (Enc.isComposite_append .mappingClass hx.legal hs).congr (Enc.sameMap_trim _ _ hp)
  refine ⟨⟨.mappingClass, Enc.trim (g.sequence ++ x.sequence), x.source, g.target⟩, ?_, Enc.legal_mk _ hne hp (fun _ => ht.symm), rfl, hx.source, ?_, ?_⟩
  · exact hm
  · intro R _ _ _ _ L hL hLt
    rw [hcomp.lam R L hL, hx.lam R L hL hLt, Mcg.wordLam]
    rw [show (group T gens).mappingClasses = gens from rfl, PyDict.get_eq_ok_iff.2 hg]; rfl
  · intro L hL hLt
    rw [hcomp.hom L hL, hx.hom L hL hLt, Mcg.wordHom]
    rw [show (group T gens).mappingClasses = gens from rfl, PyDict.get_eq_ok_iff.2 hg]; rfl

theorem denotes_single (H : GeneratorsOn T gens) {l : Str} {g : Enc} (hg : gens.get? l = some g) : (group T gens).Denotes [l] g := by
  obtain ⟨a, b, c⟩ := H.legal l g hg
  refine ⟨a, b, c, ?_, ?_⟩
  · intro R _ _ _ _ L hL hLt
    rw [Mcg.wordLam, Mcg.wordLam, py_bind_ok, show (group T gens).mappingClasses = gens from rfl, PyDict.get_eq_ok_iff.2 hg]; rfl
  · intro x hx hLt
    rw [Mcg.wordHom, Mcg.wordHom, py_bind_ok, show (group T gens).mappingClasses = gens from rfl, PyDict.get_eq_ok_iff.2 hg]; rfl

theorem denotes (H : GeneratorsOn T gens) {ls : List Str} {x : Enc} (h : IsProduct gens ls x) : (group T gens).Denotes ls x := by
  induction h with
  | single l g h => exact H.denotes_single h
  | cons l g ls x y h hx hy ih =>
    obtain ⟨z, h1, h2⟩ := H.mul_ok h ih
    cases h1.symm.trans hy
    exact h2

end GeneratorsOn

theorem IsProduct.letters {ls : List Str} {x : Enc} (h : IsProduct gens ls x) : ls ≠ [] ∧ ∀ l ∈ ls, l ∈ gens.keys := by
  induction h with
  | single l g h =>
    refine ⟨by simp, fun l' hl => ?_⟩
    rw [List.mem_singleton.1 hl]; exact PyDict.get?_isSome_iff.1 (by rw [h]; rfl)
  | cons l g ls x y h hx hy ih =>
    refine ⟨by simp, fun l' hl => ?_⟩
    rcases List.mem_cons.1 hl with h1 | h1
    · rw [h1]; exact PyDict.get?_isSome_iff.1 (by rw [h]; rfl)
    · exact ih.2 l' h1

theorem IsProduct.unique {ls : List Str} {x y : Enc} (h : IsProduct gens ls x) (h' : IsProduct gens ls y) : x = y := by
  induction h generalizing y with
  | single l g h =>
    cases h' with
    | single _ g' k => exact Option.some.inj (h.symm.trans k)
    | cons _ _ _ _ _ _ hx _ => exact absurd rfl hx.letters.1
  | cons l g ls x z h hx hy ih =>
    cases h' with
    | single _ g' k => exact absurd rfl hx.letters.1
    | cons _ g' _ x' _ k kx ky =>
      cases h.symm.trans k
      cases ih kx
      cases hy.symm.trans ky
      rfl

theorem GeneratorsOn.exists_product (H : GeneratorsOn T gens) {ls : List Str} (hne : ls ≠ []) (hl : ∀ l ∈ ls, l ∈ gens.keys) : ∃ x, IsProduct gens ls x := by
  induction ls with
  | nil => exact absurd rfl hne
  | cons l ls ih =>
    obtain ⟨g, hg⟩ := Option.isSome_iff_exists.1 (PyDict.get?_isSome_iff.2 (hl l (by simp)))
    by_cases h : ls = []
    · subst h; exact ⟨g, .single l g hg⟩
    · obtain ⟨x, hx⟩ := ih h (fun l hl' => hl l (by simp [hl']))
      obtain ⟨y, hy, _⟩ := H.mul_ok hg (H.denotes hx)
      exact ⟨y, .cons l g ls x y hg hx hy⟩

namespace FiniteSubgroup

/-- the products of generators with each stored element that have been found -/
def Covered (gens : PyDict Str Enc) (seen : List Enc) (x : Enc) (letters : List Str) : Prop :=
  ∀ l ∈ letters, ∀ g, gens.get? l = some g → ∃ y, g.mul x = .ok y ∧ ∃ z ∈ seen, y.Equal z

/-- the invariant of the search; `P` lists the words taken from the queue -/
structure Inv (gens : PyDict Str Enc) (P : List Str) (st : State) : Prop where
  nodup : st.mappingClasses.keys.Nodup
  spelled : ∀ w x, st.mappingClasses.get? w = some x → ∃ ls, w = ls.flatten ∧ IsProduct gens ls x
  gen : ∀ l g, gens.get? l = some g → st.mappingClasses.get? l = some g
  seen : ∀ x, x ∈ st.seen ↔ ∃ w, st.mappingClasses.get? w = some x
  queue : st.mappingClasses.keys.Perm (P ++ st.toCheck)
  distinct : gens.values.Pairwise (fun x y => ¬ x.Equal y ∧ ¬ y.Equal x) → ∀ w w' x x', st.mappingClasses.get? w = some x → st.mappingClasses.get? w' = some x' →
    x.Equal x' → w = w'

theorem Inv.word (H : GeneratorsOn T gens) {P : List Str} {st : State} (I : Inv gens P st) {w : Str} {x : Enc} (h : st.mappingClasses.get? w = some x) : x.Legal := by
  obtain ⟨ls, _, h2⟩ := I.spelled w x h
  exact (H.denotes h2).legal

/-- one letter -/
theorem Inv.visit (H : GeneratorsOn T gens) {P : List Str} {st : State} (I : Inv gens P st) {word : Str} {current : Enc}
    (hc : st.mappingClasses.get? word = some current) {letter : Str} (hl : letter ∈ gens.keys) :
    ∃ st', FiniteSubgroup.visit gens word current st letter = .ok st' ∧ Inv gens P st' ∧ (∀ w x, st.mappingClasses.get? w = some x → st'.mappingClasses.get? w = some x) ∧
      (UniquelySpelled gens.keys → Covered gens st'.seen current [letter]) ∧
      (st' = st ∨ ∃ x, st'.seen = x :: st.seen ∧ st'.toCheck = st.toCheck ++ [letter ++ word] ∧ (∀ y ∈ st.seen, ¬ x.Equal y) ∧ x.Legal ∧
        ∃ ls, IsProduct gens ls x) := by
  obtain ⟨g, hg⟩ := Option.isSome_iff_exists.1 (PyDict.get?_isSome_iff.2 hl)
  obtain ⟨ls, hw, hp⟩ := I.spelled word current hc
  obtain ⟨y, hy, hyd⟩ := H.mul_ok hg (H.denotes hp)
  have hyp : IsProduct gens (letter :: ls) y := .cons letter g ls current y hg hp hy
  have hseen : ∀ z ∈ st.seen, z.Legal := by
    intro z hz
    obtain ⟨w, hw⟩ := (I.seen z).1 hz
    exact I.word H hw
  unfold FiniteSubgroup.visit
  rw [PyDict.get_eq_ok_iff.2 hg, py_bind_ok]
  by_cases hcon : st.mappingClasses.contains (letter ++ word) = true
  · rw [if_pos hcon]
    refine ⟨st, rfl, I, fun _ _ h => h, ?_, .inl rfl⟩
    intro hU l hl' g' hg'
    rw [List.mem_singleton.1 hl', hg] at hg'
    cases hg'
    refine ⟨y, hy, y, ?_, ?_⟩
    · obtain ⟨x', hx'⟩ := Option.isSome_iff_exists.1 hcon
      obtain ⟨ls', h1, h2⟩ := I.spelled _ _ hx'
      have : letter :: ls = ls' := by
        apply hU _ _ hyp.letters.2 h2.letters.2
        rw [← h1, List.flatten_cons, hw]
      rw [← this] at h2
      cases hyp.unique h2
      exact (I.seen _).2 ⟨_, hx'⟩
    · exact (hyd.legal.equal_iff hyd.legal).2 (.refl hyd.legal)
  · rw [if_neg hcon, hy, py_bind_ok]
    obtain ⟨b, hb, hb'⟩ := hyd.legal.inSet_ok hseen
    rw [hb, py_bind_ok]
    cases b with
    | true =>
      refine ⟨st, rfl, I, fun _ _ h => h, ?_, .inl rfl⟩
      intro _ l hl' g' hg'
      rw [List.mem_singleton.1 hl', hg] at hg'
      cases hg'
      exact ⟨y, hy, hb'.1 rfl⟩
    | false =>
      have hnone : ∀ z ∈ st.seen, ¬ y.Equal z := by
        intro z hz hz'
        simpa using hb'.2 ⟨z, hz, hz'⟩
      have hkey : letter ++ word ∉ st.mappingClasses.keys := fun h => hcon (PyDict.contains_iff.2 h)
      have hget : ∀ w x, (st.mappingClasses.set (letter ++ word) y).get? w = some x ↔ (w = letter ++ word ∧ x = y) ∨ st.mappingClasses.get? w = some x := by
        intro w x
        rw [PyDict.get?_set]
        by_cases h : letter ++ word = w
        · subst h
          rw [PyDict.get?_eq_none_iff.2 hkey]
          simp [eq_comm]
        · rw [if_neg h]
          constructor
          · exact .inr
          · rintro (⟨h', _⟩ | h')
            · exact absurd h'.symm h
            · exact h'
      refine ⟨_, rfl, ⟨?_, ?_, ?_, ?_, ?_, ?_⟩, ?_, ?_, .inr ⟨y, rfl, rfl, hnone, hyd.legal, _, hyp⟩⟩
      · exact PyDict.nodup_keys_set I.nodup _ _
      · intro w x hx
        rcases (hget w x).1 hx with ⟨rfl, rfl⟩ | h
        · exact ⟨letter :: ls, by rw [List.flatten_cons, hw], hyp⟩
        · exact I.spelled w x h
      · intro l g hg
        exact (hget _ _).2 (.inr (I.gen l g hg))
      · intro x
        rw [List.mem_cons, I.seen]
        constructor
        · rintro (rfl | ⟨w, h⟩)
          · exact ⟨_, (hget _ _).2 (.inl ⟨rfl, rfl⟩)⟩
          · exact ⟨w, (hget _ _).2 (.inr h)⟩
        · rintro ⟨w, h⟩
          rcases (hget w x).1 h with ⟨_, rfl⟩ | h
          · exact .inl rfl
          · exact .inr ⟨w, h⟩
      · dsimp only
        rw [PyDict.set_of_not_mem _ _ _ hkey]
        have : PyDict.keys (st.mappingClasses ++ [(letter ++ word, y)]) = st.mappingClasses.keys ++ [letter ++ word] := by simp [PyDict.keys]
        rw [this, ← List.append_assoc]
        exact I.queue.append_right _
      · intro hd w w' x x' hx hx' he
        rcases (hget w x).1 hx with ⟨rfl, rfl⟩ | h <;> rcases (hget w' x').1 hx' with ⟨rfl, rfl⟩ | h'
        · rfl
        · exact absurd he (hnone x' ((I.seen x').2 ⟨w', h'⟩))
        · have hxl := I.word H h
          have := ((hxl.equal_iff hyd.legal).1 he).symm
          exact absurd ((hyd.legal.equal_iff hxl).2 this) (hnone x ((I.seen x).2 ⟨w, h⟩))
        · exact I.distinct hd w w' x x' h h' he
      · intro w x h
        exact (hget _ _).2 (.inr h)
      · intro _ l hl' g' hg'
        rw [List.mem_singleton.1 hl', hg] at hg'
        cases hg'
        exact ⟨y, hy, y, by simp, (hyd.legal.equal_iff hyd.legal).2 (.refl hyd.legal)⟩

theorem Covered.mono {seen seen' : List Enc} (hs : ∀ x ∈ seen, x ∈ seen') {x : Enc} {ks : List Str} (h : Covered gens seen x ks) : Covered gens seen' x ks := by
  intro l hl g hg
  obtain ⟨y, h1, z, h2, h3⟩ := h l hl g hg
  exact ⟨y, h1, z, hs z h2, h3⟩

/-- the elements of `E` that have not been met -/
noncomputable def missing (E seen : List Enc) : Nat := by
  classical
  exact (E.filter (fun e => decide (∀ y ∈ seen, ¬ e.Equal y))).length

theorem missing_cons (E : List Enc) (hE : ∀ e ∈ E, e.Legal) {seen : List Enc} (hs : ∀ y ∈ seen, y.Legal) {x : Enc} (hx : x.Legal) (hn : ∀ y ∈ seen, ¬ x.Equal y)
    (he : ∃ e ∈ E, x.Equal e) : missing E (x :: seen) + 1 ≤ missing E seen := by
  classical
  unfold missing
  obtain ⟨e, he, hxe⟩ := he
  have hex : e.Equal x := ((hE e he).equal_iff hx).2 (((hx.equal_iff (hE e he)).1 hxe).symm)
  have hsub : (E.filter (fun e => decide (∀ y ∈ x :: seen, ¬ e.Equal y))).Sublist ((E.filter (fun e => decide (∀ y ∈ seen, ¬ e.Equal y)))) := by
    apply List.monotone_filter_right
    intro a ha
    simp only [decide_eq_true_eq] at ha ⊢
    exact fun y hy => ha y (by simp [hy])
  have hm : e ∈ E.filter (fun e => decide (∀ y ∈ seen, ¬ e.Equal y)) := by
    refine List.mem_filter.2 ⟨he, decide_eq_true fun y hy hey => ?_⟩
    apply hn y hy
    have hyl := hs y hy
    exact (hx.equal_iff hyl).2 (((hx.equal_iff (hE e he)).1 hxe).trans (hE e he) (((hE e he).equal_iff hyl).1 hey))
  have hnm : e ∉ E.filter (fun e => decide (∀ y ∈ x :: seen, ¬ e.Equal y)) := by
    intro h
    have := (List.mem_filter.1 h).2
    simp only [decide_eq_true_eq] at this
    exact this x (by simp) hex
  rcases Nat.lt_or_eq_of_le hsub.length_le with h | h
  · exact h
  · exact absurd hm (by rw [← hsub.eq_of_length h]; exact hnm)

/-- all letters -/
theorem Inv.visits (H : GeneratorsOn T gens) {P : List Str} {word : Str} {current : Enc} (ks : List Str) : ∀ {st : State} (_ : Inv gens P st)
    (_ : st.mappingClasses.get? word = some current) (_ : ∀ l ∈ ks, l ∈ gens.keys),
    ∃ st', ks.foldlM (FiniteSubgroup.visit gens word current) st = .ok st' ∧ Inv gens P st' ∧ (∀ w x, st.mappingClasses.get? w = some x → st'.mappingClasses.get? w = some x) ∧
      (UniquelySpelled gens.keys → Covered gens st'.seen current ks) ∧
      ∀ E : List Enc, (∀ e ∈ E, e.Legal) → (∀ ls x, IsProduct gens ls x → ∃ e ∈ E, x.Equal e) →
        missing E st'.seen + st'.toCheck.length ≤ missing E st.seen + st.toCheck.length := by
  induction ks with
  | nil =>
    intro st I _ _
    refine ⟨st, rfl, I, fun _ _ h => h, ?_, fun _ _ _ => le_refl _⟩
    intro _ l hl
    cases hl
  | cons k ks ih =>
    intro st I hc hks
    obtain ⟨st1, a1, a2, a3, a4, a5⟩ := I.visit H hc (hks k (by simp))
    obtain ⟨st2, b1, b2, b3, b4, b5⟩ := ih a2 (a3 _ _ hc) (fun l hl => hks l (by simp [hl]))
    refine ⟨st2, by rw [List.foldlM_cons, a1, py_bind_ok, b1], b2, fun w x h => b3 w x (a3 w x h), ?_, ?_⟩
    · intro hU l hl
      rcases List.mem_cons.1 hl with h | h
      · refine (a4 hU).mono ?_ l (by simp [h])
        intro x hx
        obtain ⟨w, hw⟩ := (a2.seen x).1 hx
        exact (b2.seen x).2 ⟨w, b3 w x hw⟩
      · exact b4 hU l h
    · intro E hE hP
      refine (b5 E hE hP).trans ?_
      rcases a5 with h | ⟨x, h1, h2, h3, h4, ls, h5⟩
      · rw [h]
      · rw [h1, h2]
        have := missing_cons E hE (fun y hy => by obtain ⟨w, hw⟩ := (I.seen y).1 hy; exact I.word H hw) h4 h3 (hP ls x h5)
        rw [List.length_append, List.length_singleton]
        omega

theorem mem_sortedKeys {α : Type} {d : PyDict Str α} {l : Str} : l ∈ sortedKeys d ↔ l ∈ d.keys := by
  unfold sortedKeys; rw [List.mem_insertionSort]

/-- the loop -/
theorem loop_spec (H : GeneratorsOn T gens) (rounds : Nat) : ∀ {P : List Str} {st : State} (_ : Inv gens P st)
    (_ : UniquelySpelled gens.keys → ∀ w ∈ P, ∀ x, st.mappingClasses.get? w = some x → Covered gens st.seen x gens.keys),
    (∀ mcs, loop gens rounds st = .ok mcs → ∃ st', st'.mappingClasses = mcs ∧ Inv gens mcs.keys st' ∧
      (UniquelySpelled gens.keys → ∀ w x, mcs.get? w = some x → Covered gens st'.seen x gens.keys)) ∧
    ∀ E : List Enc, (∀ e ∈ E, e.Legal) → (∀ ls x, IsProduct gens ls x → ∃ e ∈ E, x.Equal e) →
      missing E st.seen + st.toCheck.length ≤ rounds → ∃ mcs, loop gens rounds st = .ok mcs := by
  have done : ∀ {P : List Str} {mcs : PyDict Str Enc} {seen : List Enc}, Inv gens P ⟨mcs, seen, []⟩ →
      (UniquelySpelled gens.keys → ∀ w ∈ P, ∀ x, mcs.get? w = some x → Covered gens seen x gens.keys) →
      ∃ st', st'.mappingClasses = mcs ∧ Inv gens mcs.keys st' ∧
      (UniquelySpelled gens.keys → ∀ w x, mcs.get? w = some x → Covered gens st'.seen x gens.keys) := by
    intro P mcs seen I hcov
    refine ⟨_, rfl, ⟨I.nodup, I.spelled, I.gen, I.seen, by simp, I.distinct⟩, ?_⟩
    intro hU w x hx
    refine hcov hU w ?_ x hx
    have := I.queue
    simp only [List.append_nil] at this
    exact this.mem_iff.1 (PyDict.get?_isSome_iff.1 (by rw [hx]; rfl))
  induction rounds with
  | zero =>
    intro P st I hcov
    obtain ⟨mcs, seen, q⟩ := st
    cases q with
    | nil =>
      constructor
      · intro m hm
        simp only [loop] at hm
        cases hm
        exact done I hcov
      · intro _ _ _ _; exact ⟨mcs, by simp only [loop]⟩
    | cons w q =>
      constructor
      · intro m hm; simp only [loop] at hm; cases hm
      · intro E _ _ h; simp at h
  | succ rounds ih =>
    intro P st I hcov
    obtain ⟨mcs, seen, q⟩ := st
    cases q with
    | nil =>
      constructor
      · intro m hm
        simp only [loop] at hm
        cases hm
        exact done I hcov
      · intro _ _ _ _; exact ⟨mcs, by simp only [loop]⟩
    | cons w q =>
      have hwk : w ∈ mcs.keys := I.queue.mem_iff.2 (by simp)
      obtain ⟨current, hc⟩ := Option.isSome_iff_exists.1 (PyDict.get?_isSome_iff.2 hwk)
      have I' : Inv gens (P ++ [w]) ⟨mcs, seen, q⟩ := ⟨I.nodup, I.spelled, I.gen, I.seen, by simpa using I.queue, I.distinct⟩
      obtain ⟨st', a1, a2, a3, a4, a5⟩ := I'.visits H (sortedKeys gens) hc (fun l hl => mem_sortedKeys.1 hl)
      have hseen : ∀ x ∈ seen, x ∈ st'.seen := by
        intro x hx
        obtain ⟨w, hw⟩ := (I'.seen x).1 hx
        exact (a2.seen x).2 ⟨w, a3 w x hw⟩
      have hcov' : UniquelySpelled gens.keys → ∀ v ∈ P ++ [w], ∀ x, st'.mappingClasses.get? v = some x → Covered gens st'.seen x gens.keys := by
        intro hU v hv x hx
        rcases List.mem_append.1 hv with hv | hv
        · have hvk : v ∈ mcs.keys := I.queue.mem_iff.2 (by simp [hv])
          obtain ⟨x', hx'⟩ := Option.isSome_iff_exists.1 (PyDict.get?_isSome_iff.2 hvk)
          cases (a3 v x' hx').symm.trans hx
          exact (hcov hU v hv x hx').mono hseen
        · rw [List.mem_singleton.1 hv] at hx
          cases (a3 w current hc).symm.trans hx
          intro l hl
          exact a4 hU l (mem_sortedKeys.2 hl)
      obtain ⟨i1, i2⟩ := ih a2 hcov'
      constructor
      · intro m hm
        rw [loop, PyDict.get_eq_ok_iff.2 hc, py_bind_ok, a1, py_bind_ok] at hm
        exact i1 m hm
      · intro E hE hP hr
        rw [loop, PyDict.get_eq_ok_iff.2 hc, py_bind_ok, a1, py_bind_ok]
        refine i2 E hE hP ?_
        have := a5 E hE hP
        simp only [List.length_cons] at hr this ⊢
        omega

/-- the state before the loop -/
theorem inv_start (H : GeneratorsOn T gens) : Inv gens [] ⟨gens, gens.values, sortedKeys gens⟩ := by
  refine ⟨H.nodup, ?_, fun _ _ h => h, ?_, ?_, ?_⟩
  · intro w x h; exact ⟨[w], by simp, .single w x h⟩
  · intro x
    constructor
    · intro h
      obtain ⟨p, hp, rfl⟩ := List.mem_map.1 h
      exact ⟨p.1, PyDict.get?_of_mem H.nodup hp⟩
    · rintro ⟨w, h⟩
      exact List.mem_map.2 ⟨_, PyDict.mem_of_get? h, rfl⟩
  · exact (List.perm_insertionSort _ _).symm
  · intro hd w w' x x' hx hx' he
    dsimp only at hx hx'
    have h1 := PyDict.mem_of_get? hx
    have h2 := PyDict.mem_of_get? hx'
    by_contra hne
    have hd' : gens.Pairwise (fun p q => ¬ p.2.Equal q.2 ∧ ¬ q.2.Equal p.2) := by
      have := hd
      unfold PyDict.values at this
      rwa [List.pairwise_map] at this
    obtain ⟨i, hi, e1⟩ := List.getElem_of_mem h1
    obtain ⟨j, hj, e2⟩ := List.getElem_of_mem h2
    rw [List.pairwise_iff_getElem] at hd'
    rcases Nat.lt_trichotomy i j with h | h | h
    · have := (hd' i j hi hj h).1
      rw [e1, e2] at this
      exact this he
    · subst h
      rw [e1] at e2
      exact hne (congrArg Prod.fst e2)
    · have := (hd' j i hj hi h).2
      rw [e1, e2] at this
      exact this he

end FiniteSubgroup
end Curver
