import Verif.Proofs.McgCreate
import Verif.Props.Encoding

/-!
# C50, C45: random words and exploration of the Cayley graph; the group object itself

`Mcg.Word`, `Mcg.SameElement` and `Mcg.Faithful` are in Spec/Mcg.lean.
-/

namespace Curver
open Triangulation

/-! ## The group object -/

/-- C31: a group made from legal mapping classes of one triangulation, under distinct valid names, has each of them under its name, its
inverse under the name with its case swapped, and nothing else. -/
theorem C31_group (T : Triangulation) (pos : PyDict Str Enc) (hne : pos ≠ []) (hn : pos.keys.Nodup)
    (hnames : ∀ name ∈ pos.keys, Str.isName name = true)
    (hl : ∀ name h, pos.get? name = some h → h.Legal ∧ h.kind = .mappingClass ∧ h.source = T) :
    ∃ S, Mcg.create pos = .ok S ∧ S.triangulation = T ∧ S.Legal ∧
      (∀ name h, pos.get? name = some h → S.mappingClasses.get? name = some h ∧
        ∃ g, h.inverse = .ok g ∧ S.mappingClasses.get? (Str.swapcase name) = some g) ∧
      ∀ name, name ∈ S.mappingClasses.keys ↔ name ∈ pos.keys ∨ ∃ n ∈ pos.keys, name = Str.swapcase n := by
  obtain ⟨S, h1, h2, h3, h4⟩ := Mcg.create_ok hne hn hnames hl
  refine ⟨S, h1, h2, h3, fun name h hg => ⟨h4.get_pos name h hg, h4.get_neg name h hg⟩, fun name => ?_⟩
  rw [h4.keys]
  constructor
  · rintro (h | h)
    · exact .inl h
    · exact .inr ⟨_, h, (Str.swapcase_swapcase name).symm⟩
  · rintro (h | ⟨n, h, rfl⟩)
    · exact .inl h
    · right; rw [Str.swapcase_swapcase]; exact h

/-- C31: a list of names gives the product of the named mapping classes, the last one applied first. -/
theorem C31_letters (S : Mcg) (hS : S.Legal) (word : List Str) (hw : ∀ g ∈ word, g ∈ S.mappingClasses.keys) :
    ∃ h, S.ofLetters word = .ok h ∧ S.Denotes word h := hS.ofLetters_ok hw

/-- C31: a list with an unknown name raises `KeyError`. -/
theorem C31_unknown_letter (S : Mcg) (word : List Str) (g : Str) (hg : g ∈ word) (hg' : g ∉ S.mappingClasses.keys) :
    S.ofLetters word = .error .keyError := Mcg.ofLetters_error (fun h => hg' (h g hg))

/-! ## C50 -/

theorem choices_spec (random : Nat → Nat) (letters : List Str) (length : Int) :
    (letters ≠ [] → ∃ w, choices random letters length = .ok w ∧ w.length = length.toNat ∧ ∀ g ∈ w, g ∈ letters) ∧
    (letters = [] → 0 < length → choices random letters length = .error .indexError) := by
  constructor
  · intro h
    have hpos : 0 < letters.length := List.length_pos_iff.2 h
    have hget : ∀ i ∈ List.range length.toNat, pyGet letters (random i % letters.length) =
        .ok (letters[random i % letters.length]'(Nat.mod_lt _ hpos)) := fun i _ => pyGet_ok _
    refine ⟨_, mapM_ok (g := fun i => letters[random i % letters.length]'(Nat.mod_lt _ hpos)) hget, by simp, ?_⟩
    intro g hg
    obtain ⟨i, _, rfl⟩ := List.mem_map.1 hg
    exact List.getElem_mem _
  · rintro rfl h
    obtain ⟨n, hn⟩ : ∃ n, length.toNat = n + 1 := ⟨length.toNat - 1, by omega⟩
    unfold choices
    rw [hn, List.range_succ_eq_map, List.mapM_cons]
    rfl

/-- C50: whatever the random choices, a random word has the requested length (none for negative numbers) and its letters are those
asked for: the given letters, or the positive, negative or all names. -/
theorem C50_random_word (T : Triangulation) (pos : PyDict Str Enc) (hne : pos ≠ []) (hn : pos.keys.Nodup)
    (hnames : ∀ name ∈ pos.keys, Str.isName name = true)
    (hl : ∀ name h, pos.get? name = some h → h.Legal ∧ h.kind = .mappingClass ∧ h.source = T)
    (S : Mcg) (hS : Mcg.create pos = .ok S) (random : Nat → Nat) (length : Int) (positive negative : Bool) (hor : positive = true ∨ negative = true) :
    ∃ w, S.randomWord random length positive negative none = .ok w ∧ w.length = length.toNat ∧
      ∀ g ∈ w, (positive = true ∧ g ∈ pos.keys) ∨ (negative = true ∧ ∃ n ∈ pos.keys, g = Str.swapcase n) := by
  obtain ⟨S', h1, h2, h3, h4⟩ := Mcg.create_ok hne hn hnames hl
  cases h1.symm.trans hS
  have hp : ∀ g, g ∈ sortedKeys S.posMappingClasses ↔ g ∈ pos.keys := by
    intro g; unfold sortedKeys; rw [List.mem_insertionSort, h4.pos_eq]
  have hq : ∀ g, g ∈ sortedKeys S.negMappingClasses ↔ ∃ n ∈ pos.keys, g = Str.swapcase n := by
    intro g; unfold sortedKeys; rw [List.mem_insertionSort, h4.neg_keys, List.mem_map]
    exact ⟨fun ⟨a, b, c⟩ => ⟨a, b, c.symm⟩, fun ⟨a, b, c⟩ => ⟨a, b, c.symm⟩⟩
  obtain ⟨n0, hn0⟩ : ∃ n, n ∈ pos.keys := by
    cases pos with
    | nil => exact absurd rfl hne
    | cons p pos => exact ⟨p.1, by simp [PyDict.keys]⟩
  have hpne : sortedKeys S.posMappingClasses ≠ [] := List.ne_nil_of_mem ((hp n0).2 hn0)
  have hqne : sortedKeys S.negMappingClasses ≠ [] := List.ne_nil_of_mem ((hq _).2 ⟨n0, hn0, rfl⟩)
  unfold Mcg.randomWord
  dsimp only
  cases positive <;> cases negative
  · simp at hor
  · obtain ⟨w, a, b, c⟩ := (choices_spec random (sortedKeys S.negMappingClasses) length).1 hqne
    exact ⟨w, a, b, fun g hg => .inr ⟨rfl, (hq g).1 (c g hg)⟩⟩
  · obtain ⟨w, a, b, c⟩ := (choices_spec random (sortedKeys S.posMappingClasses) length).1 hpne
    exact ⟨w, a, b, fun g hg => .inl ⟨rfl, (hp g).1 (c g hg)⟩⟩
  · obtain ⟨w, a, b, c⟩ := (choices_spec random (sortedKeys S.posMappingClasses ++ sortedKeys S.negMappingClasses) length).1 (by simp [hpne])
    refine ⟨w, a, b, fun g hg => ?_⟩
    rcases List.mem_append.1 (c g hg) with h | h
    · exact .inl ⟨rfl, (hp g).1 h⟩
    · exact .inr ⟨rfl, (hq g).1 h⟩

/-- C50: asking for neither sign raises `TypeError`. -/
theorem C50_neither (S : Mcg) (random : Nat → Nat) (length : Int) : S.randomWord random length false false none = .error .typeError := rfl

/-- C50: with given letters the word has the requested length and uses only them; without letters to choose from, `IndexError`. -/
theorem C50_given_letters (S : Mcg) (random : Nat → Nat) (length : Int) (positive negative : Bool) (letters : List Str) :
    (letters ≠ [] → ∃ w, S.randomWord random length positive negative (some letters) = .ok w ∧ w.length = length.toNat ∧ ∀ g ∈ w, g ∈ letters) ∧
    (letters = [] → 0 < length → S.randomWord random length positive negative (some letters) = .error .indexError) :=
  choices_spec random letters length

/-- C50: every word over the letters is the outcome of some random choices. -/
theorem C50_every_word (S : Mcg) (positive negative : Bool) (letters word : List Str) (hw : ∀ g ∈ word, g ∈ letters) :
    ∃ random, S.randomWord random word.length positive negative (some letters) = .ok word := by
  refine ⟨fun i => letters.idxOf ((word[i]?).getD []), ?_⟩
  unfold Mcg.randomWord choices
  dsimp only
  rw [Int.toNat_natCast]
  rw [mapM_ok (g := fun i => (word[i]?).getD [])]
  · congr 1
    apply List.ext_getElem?
    intro i
    rw [List.getElem?_map]
    by_cases hi : i < word.length
    · simp [hi]
    · simp [hi]
  · intro i hi
    have hi' : i < word.length := by simpa using hi
    have hm : word[i] ∈ letters := hw _ (List.getElem_mem _)
    have hlt := List.idxOf_lt_length_of_mem hm
    simp only [List.getElem?_eq_getElem hi', Option.getD_some]
    rw [Nat.mod_eq_of_lt hlt, pyGet_ok hlt, List.getElem_idxOf]

/-- C50: the mapping class of a random word never raises and is the product of some word over the names. -/
theorem C50_random_mapping_class (T : Triangulation) (pos : PyDict Str Enc) (hne : pos ≠ []) (hn : pos.keys.Nodup)
    (hnames : ∀ name ∈ pos.keys, Str.isName name = true)
    (hl : ∀ name h, pos.get? name = some h → h.Legal ∧ h.kind = .mappingClass ∧ h.source = T)
    (S : Mcg) (hS : Mcg.create pos = .ok S) (random : Nat → Nat) (length : Int) (positive negative : Bool) (hor : positive = true ∨ negative = true) :
    ∃ w h, S.ofLength random length positive negative none = .ok h ∧ w.length = length.toNat ∧ S.Denotes w h := by
  obtain ⟨w, h1, h2, h3⟩ := C50_random_word T pos hne hn hnames hl S hS random length positive negative hor
  obtain ⟨S', k1, k2, k3, k4⟩ := Mcg.create_ok hne hn hnames hl
  cases k1.symm.trans hS
  obtain ⟨h, l1, l2⟩ := k3.ofLetters_ok (w := w) (by
    intro g hg
    rw [k4.keys]
    rcases h3 g hg with ⟨_, h⟩ | ⟨_, n, h, rfl⟩
    · exact .inl h
    · right; rw [Str.swapcase_swapcase]; exact h)
  exact ⟨w, h, by unfold Mcg.ofLength; rw [h1, py_bind_ok, l1], h2, l2⟩

/-! ## C45 -/

/-- C45: whenever the exploration ends, the words it has yielded are words in the generators, none is longer than the requested length
(one letter when less than one was requested), they include the empty word and no two of them are the same element. -/
theorem C45_sound (S : Mcg) (hS : S.Legal) (generators : List Str) (hg : ∀ g ∈ generators, g ∈ S.mappingClasses.keys) (length : Int)
    (rounds : Nat) (Y : List (List Str)) (h : S.cayley rounds generators length = .ok Y) :
    (∀ w ∈ Y, Mcg.Word generators w ∧ w.length ≤ max length.toNat 1) ∧ [] ∈ Y ∧ Y.Pairwise (fun u v => ¬ S.SameElement v u) := by
  obtain ⟨x0, e, h1, h2, h3⟩ := hS.cayley_eq rounds generators length
  rw [h3] at h
  obtain ⟨st, rfl, I⟩ := Cayley.Weak.loop (f := S.next) (x0 := x0) (hS.step_ok hg h1 h2) (L := max length.toNat 1) rfl rounds (Y := Y)
    ⟨by simp [Cayley.img]; exact fun g hg => (by cases hg), by simp [Cayley.img], by simp; exact fun g hg => (by cases hg), by simp, by simp⟩ h
  refine ⟨I.words, I.start, I.sorted.imp_of_mem ?_⟩
  intro u v hu hv hns hs
  exact hns ((hS.same_iff hg h1 h2 v u (I.words v hv).1 (I.words u hu).1).2 hs)

/-- C45: the exploration ends.  If `==` is equality of group elements (`Mcg.Faithful`) then every product of at most `length`
generators has exactly one word among those yielded, all words yielded are as short as possible for their element, and they come in
order of length. -/
theorem C45_cayley (S : Mcg) (hS : S.Legal) (generators : List Str) (hg : ∀ g ∈ generators, g ∈ S.mappingClasses.keys)
    (hf : S.Faithful generators) (length : Int) :
    ∃ n Y, (∀ rounds, n ≤ rounds → S.cayley rounds generators length = .ok Y) ∧
      (∀ w ∈ Y, Mcg.Word generators w ∧ w.length ≤ max length.toNat 1 ∧
        ∀ u, Mcg.Word generators u → S.SameElement u w → w.length ≤ u.length) ∧
      (∀ u, Mcg.Word generators u → u.length ≤ max length.toNat 1 → ∃ w, (w ∈ Y ∧ S.SameElement w u) ∧
        ∀ v, v ∈ Y ∧ S.SameElement v u → v = w) ∧
      Y.Pairwise (fun u v => u.length ≤ v.length) := by
  obtain ⟨x0, e, h1, h2, _⟩ := hS.cayley_eq 0 generators length
  have H := hS.setting hg hf h1 h2
  have same := hS.same_iff hg h1 h2
  obtain ⟨Y, a, b, c⟩ := Cayley.cayley_spec H length _ (le_refl _)
  refine ⟨Cayley.weight generators.length (max length.toNat 1), Y, ?_, ?_, ?_, ?_⟩
  · intro rounds hr
    obtain ⟨x0', e', k1, k2, k3⟩ := hS.cayley_eq rounds generators length
    have : x0' = x0 := by
      cases h1.symm.trans k1
      exact Prod.ext (Except.ok.inj (k2.lam.symm.trans h2.lam)) (Except.ok.inj (k2.mat.symm.trans h2.mat))
    rw [k3, this]
    obtain ⟨Y', a', b', c'⟩ := Cayley.cayley_spec H length rounds hr
    rw [a']
    congr 1
    have hperm : Y'.Perm Y := by
      rw [List.perm_ext_iff_of_nodup]
      · intro y; rw [c, c']
      · exact List.Pairwise.imp (S := (· ≠ ·)) (fun {x y} h heq => by subst heq; exact Cayley.lt_irrefl h) b'
      · exact List.Pairwise.imp (S := (· ≠ ·)) (fun {x y} h heq => by subst heq; exact Cayley.lt_irrefl h) b
    exact hperm.eq_of_pairwise (fun u v _ _ h h' => absurd h' (Cayley.lt_asymm h)) b' b
  · intro w hw
    obtain ⟨m, hl⟩ := (c w).1 hw
    refine ⟨m.1, hl, fun u hu hs => ?_⟩
    have := m.2 u hu ((same u w hu m.1).2 hs)
    by_contra hc
    exact this (Cayley.lt_of_length (by omega))
  · intro u hu hl
    obtain ⟨m, m1, m2, m3⟩ := Cayley.exists_min H u hu
    have hle : m.length ≤ u.length := by
      rcases m3 with h | h
      · rw [h]
      · exact Cayley.lt_length h
    refine ⟨m, ⟨(c m).2 ⟨m1, by omega⟩, (same m u m1.1 hu).1 m2⟩, ?_⟩
    rintro v ⟨hv, hs⟩
    obtain ⟨v1, _⟩ := (c v).1 hv
    exact Cayley.min_unique H v1 m1 (H.trans _ _ _ v1.1 hu m1.1 ((same v u v1.1 hu).2 hs) (H.symm _ _ m1.1 hu m2))
  · exact b.imp (fun h => Cayley.lt_length h)

/-- C45: a single generator always meets the hypothesis of `C45_cayley`. -/
theorem C45_single (S : Mcg) (hS : S.Legal) (g : Str) (hg : g ∈ S.mappingClasses.keys) : S.Faithful [g] := by
  have rep : ∀ w, Mcg.Word [g] w → w = List.replicate w.length g := by
    intro w hw
    exact List.eq_replicate_iff.2 ⟨rfl, fun b hb => by simpa using hw b hb⟩
  have comm : ∀ u w, Mcg.Word [g] u → Mcg.Word [g] w → u ++ w = w ++ u := by
    intro u w hu hw
    rw [rep u hu, rep w hw, List.replicate_append_replicate, List.replicate_append_replicate, Nat.add_comm]
  intro u v w hu hv hw h
  rw [comm u w hu hw, comm v w hv hw]
  exact hS.sameElement_left (fun g' hg' => by rw [List.mem_singleton.1 hg']; exact hg) hu hv hw h

/-! ### Concrete cases -/

/-- the names of the twist on the once-punctured torus -/
def twistPos : PyDict Str Enc := [(['a'], torusTwist)]

theorem twistPos_legal : ∀ name h, twistPos.get? name = some h → h.Legal ∧ h.kind = .mappingClass ∧ h.source = torus := by
  intro name h hg
  have := PyDict.mem_of_get? hg
  simp only [twistPos, List.mem_singleton, Prod.mk.injEq] at this
  rw [this.2]
  exact ⟨torusTwist_spec.2.1, by decide +kernel, by decide +kernel⟩

/-- the hypotheses of `C31_group` and of the theorems of C50 are met -/
example : ∃ S, Mcg.create twistPos = .ok S ∧ S.triangulation = torus ∧ S.Legal := by
  obtain ⟨S, h1, h2, h3, _⟩ := C31_group torus twistPos (by decide) (by decide) (by decide) twistPos_legal
  exact ⟨S, h1, h2, h3⟩

/-- a random word, its letters from both signs -/
example : (do let S ← Mcg.create twistPos; S.randomWord (fun i => i) 3 true true none) = .ok [['a'], ['A'], ['a']] := by decide +kernel

/-- the powers of a twist: the exploration up to length two -/
example : (do let S ← Mcg.create twistPos; S.cayley 10 [['a'], ['A']] 2) =
    .ok [[], [['a']], [['A']], [['a'], ['a']], [['A'], ['A']]] := by decide +kernel

/-- C45: a length less than one still yields the words with one letter. -/
theorem C45_length_zero : (do let S ← Mcg.create twistPos; S.cayley 10 [['a'], ['A']] 0) = .ok [[], [['a']], [['A']]] := by decide +kernel

end Curver
