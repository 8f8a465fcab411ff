import Verif.Model.Mcg
import Verif.Proofs.PyLemmas
import Mathlib.Data.List.Shortlex

/-!
# The exploration made by `cayley`
-/

namespace Curver
namespace Cayley
variable {κ X : Type} [DecidableEq κ]

/-- the words over the generators -/
def Over (gens : List κ) (w : List κ) : Prop := ∀ g ∈ w, g ∈ gens

/-- the numbers of the letters, last letter first -/
def rk (gens : List κ) (w : List κ) : List Nat := w.reverse.map (fun g => gens.idxOf g)

/-- the order in which the words are met: by length, then by the last letters -/
def lt (gens : List κ) (u v : List κ) : Prop := List.Shortlex (· < ·) (rk gens u) (rk gens v)

/-- the image of a word -/
def img (f : κ → X → X) (x0 : X) (w : List κ) : X := w.foldr f x0

theorem img_append (f : κ → X → X) (x0 : X) (u v : List κ) : img f x0 (u ++ v) = u.foldr f (img f x0 v) := by
  simp [img]

theorem rk_length (gens w : List κ) : (rk gens w).length = w.length := by simp [rk]

theorem rk_append (gens u v : List κ) : rk gens (u ++ v) = rk gens v ++ rk gens u := by simp [rk]

theorem rk_cons (gens : List κ) (g : κ) (v : List κ) : rk gens (g :: v) = rk gens v ++ [gens.idxOf g] := by simp [rk]

theorem rk_inj {gens u v : List κ} (hu : Over gens u) (hv : Over gens v) (h : rk gens u = rk gens v) : u = v := by
  induction u generalizing v with
  | nil =>
    have := congrArg List.length h
    rw [rk_length, rk_length] at this
    exact (List.length_eq_zero_iff.1 this.symm).symm
  | cons a u ih =>
    cases v with
    | nil => have := congrArg List.length h; rw [rk_length, rk_length] at this; simp at this
    | cons b v =>
      rw [rk_cons, rk_cons] at h
      obtain ⟨h1, h2⟩ := List.append_inj' h rfl
      have e := ih (fun g hg => hu g (by simp [hg])) (fun g hg => hv g (by simp [hg])) h1
      have : a = b := (List.idxOf_inj (hu a (by simp))).1 (by simpa using h2)
      rw [e, this]

theorem lt_asymm {gens u v : List κ} (h : lt gens u v) : ¬ lt gens v u := Std.Asymm.asymm (r := List.Shortlex (· < ·)) _ _ h

theorem lt_irrefl {gens u : List κ} : ¬ lt gens u u := fun h => lt_asymm h h

theorem lt_trichotomy {gens u v : List κ} (hu : Over gens u) (hv : Over gens v) : lt gens u v ∨ u = v ∨ lt gens v u := by
  by_cases h1 : lt gens u v
  · exact .inl h1
  · by_cases h2 : lt gens v u
    · exact .inr (.inr h2)
    · exact .inr (.inl (rk_inj hu hv (Std.Trichotomous.trichotomous (r := List.Shortlex (α := Nat) (· < ·)) _ _ h1 h2)))

theorem lt_length {gens u v : List κ} (h : lt gens u v) : u.length ≤ v.length := by
  rcases List.shortlex_def.1 h with h | h
  · rw [rk_length, rk_length] at h; omega
  · have := h.1; rw [rk_length, rk_length] at this; omega

theorem lt_of_length {gens u v : List κ} (h : u.length < v.length) : lt gens u v :=
  .of_length_lt (by rw [rk_length, rk_length]; exact h)

/-- comparing after the letters `w` are put in front -/
theorem lt_append_left {gens u v : List κ} (h : lt gens u v) (w : List κ) : lt gens (w ++ u) (w ++ v) := by
  unfold lt
  rw [rk_append, rk_append]
  rcases List.shortlex_def.1 h with h | ⟨h1, h2⟩
  · exact .of_length_lt (by simpa using h)
  · refine .of_lex (by simp [h1]) ?_
    generalize rk gens u = a at *
    generalize rk gens v = b at *
    induction h2 with
    | nil => simp at h1
    | rel h => exact .rel h
    | cons _ ih => exact .cons (ih (by simpa using h1))

/-- comparing after the letters `w` are put behind -/
theorem lt_append_right {gens u v : List κ} (h : lt gens u v) (w : List κ) : lt gens (u ++ w) (v ++ w) := by
  unfold lt
  rw [rk_append, rk_append]
  exact h.append_left _

theorem lex_append {a b : List Nat} (h : List.Lex (· < ·) a b) (hl : a.length = b.length) (c d : List Nat) : List.Lex (· < ·) (a ++ c) (b ++ d) := by
  induction h with
  | nil => simp at hl
  | rel h => exact .rel h
  | cons _ ih => exact .cons (ih (by simpa using hl))

theorem lt_cons_of_lt {gens u v : List κ} (h : lt gens u v) (g g' : κ) : lt gens (g :: u) (g' :: v) := by
  unfold lt
  rw [rk_cons, rk_cons]
  rcases List.shortlex_def.1 h with h | ⟨h1, h2⟩
  · exact .of_length_lt (by simpa using h)
  · exact .of_lex (by simp [h1]) (lex_append h2 h1 _ _)

theorem lt_cons_same {gens v : List κ} {g g' : κ} (h : gens.idxOf g < gens.idxOf g') : lt gens (g :: v) (g' :: v) := by
  unfold lt
  rw [rk_cons, rk_cons]
  exact List.Shortlex.append_left (List.Shortlex.of_lex (r := (· < ·)) (s := [gens.idxOf g]) (t := [gens.idxOf g']) rfl (.rel h)) _

theorem lex_append_single {a b : List Nat} {x y : Nat} (h : List.Lex (· < ·) (a ++ [x]) (b ++ [y])) (hl : a.length = b.length) :
    List.Lex (· < ·) a b ∨ (a = b ∧ x < y) := by
  induction a generalizing b with
  | nil =>
    cases b with
    | nil =>
      right
      refine ⟨rfl, ?_⟩
      cases h with
      | rel h => exact h
      | cons h => cases h
    | cons _ _ => simp at hl
  | cons p a ih =>
    cases b with
    | nil => simp at hl
    | cons q b =>
      simp only [List.cons_append] at h
      cases h with
      | rel h => exact .inl (.rel h)
      | cons h =>
        rcases ih h (by simpa using hl) with h | ⟨h1, h2⟩
        · exact .inl (.cons h)
        · exact .inr ⟨by rw [h1], h2⟩

theorem lt_cons_cases {gens u v : List κ} {g g' : κ} (h : lt gens (g :: u) (g' :: v)) (hl : u.length = v.length)
    (hu : Over gens u) (hv : Over gens v) : lt gens u v ∨ (u = v ∧ gens.idxOf g < gens.idxOf g') := by
  unfold lt at h
  rw [rk_cons, rk_cons] at h
  have hl' : (rk gens u).length = (rk gens v).length := by rw [rk_length, rk_length, hl]
  rcases List.shortlex_def.1 h with h | ⟨_, h2⟩
  · simp [rk_length, hl] at h
  · rcases lex_append_single h2 hl' with h | ⟨h1, h2⟩
    · exact .inl (.of_lex hl' h)
    · exact .inr ⟨rk_inj hu hv h1, h2⟩

theorem idxOf_prefix {G1 G2 : List κ} {g h : κ} (hg : (G1 ++ g :: G2).idxOf h < (G1 ++ g :: G2).idxOf g) : h ∈ G1 := by
  by_contra hc
  rw [List.idxOf_append_of_notMem hc] at hg
  have : (G1 ++ g :: G2).idxOf g ≤ G1.length := by
    by_cases hm : g ∈ G1
    · rw [List.idxOf_append_of_mem hm]; exact List.idxOf_le_length
    · rw [List.idxOf_append_of_notMem hm]; simp
  omega

theorem idxOf_lt_of_mem {G1 G2 : List κ} {g h : κ} (hg : g ∉ G1) (hh : h ∈ G1) : (G1 ++ g :: G2).idxOf h < (G1 ++ g :: G2).idxOf g := by
  rw [List.idxOf_append_of_mem hh, List.idxOf_append_of_notMem hg]
  have := List.idxOf_lt_length_of_mem hh
  omega

/-- a state space on which the generators act and where `same` compares group elements -/
structure Setting (gens : List κ) (step : κ → X → Py X) (same : X → X → Bool) (f : κ → X → X) (x0 : X) : Prop where
  step_ok : ∀ g ∈ gens, ∀ w, Over gens w → step g (img f x0 w) = .ok (f g (img f x0 w))
  refl : ∀ w, Over gens w → same (img f x0 w) (img f x0 w) = true
  symm : ∀ u v, Over gens u → Over gens v → same (img f x0 u) (img f x0 v) = true → same (img f x0 v) (img f x0 u) = true
  trans : ∀ u v w, Over gens u → Over gens v → Over gens w → same (img f x0 u) (img f x0 v) = true →
    same (img f x0 v) (img f x0 w) = true → same (img f x0 u) (img f x0 w) = true
  left : ∀ u v w, Over gens u → Over gens v → Over gens w → same (img f x0 u) (img f x0 v) = true →
    same (img f x0 (w ++ u)) (img f x0 (w ++ v)) = true
  right : ∀ u v w, Over gens u → Over gens v → Over gens w → same (img f x0 u) (img f x0 v) = true →
    same (img f x0 (u ++ w)) (img f x0 (v ++ w)) = true

/-- the first word for its element -/
def Min (gens : List κ) (same : X → X → Bool) (f : κ → X → X) (x0 : X) (w : List κ) : Prop :=
  Over gens w ∧ ∀ v, Over gens v → same (img f x0 v) (img f x0 w) = true → ¬ lt gens v w

section
variable {gens : List κ} {step : κ → X → Py X} {same : X → X → Bool} {f : κ → X → X} {x0 : X}
  (H : Setting gens step same f x0)
include H

theorem min_unique {u v : List κ} (hu : Min gens same f x0 u) (hv : Min gens same f x0 v)
    (h : same (img f x0 u) (img f x0 v) = true) : u = v := by
  rcases lt_trichotomy hu.1 hv.1 with h1 | h1 | h1
  · exact absurd h1 (hv.2 u hu.1 h)
  · exact h1
  · exact absurd h1 (hu.2 v hv.1 (H.symm _ _ hu.1 hv.1 h))

theorem exists_min (w : List κ) (hw : Over gens w) : ∃ m, Min gens same f x0 m ∧ same (img f x0 m) (img f x0 w) = true ∧ (m = w ∨ lt gens m w) := by
  have wf : WellFounded (lt gens) := InvImage.wf (rk gens) (List.Shortlex.wf Nat.lt_wfRel.wf)
  have ne : ∃ v, Over gens v ∧ same (img f x0 v) (img f x0 w) = true := ⟨w, hw, H.refl w hw⟩
  obtain ⟨m, ⟨h1, h2⟩, h3⟩ := wf.has_min {v | Over gens v ∧ same (img f x0 v) (img f x0 w) = true} ne
  refine ⟨m, ⟨h1, fun v hv hs => h3 v ⟨hv, H.trans _ _ _ hv h1 hw hs h2⟩⟩, h2, ?_⟩
  rcases lt_trichotomy h1 hw with h | h | h
  · exact .inr h
  · exact .inl h
  · exact absurd h (h3 w ⟨hw, H.refl w hw⟩)

theorem min_suffix {u v : List κ} (h : Min gens same f x0 (u ++ v)) : Min gens same f x0 v := by
  have hu : Over gens u := fun g hg => h.1 g (by simp [hg])
  have hv : Over gens v := fun g hg => h.1 g (by simp [hg])
  refine ⟨hv, fun v' hv' hs hl => ?_⟩
  refine h.2 (u ++ v') (fun g hg => ?_) (H.left _ _ _ hv' hv hu hs) (lt_append_left hl u)
  rcases List.mem_append.1 hg with hg | hg
  · exact hu g hg
  · exact hv' g hg

theorem min_prefix {u v : List κ} (h : Min gens same f x0 (u ++ v)) : Min gens same f x0 u := by
  have hu : Over gens u := fun g hg => h.1 g (by simp [hg])
  have hv : Over gens v := fun g hg => h.1 g (by simp [hg])
  refine ⟨hu, fun u' hu' hs hl => ?_⟩
  refine h.2 (u' ++ v) (fun g hg => ?_) (H.right _ _ _ hu' hu hv hs) (lt_append_right hl v)
  rcases List.mem_append.1 hg with hg | hg
  · exact hu' g hg
  · exact hv g hg

omit H [DecidableEq κ] in
theorem over_nil : Over gens ([] : List κ) := fun g hg => by cases hg

omit H in
theorem min_nil : Min gens same f x0 [] :=
  ⟨over_nil, fun v _ _ h => by unfold lt at h; exact absurd h (by simp [rk])⟩

/-- the invariant of the exploration: `P` lists the words taken from the queue, `R` those in it and `A` says which words have been
tried -/
structure Inv (gens : List κ) (same : X → X → Bool) (f : κ → X → X) (x0 : X) (L : Nat) (P R : List (List κ)) (A : List κ → Prop) (Q : List (List κ)) (st : CayleyState κ X) : Prop where
  queue : st.queue = R.map (fun w => (img f x0 w, w))
  elements : ∀ x, x ∈ st.elements ↔ ∃ y ∈ st.yielded, x = img f x0 y
  sorted : st.yielded.Pairwise (lt gens)
  lists : P ++ Q = st.yielded.filter (fun y => decide (y.length < L))
  char : ∀ y, y ∈ st.yielded ↔ Min gens same f x0 y ∧ (y = [] ∨ (∃ g ∈ gens, ∃ w ∈ P, y = g :: w) ∨ A y)

/-- every first word that is not longer than the word taken from the queue has been yielded -/
theorem Inv.level {L : Nat} {P R : List (List κ)} {A : List κ → Prop} {w : List κ} {st : CayleyState κ X}
    (I : Inv gens same f x0 L P R A (w :: R) st) (m : List κ) (hm : Min gens same f x0 m) (hl : m.length ≤ w.length) : m ∈ st.yielded := by
  induction m with
  | nil => exact (I.char _).2 ⟨hm, .inl rfl⟩
  | cons g v ih =>
    have hv : Min gens same f x0 v := min_suffix H (u := [g]) hm
    have hl' : v.length < w.length := hl
    have hvY := ih hv (by omega)
    have hw : w ∈ st.yielded.filter (fun y => decide (y.length < L)) := by rw [← I.lists]; simp
    have hwL : w.length < L := by simpa using (List.mem_filter.1 hw).2
    have hvF : v ∈ P ++ w :: R := by
      rw [I.lists]
      exact List.mem_filter.2 ⟨hvY, by simp; omega⟩
    have hs : (P ++ w :: R).Pairwise (lt gens) := by
      rw [I.lists]; exact I.sorted.filter _
    have hvP : v ∈ P := by
      rcases List.mem_append.1 hvF with h | h
      · exact h
      · exfalso
        rcases List.mem_cons.1 h with h | h
        · rw [h] at hl'; omega
        · have := (List.pairwise_cons.1 (List.pairwise_append.1 hs).2.1).1 v h
          exact lt_asymm this (lt_of_length hl')
    exact (I.char _).2 ⟨hm, .inr (.inl ⟨g, hm.1 g (by simp), v, hvP, rfl⟩)⟩

/-- one generator -/
theorem Inv.visit {length : Int} {L : Nat} (hL : L = max length.toNat 1) {P R : List (List κ)} {G1 G2 : List κ} {g : κ} (hg : gens = G1 ++ g :: G2) {w : List κ}
    {st : CayleyState κ X} (I : Inv gens same f x0 L P R (fun y => ∃ g ∈ G1, y = g :: w) (w :: R) st) :
    ∃ st' R', cayleyVisit step same length (img f x0 w) w st g = .ok st' ∧
      Inv gens same f x0 L P R' (fun y => ∃ k ∈ G1 ++ [g], y = k :: w) (w :: R') st' ∧
      (st' = st ∧ R' = R ∨ (R' = if ((g :: w).length : Int) < length then R ++ [g :: w] else R)) := by
  have hgg : g ∈ gens := by rw [hg]; simp
  have hwF : w ∈ st.yielded.filter (fun y => decide (y.length < L)) := by rw [← I.lists]; simp
  have hwY : w ∈ st.yielded := (List.mem_filter.1 hwF).1
  have hwM : Min gens same f x0 w := ((I.char w).1 hwY).1
  have hs : (P ++ w :: R).Pairwise (lt gens) := by
    rw [I.lists]; exact I.sorted.filter _
  have hPw : ∀ v ∈ P, lt gens v w := fun v hv => (List.pairwise_append.1 hs).2.2 v hv w (by simp)
  have hc : Over gens (g :: w) := by
    intro h hh
    rcases List.mem_cons.1 hh with h1 | h1
    · rw [h1]; exact hgg
    · exact hwM.1 h h1
  have himg : step g (img f x0 w) = .ok (img f x0 (g :: w)) := H.step_ok g hgg w hwM.1
  have keep : (¬ Min gens same f x0 (g :: w) ∨ (g :: w) ∈ st.yielded) → Inv gens same f x0 L P R (fun y => ∃ k ∈ G1 ++ [g], y = k :: w) (w :: R) st := by
    intro hd
    refine ⟨I.queue, I.elements, I.sorted, I.lists, fun y => ?_⟩
    rw [I.char]
    constructor
    · rintro ⟨h1, h2 | h2 | ⟨g', h2, h3⟩⟩
      · exact ⟨h1, .inl h2⟩
      · exact ⟨h1, .inr (.inl h2)⟩
      · exact ⟨h1, .inr (.inr ⟨g', by simp [h2], h3⟩)⟩
    · rintro ⟨h1, h2 | h2 | ⟨g', h2, h3⟩⟩
      · exact ⟨h1, .inl h2⟩
      · exact ⟨h1, .inr (.inl h2)⟩
      · rcases List.mem_append.1 h2 with h2 | h2
        · exact ⟨h1, .inr (.inr ⟨g', h2, h3⟩)⟩
        · rw [List.mem_singleton.1 h2] at h3
          rcases hd with hd | hd
          · rw [h3] at h1; exact absurd h1 hd
          · rw [h3]; exact (I.char _).1 hd
  unfold cayleyVisit
  dsimp only
  by_cases hM : Min gens same f x0 (g :: w)
  · rw [if_neg]
    swap
    · intro hany
      obtain ⟨i, hi, hi'⟩ := List.any_eq_true.1 hany
      have hi2 : i < (g :: w).length := by
        have := List.mem_of_mem_drop hi
        simpa using this
      have hp : Min gens same f x0 ((g :: w).take i) := by
        apply min_prefix H (v := (g :: w).drop i)
        rw [List.take_append_drop]; exact hM
      have := I.level H _ hp (by rw [List.length_take]; simp at hi2 ⊢; omega)
      simp [this] at hi'
    rw [himg, py_bind_ok]
    by_cases hany : st.elements.any (same (img f x0 (g :: w))) = true
    · rw [if_pos hany]
      refine ⟨st, R, rfl, keep (.inr ?_), .inl ⟨rfl, rfl⟩⟩
      obtain ⟨x, hx, hx'⟩ := List.any_eq_true.1 hany
      obtain ⟨y, hy, rfl⟩ := (I.elements x).1 hx
      have := min_unique H hM ((I.char y).1 hy).1 hx'
      rw [this]; exact hy
    · rw [if_neg hany]
      have hcY : (g :: w) ∉ st.yielded := by
        intro h
        exact hany (List.any_eq_true.2 ⟨_, (I.elements _).2 ⟨_, h, rfl⟩, H.refl _ hc⟩)
      have hgG : g ∉ G1 := fun h => hcY ((I.char _).2 ⟨hM, .inr (.inr ⟨g, h, rfl⟩)⟩)
      refine ⟨_, if ((g :: w).length : Int) < length then R ++ [g :: w] else R, rfl, ⟨?_, ?_, ?_, ?_, ?_⟩, .inr rfl⟩
      · dsimp only
        rw [I.queue]
        split
        · simp
        · rfl
      · intro x
        dsimp only
        rw [List.mem_cons, I.elements]
        constructor
        · rintro (h | ⟨y, h1, h2⟩)
          · exact ⟨_, by simp, h⟩
          · exact ⟨y, by simp [h1], h2⟩
        · rintro ⟨y, h1, h2⟩
          rcases List.mem_append.1 h1 with h1 | h1
          · exact .inr ⟨y, h1, h2⟩
          · rw [List.mem_singleton.1 h1] at h2; exact .inl h2
      · dsimp only
        refine List.pairwise_append.2 ⟨I.sorted, by simp, fun y hy z hz => ?_⟩
        rw [List.mem_singleton.1 hz]
        obtain ⟨_, h2 | ⟨g', _, w', hw', h2⟩ | ⟨g', hg', h2⟩⟩ := (I.char y).1 hy
        · rw [h2]; exact lt_of_length (by simp)
        · rw [h2]; exact lt_cons_of_lt (hPw w' hw') _ _
        · rw [h2]; apply lt_cons_same; rw [hg]; exact idxOf_lt_of_mem hgG hg'
      · dsimp only
        have e : ((g :: w).length : Int) < length ↔ (g :: w).length < L := by
          rw [hL]; simp only [List.length_cons]; omega
        rw [List.filter_append, ← I.lists]
        by_cases hlen : ((g :: w).length : Int) < length
        · rw [if_pos hlen, List.filter_cons, if_pos (by simpa using e.1 hlen)]; simp
        · rw [if_neg hlen, List.filter_cons, if_neg (by simpa using fun h => hlen (e.2 h))]; simp
      · intro y
        dsimp only
        rw [List.mem_append, I.char]
        constructor
        · rintro (⟨h1, h2 | h2 | ⟨g', h2, h3⟩⟩ | h)
          · exact ⟨h1, .inl h2⟩
          · exact ⟨h1, .inr (.inl h2)⟩
          · exact ⟨h1, .inr (.inr ⟨g', by simp [h2], h3⟩)⟩
          · rw [List.mem_singleton.1 h]; exact ⟨hM, .inr (.inr ⟨g, by simp, rfl⟩)⟩
        · rintro ⟨h1, h2 | h2 | ⟨g', h2, h3⟩⟩
          · exact .inl ⟨h1, .inl h2⟩
          · exact .inl ⟨h1, .inr (.inl h2)⟩
          · rcases List.mem_append.1 h2 with h2 | h2
            · exact .inl ⟨h1, .inr (.inr ⟨g', h2, h3⟩)⟩
            · rw [List.mem_singleton.1 h2] at h3; right; simp [h3]
  · split
    · exact ⟨st, R, rfl, keep (.inl hM), .inl ⟨rfl, rfl⟩⟩
    · rw [himg, py_bind_ok, if_pos]
      · exact ⟨st, R, rfl, keep (.inl hM), .inl ⟨rfl, rfl⟩⟩
      · obtain ⟨m, hm, hms, hml⟩ := exists_min H _ hc
        have hlt : lt gens m (g :: w) := by
          rcases hml with h | h
          · rw [h] at hm; exact absurd hm hM
          · exact h
        refine List.any_eq_true.2 ⟨_, (I.elements _).2 ⟨m, ?_, rfl⟩, H.symm _ _ hm.1 hc hms⟩
        by_cases hle : m.length ≤ w.length
        · exact I.level H m hm hle
        · have := lt_length hlt
          cases m with
          | nil => simp at hle
          | cons h v =>
            have hlen : v.length = w.length := by simp at this hle; omega
            have hvM : Min gens same f x0 v := min_suffix H (u := [h]) hm
            have hvY := I.level H v hvM hlen.le
            rcases lt_cons_cases hlt hlen hvM.1 hwM.1 with h1 | ⟨h1, h2⟩
            · have hwL : w.length < L := by simpa using (List.mem_filter.1 hwF).2
              have hvF : v ∈ P ++ w :: R := by
                rw [I.lists]
                exact List.mem_filter.2 ⟨hvY, by simp; omega⟩
              have hvP : v ∈ P := by
                rcases List.mem_append.1 hvF with h | h
                · exact h
                · exfalso
                  rcases List.mem_cons.1 h with h | h
                  · rw [h] at h1; exact lt_irrefl h1
                  · have := (List.pairwise_cons.1 (List.pairwise_append.1 hs).2.1).1 v h
                    exact lt_asymm this h1
              exact (I.char _).2 ⟨hm, .inr (.inl ⟨h, hm.1 h (by simp), v, hvP, rfl⟩)⟩
            · rw [hg] at h2
              exact (I.char _).2 ⟨hm, .inr (.inr ⟨h, idxOf_prefix h2, by rw [h1]⟩)⟩

/-- how many rounds a word in the queue can cause, by the number of letters that may still be added -/
def weight (k : Nat) : Nat → Nat
  | 0 => 1
  | n + 1 => 1 + k * weight k n

/-- all generators -/
theorem Inv.visits {length : Int} {L : Nat} (hL : L = max length.toNat 1) {P : List (List κ)} {w : List κ} (G2 : List κ) : ∀ {G1 : List κ} {R : List (List κ)} (_ : gens = G1 ++ G2)
    {st : CayleyState κ X} (_ : Inv gens same f x0 L P R (fun y => ∃ g ∈ G1, y = g :: w) (w :: R) st),
    ∃ st' R', G2.foldlM (cayleyVisit step same length (img f x0 w) w) st = .ok st' ∧
      Inv gens same f x0 L P R' (fun y => ∃ g ∈ gens, y = g :: w) (w :: R') st' ∧
      (R'.map (fun v => weight gens.length (L - v.length))).sum ≤ (R.map (fun v => weight gens.length (L - v.length))).sum + G2.length * weight gens.length (L - (w.length + 1)) := by
  induction G2 with
  | nil =>
    intro G1 R hg st I
    refine ⟨st, R, rfl, ?_, by simp⟩
    rw [List.append_nil] at hg
    rw [hg]; rw [hg] at I; exact I
  | cons g G2 ih =>
    intro G1 R hg st I
    obtain ⟨st1, R1, h1, h2, h3⟩ := I.visit H hL hg
    obtain ⟨st2, R2, h4, h5, h6⟩ := ih (G1 := G1 ++ [g]) (by rw [hg]; simp) h2
    refine ⟨st2, R2, by rw [List.foldlM_cons, h1, py_bind_ok, h4], h5, h6.trans ?_⟩
    have : (R1.map (fun v => weight gens.length (L - v.length))).sum ≤ (R.map (fun v => weight gens.length (L - v.length))).sum + weight gens.length (L - (w.length + 1)) := by
      rcases h3 with ⟨_, h⟩ | h
      · rw [h]; omega
      · rw [h]; split
        · simp
        · omega
    rw [List.length_cons, Nat.succ_mul]
    omega

theorem Inv.final {L : Nat} {P : List (List κ)} {e : List X} {Y : List (List κ)}
    (I : Inv gens same f x0 L P [] (fun _ => False) [] ⟨[], e, Y⟩) (y : List κ) : y ∈ Y ↔ Min gens same f x0 y ∧ y.length ≤ L := by
  have hP : P = Y.filter (fun y => decide (y.length < L)) := by have := I.lists; simpa using this
  constructor
  · intro hy
    obtain ⟨h1, h2 | ⟨g, _, v, c, d⟩ | c⟩ := (I.char y).1 hy
    · exact ⟨h1, by rw [h2]; simp⟩
    · rw [hP] at c
      have : v.length < L := by simpa using (List.mem_filter.1 c).2
      exact ⟨h1, by rw [d]; exact this⟩
    · exact c.elim
  · rintro ⟨h1, h2⟩
    induction y with
    | nil => exact (I.char _).2 ⟨h1, .inl rfl⟩
    | cons g v ih =>
      have := ih (min_suffix H (u := [g]) h1) (by simp at h2; omega)
      refine (I.char _).2 ⟨h1, .inr (.inl ⟨g, h1.1 g (by simp), v, ?_, rfl⟩)⟩
      rw [hP]
      exact List.mem_filter.2 ⟨this, decide_eq_true h2⟩

theorem loop_spec {length : Int} {L : Nat} (hL : L = max length.toNat 1) (rounds : Nat) : ∀ {P R : List (List κ)} {st : CayleyState κ X}
    (_ : Inv gens same f x0 L P R (fun _ => False) R st) (_ : (R.map (fun v => weight gens.length (L - v.length))).sum ≤ rounds),
    ∃ Y, cayleyLoop step same length gens rounds st = .ok Y ∧ Y.Pairwise (lt gens) ∧ ∀ y, y ∈ Y ↔ Min gens same f x0 y ∧ y.length ≤ L := by
  induction rounds with
  | zero =>
    intro P R st I hr
    cases R with
    | cons w R =>
      exfalso
      have : 0 < weight gens.length (L - w.length) := by
        cases (L - w.length) <;> simp [weight]
      simp at hr
      omega
    | nil =>
      obtain ⟨q, e, Y⟩ := st
      have hq : q = [] := I.queue
      subst hq
      refine ⟨Y, by simp only [cayleyLoop], I.sorted, ?_⟩
      exact fun y => I.final H y
  | succ rounds ih =>
    intro P R st I hr
    cases R with
    | nil =>
      obtain ⟨q, e, Y⟩ := st
      have hq : q = [] := I.queue
      subst hq
      refine ⟨Y, by simp only [cayleyLoop], I.sorted, ?_⟩
      exact fun y => I.final H y
    | cons w R =>
      obtain ⟨q, e, Y⟩ := st
      have hq : q = (img f x0 w, w) :: R.map (fun w => (img f x0 w, w)) := I.queue
      subst hq
      have hwF : w ∈ Y.filter (fun y => decide (y.length < L)) := by have := I.lists; dsimp only at this; rw [← this]; simp
      have hwL : w.length < L := by simpa using (List.mem_filter.1 hwF).2
      have I' : Inv gens same f x0 L P R (fun y => ∃ g ∈ ([] : List κ), y = g :: w) (w :: R) ⟨R.map (fun w => (img f x0 w, w)), e, Y⟩ := by
        refine ⟨rfl, I.elements, I.sorted, I.lists, fun y => ?_⟩
        have := I.char y
        simpa using this
      obtain ⟨st', R', h1, h2, h3⟩ := I'.visits H hL gens (G1 := []) rfl
      rw [cayleyLoop, h1, py_bind_ok]
      refine ih (P := P ++ [w]) (R := R') ?_ ?_
      · refine ⟨h2.queue, h2.elements, h2.sorted, by rw [← h2.lists]; simp, fun y => ?_⟩
        rw [h2.char]
        constructor
        · rintro ⟨a, b | ⟨g, b, v, c, d⟩ | ⟨g, b, c⟩⟩
          · exact ⟨a, .inl b⟩
          · exact ⟨a, .inr (.inl ⟨g, b, v, by simp [c], d⟩)⟩
          · exact ⟨a, .inr (.inl ⟨g, b, w, by simp, c⟩)⟩
        · rintro ⟨a, b | ⟨g, b, v, c, d⟩ | c⟩
          · exact ⟨a, .inl b⟩
          · rcases List.mem_append.1 c with c | c
            · exact ⟨a, .inr (.inl ⟨g, b, v, c, d⟩)⟩
            · rw [List.mem_singleton.1 c] at d
              exact ⟨a, .inr (.inr ⟨g, b, d⟩)⟩
          · exact c.elim
      · have : weight gens.length (L - w.length) = 1 + gens.length * weight gens.length (L - (w.length + 1)) := by
          obtain ⟨n, hn⟩ : ∃ n, L - w.length = n + 1 := ⟨L - w.length - 1, by omega⟩
          rw [hn, weight]
          congr 3
          omega
        rw [List.map_cons, List.sum_cons, this] at hr
        omega

/-- the whole exploration -/
theorem cayley_spec (length : Int) (rounds : Nat) (hr : weight gens.length (max length.toNat 1) ≤ rounds) :
    ∃ Y, cayleyLoop step same length gens rounds ⟨[(x0, [])], [x0], [[]]⟩ = .ok Y ∧ Y.Pairwise (lt gens) ∧
      ∀ y, y ∈ Y ↔ Min gens same f x0 y ∧ y.length ≤ max length.toNat 1 := by
  refine loop_spec H rfl rounds (P := []) (R := [[]]) ⟨rfl, ?_, by simp, ?_, ?_⟩ ?_
  · intro x; simp [img]
  · simp
  · intro y
    simp only [List.mem_singleton]
    constructor
    · rintro rfl; exact ⟨min_nil, .inl rfl⟩
    · rintro ⟨_, h | ⟨g, _, w, h, _⟩ | h⟩
      · exact h
      · cases h
      · exact h.elim
  · simpa using hr

end

/-! ### What holds whatever `same` compares -/

section
variable {gens : List κ} {step : κ → X → Py X} {same : X → X → Bool} {f : κ → X → X} {x0 : X}
  (hstep : ∀ g ∈ gens, ∀ w, Over gens w → step g (img f x0 w) = .ok (f g (img f x0 w)))

/-- the weak invariant -/
structure Weak (gens : List κ) (same : X → X → Bool) (f : κ → X → X) (x0 : X) (L : Nat) (st : CayleyState κ X) : Prop where
  queue : ∀ p ∈ st.queue, p.1 = img f x0 p.2 ∧ Over gens p.2 ∧ p.2.length < L
  elements : ∀ y ∈ st.yielded, img f x0 y ∈ st.elements
  words : ∀ y ∈ st.yielded, Over gens y ∧ y.length ≤ L
  start : [] ∈ st.yielded
  sorted : st.yielded.Pairwise (fun y z => ¬ same (img f x0 z) (img f x0 y) = true)

include hstep

theorem Weak.visit {length : Int} {L : Nat} (hL : L = max length.toNat 1) {w : List κ} (hw : Over gens w) (hwl : w.length < L) {g : κ} (hg : g ∈ gens)
    {st : CayleyState κ X} (I : Weak gens same f x0 L st) :
    ∃ st', cayleyVisit step same length (img f x0 w) w st g = .ok st' ∧ Weak gens same f x0 L st' := by
  have hc : Over gens (g :: w) := by
    intro h hh
    rcases List.mem_cons.1 hh with h1 | h1
    · rw [h1]; exact hg
    · exact hw h h1
  unfold cayleyVisit
  dsimp only
  split
  · exact ⟨st, rfl, I⟩
  · rw [hstep g hg w hw, py_bind_ok]
    by_cases hany : st.elements.any (same (f g (img f x0 w))) = true
    · rw [if_pos hany]; exact ⟨st, rfl, I⟩
    · rw [if_neg hany]
      refine ⟨_, rfl, ?_, ?_, ?_, ?_, ?_⟩
      · dsimp only
        intro p hp
        split at hp
        · rename_i hlen
          rcases List.mem_append.1 hp with hp | hp
          · exact I.queue p hp
          · rw [List.mem_singleton.1 hp]
            refine ⟨rfl, hc, ?_⟩
            rw [hL]
            simp only [List.length_cons] at hlen ⊢
            omega
        · exact I.queue p hp
      · dsimp only
        intro y hy
        rcases List.mem_append.1 hy with hy | hy
        · exact List.mem_cons_of_mem _ (I.elements y hy)
        · rw [List.mem_singleton.1 hy]; exact List.mem_cons_self
      · dsimp only
        intro y hy
        rcases List.mem_append.1 hy with hy | hy
        · exact I.words y hy
        · rw [List.mem_singleton.1 hy]; exact ⟨hc, hwl⟩
      · exact List.mem_append_left _ I.start
      · dsimp only
        refine List.pairwise_append.2 ⟨I.sorted, by simp, fun y hy z hz => ?_⟩
        rw [List.mem_singleton.1 hz]
        exact fun h => hany (List.any_eq_true.2 ⟨_, I.elements y hy, h⟩)

theorem Weak.visits {length : Int} {L : Nat} (hL : L = max length.toNat 1) {w : List κ} (hw : Over gens w) (hwl : w.length < L) (G : List κ) :
    ∀ {st : CayleyState κ X}, (∀ g ∈ G, g ∈ gens) → Weak gens same f x0 L st →
    ∃ st', G.foldlM (cayleyVisit step same length (img f x0 w) w) st = .ok st' ∧ Weak gens same f x0 L st' := by
  induction G with
  | nil => intro st _ I; exact ⟨st, rfl, I⟩
  | cons g G ih =>
    intro st hG I
    obtain ⟨st1, h1, h2⟩ := I.visit hstep hL hw hwl (hG g (by simp))
    obtain ⟨st2, h3, h4⟩ := ih (fun g hg => hG g (by simp [hg])) h2
    exact ⟨st2, by rw [List.foldlM_cons, h1, py_bind_ok, h3], h4⟩

theorem Weak.loop {length : Int} {L : Nat} (hL : L = max length.toNat 1) (rounds : Nat) : ∀ {st : CayleyState κ X} {Y : List (List κ)}
    (_ : Weak gens same f x0 L st) (_ : cayleyLoop step same length gens rounds st = .ok Y),
    ∃ st', st'.yielded = Y ∧ Weak gens same f x0 L st' := by
  induction rounds with
  | zero =>
    intro st Y I h
    obtain ⟨q, e, Z⟩ := st
    cases q with
    | nil => simp only [cayleyLoop] at h; cases h; exact ⟨_, rfl, I⟩
    | cons p q => simp only [cayleyLoop] at h; cases h
  | succ rounds ih =>
    intro st Y I h
    obtain ⟨q, e, Z⟩ := st
    cases q with
    | nil => simp only [cayleyLoop] at h; cases h; exact ⟨_, rfl, I⟩
    | cons p q =>
      obtain ⟨x, w⟩ := p
      obtain ⟨h1, h2, h3⟩ := I.queue (x, w) (by simp)
      dsimp only at h1 h2 h3
      subst h1
      have I' : Weak gens same f x0 L ⟨q, e, Z⟩ := ⟨fun p hp => I.queue p (by simp at hp ⊢; exact .inr hp), I.elements, I.words, I.start, I.sorted⟩
      obtain ⟨st', k1, k2⟩ := I'.visits hstep hL h2 h3 gens (fun g hg => hg)
      rw [cayleyLoop, k1, py_bind_ok] at h
      exact ih k2 h

end
end Cayley
end Curver
