import Verif.Proofs.Lexer
import Verif.Proofs.Power

namespace Curver
open Triangulation

namespace Mcg
variable {S : Mcg} {pos : PyDict Str Enc} {T : Triangulation}

/-- the names of a group can be typed -/
theorem Holds.typed (H : S.Holds pos) (hnames : ∀ name ∈ pos.keys, Str.isName name = true) :
    Parser.Typed S.mappingClasses.keys ∧ ∀ n ∈ S.mappingClasses.keys, Str.swapcase n ∈ S.mappingClasses.keys := by
  have hw : ∀ n, Str.isName n = true → n ≠ [] ∧ (∀ c ∈ n, Str.isWord c = true) ∧ ∀ c t, n = c :: t → Str.isLower c = true := by
    intro n hn
    cases n with
    | nil => cases hn
    | cons c t =>
      simp only [Str.isName, Bool.and_eq_true, List.all_eq_true] at hn
      refine ⟨by simp, fun d hd => ?_, fun d u h => ?_⟩
      · rcases List.mem_cons.1 hd with rfl | h
        · simp [Str.isWord, hn.1]
        · exact hn.2 d h
      · injection h with h _; rw [← h]; exact hn.1
  have key : ∀ n ∈ S.mappingClasses.keys, n ≠ [] ∧ (∀ c ∈ n, Str.isWord c = true) ∧ ∀ c t, n = c :: t → Str.isLower c = true ∨ Str.isUpper c = true := by
    intro n hn
    rcases (H.keys n).1 hn with h | h
    · obtain ⟨a, b, c⟩ := hw n (hnames n h)
      exact ⟨a, b, fun x y e => .inl (c x y e)⟩
    · obtain ⟨a, b, c⟩ := hw _ (hnames _ h)
      have e := Str.swapcase_swapcase n
      generalize Str.swapcase n = m at *
      subst e
      refine ⟨?_, ?_, ?_⟩
      · intro h0; apply a; unfold Str.swapcase at h0; simpa using h0
      · intro d hd
        unfold Str.swapcase at hd
        obtain ⟨d', h1, rfl⟩ := List.mem_map.1 hd
        exact Str.swapChar_isWord (b d' h1)
      · intro x y hxy
        cases m with
        | nil => exact absurd rfl a
        | cons d m =>
          unfold Str.swapcase at hxy
          injection hxy with h1 _
          rw [← h1]
          exact .inr (Str.swapChar_lower (c d m rfl)).1
  refine ⟨⟨⟨fun n hn => (key n hn).1, fun n hn hd => ?_⟩, fun n hn => (key n hn).2.1, fun n hn c t e => ?_⟩, fun n hn => ?_⟩
  · exact absurd ((key n hn).2.1 _ hd) (by decide)
  · have := (key n hn).2.2 c t e
    by_contra hc
    have hd : Str.isDigit c = true := by cases h : Str.isDigit c <;> simp_all
    unfold Str.isLower Str.isUpper at this
    unfold Str.isDigit at hd
    simp only [Bool.and_eq_true, decide_eq_true_eq] at this hd
    have e1 : 'a'.toNat = 97 := rfl
    have e2 : 'A'.toNat = 65 := rfl
    have e3 : '9'.toNat = 57 := rfl
    omega
  · rw [H.keys] at hn ⊢
    rw [Str.swapcase_swapcase]
    exact hn.symm

/-! ### what a string gives -/

theorem toList_lists {α : Type} {p : SLP α} {rounds : Nat} {l : List α} (h : p.toList rounds = .ok l) : p.Lists l := by
  have mono : ∀ (g : SGraph α) (r : Nat) (todo : List (Item α)) (l : List α), SLP.iterLoop g r todo = .ok l → SLP.iterLoop g (r + 1) todo = .ok l := by
    intro g r
    induction r with
    | zero =>
      intro todo l h
      cases todo with
      | nil => simpa only [SLP.iterLoop] using h
      | cons t todo => cases t <;> simp only [SLP.iterLoop] at h <;> cases h
    | succ r ih =>
      intro todo l h
      cases todo with
      | nil => simpa only [SLP.iterLoop] using h
      | cons t todo =>
        cases t with
        | term v =>
          simp only [SLP.iterLoop] at h
          rw [py_bind_eq_ok] at h
          obtain ⟨a, h1, h2⟩ := h
          rw [SLP.iterLoop, ih _ _ h1, py_bind_ok]; exact h2
        | node j =>
          simp only [SLP.iterLoop] at h
          rw [py_bind_eq_ok] at h
          obtain ⟨a, h1, h2⟩ := h
          rw [SLP.iterLoop, h1, py_bind_ok]; exact ih _ _ h2
  refine ⟨rounds, fun r hr => ?_⟩
  obtain ⟨k, rfl⟩ := Nat.exists_eq_add_of_le hr
  unfold SLP.toList at h ⊢
  induction k with
  | zero => exact h
  | succ k ih => exact mono _ _ _ _ (ih (by omega))

theorem ofString_reads (H : Parser.Typed S.mappingClasses.keys) {data : Str} {vs : List (List Str)} {v : List Str}
    (h : Reads S.mappingClasses.keys (Parser.tokens data) (vs ++ [v])) : ∃ N, ∀ rounds, N ≤ rounds → S.ofString rounds data = S.ofLetters v := by
  have h1 := (Parser.runV_iff H.toNames _ _).2 h
  obtain ⟨st, h2, h3⟩ := (Parser.run_spec (Parser.tokens data) [[]] [[]] (.cons .nil .nil)).1 _ h1
  cases h3 with
  | cons h3 h4 =>
    cases h4
    rcases Parser.forall₂_last h3 with ⟨_, e⟩ | ⟨p, as, l, bs, e1, e2, h5, h6⟩
    · simp at e
    · obtain ⟨e3, e4⟩ := List.append_inj' e2 rfl
      cases e4
      obtain ⟨N, hN⟩ := h6.2
      refine ⟨N, fun rounds hr => ?_⟩
      unfold ofString
      rw [h2, py_bind_ok, e1]
      simp only [List.getLast?_append, List.getLast?_singleton, Option.some_or]
      rw [hN rounds hr, py_bind_ok]

theorem ofString_not_reads (H : Parser.Typed S.mappingClasses.keys) {data : Str}
    (h : ¬ ∃ vs v, Reads S.mappingClasses.keys (Parser.tokens data) (vs ++ [v])) (rounds : Nat) :
    S.ofString rounds data = .error .valueError ∨ S.ofString rounds data = .error .indexError := by
  cases hr : Parser.runV S.mappingClasses.keys (Parser.tokens data) [[]] with
  | error e =>
    have := (Parser.run_spec (Parser.tokens data) [[]] [[]] (.cons .nil .nil)).2 e hr
    unfold ofString
    rw [this]
    rcases Parser.runV_error H.toNames _ _ e (by simp) hr with rfl | rfl
    · exact .inl rfl
    · exact .inr rfl
  | ok sv =>
    obtain ⟨st, h2, h3⟩ := (Parser.run_spec (Parser.tokens data) [[]] [[]] (.cons .nil .nil)).1 _ hr
    unfold ofString
    rw [h2, py_bind_ok]
    cases h3 with
    | nil => exact .inl rfl
    | @cons a vs _ _ h3 h4 =>
      cases h4 with
      | cons _ _ => exact .inl rfl
      | nil =>
        rcases Parser.forall₂_last h3 with ⟨e, _⟩ | ⟨p, as, l, bs, e1, e2, h5, h6⟩
        · subst e; exact .inr rfl
        · exfalso
          apply h
          subst e2
          exact ⟨bs, l, (Parser.runV_iff H.toNames _ _).1 hr⟩

/-! ### powers -/

section
variable {X : Type} (s : Str → Equiv.Perm X)

theorem prod_invLetters (hs : ∀ l, s (Str.swapcase l) = (s l)⁻¹) (w : List Str) : ((invLetters w).map s).prod = ((w.map s).prod)⁻¹ := by
  unfold invLetters
  rw [List.map_map, List.prod_inv_reverse, List.map_reverse, List.map_map]
  congr 2
  apply List.map_congr_left
  intro l _
  exact hs l

theorem prod_powLetters (hs : ∀ l, s (Str.swapcase l) = (s l)⁻¹) (w : List Str) (n : Int) : ((powLetters w n).map s).prod = ((w.map s).prod) ^ n := by
  have hrep : ∀ k : Nat, ((List.replicate k w).flatten.map s).prod = ((w.map s).prod) ^ k := by
    intro k
    induction k with
    | zero => simp
    | succ k ih => rw [List.replicate_succ, List.flatten_cons, List.map_append, List.prod_append, ih, pow_succ']
  unfold powLetters
  split
  · rename_i hn
    rw [prod_invLetters s hs, hrep]
    obtain ⟨k, hk⟩ : ∃ k : Nat, n = -(k : Int) := ⟨n.natAbs, by omega⟩
    rw [hk, zpow_neg, zpow_natCast]; simp
  · rename_i hn
    rw [hrep]
    obtain ⟨k, hk⟩ : ∃ k : Nat, n = (k : Int) := ⟨n.natAbs, by omega⟩
    rw [hk, zpow_natCast]; simp

end

/-- the permutations given by the names -/
theorem Holds.perms (H : S.Holds pos) (hnames : ∀ name ∈ pos.keys, Str.isName name = true) {X : Type} (A : Enc → Equiv.Perm X → Prop)
    (hA : ∀ n h, pos.get? n = some h → ∃ σ, A h σ ∧ ∀ g, h.inverse = .ok g → A g σ⁻¹) :
    ∃ s : Str → Equiv.Perm X, (∀ l, s (Str.swapcase l) = (s l)⁻¹) ∧ ∀ l h, S.mappingClasses.get? l = some h → A h (s l) := by
  classical
  have hdis : ∀ n, n ∈ pos.keys → Str.swapcase n ∉ pos.keys := by
    intro n h h'
    have := Str.isName_swapcase (hnames n h)
    rw [hnames _ h'] at this; cases this
  have hch : ∀ n, ∃ σ : Equiv.Perm X, ∀ h, pos.get? n = some h → A h σ ∧ ∀ g, h.inverse = .ok g → A g σ⁻¹ := by
    intro n
    cases hg : pos.get? n with
    | none => exact ⟨1, fun h hh => by cases hh⟩
    | some h => obtain ⟨σ, h1, h2⟩ := hA n h hg; exact ⟨σ, fun h' hh => by cases hh; exact ⟨h1, h2⟩⟩
  choose a ha using hch
  refine ⟨fun l => if l ∈ pos.keys then a l else if Str.swapcase l ∈ pos.keys then (a (Str.swapcase l))⁻¹ else 1, ?_, ?_⟩
  · intro l
    dsimp only
    rw [Str.swapcase_swapcase]
    by_cases h1 : l ∈ pos.keys
    · rw [if_neg (hdis l h1), if_pos h1, if_pos h1]
    · by_cases h2 : Str.swapcase l ∈ pos.keys
      · rw [if_pos h2, if_neg h1, if_pos h2, _root_.inv_inv]
      · rw [if_neg h2, if_neg h1, if_neg h1, if_neg h2, _root_.inv_one]
  · intro l h hl
    have hk : l ∈ S.mappingClasses.keys := PyDict.get?_isSome_iff.1 (by rw [hl]; rfl)
    dsimp only
    by_cases h1 : l ∈ pos.keys
    · obtain ⟨k, hk⟩ := Option.isSome_iff_exists.1 (PyDict.get?_isSome_iff.2 h1)
      rw [if_pos h1]
      cases (H.get_pos l k hk).symm.trans hl
      exact (ha l _ hk).1
    · have h2 : Str.swapcase l ∈ pos.keys := ((H.keys l).1 hk).resolve_left h1
      obtain ⟨k, hk⟩ := Option.isSome_iff_exists.1 (PyDict.get?_isSome_iff.2 h2)
      rw [if_neg h1, if_pos h2]
      obtain ⟨g, g1, g2⟩ := H.get_neg _ k hk
      rw [Str.swapcase_swapcase] at g2
      cases g2.symm.trans hl
      exact (ha _ _ hk).2 _ g1

/-- words act on laminations by products of permutations, powers by powers -/
theorem Holds.acts_lam (H : S.Holds pos) (hS : S.Legal) (hnames : ∀ name ∈ pos.keys, Str.isName name = true)
    {R : Type} [CommRing R] [LinearOrder R] [IsStrictOrderedRing R] [Halvable R] :
    ∃ s : Str → Equiv.Perm (LamOn R S.triangulation), (∀ l, s (Str.swapcase l) = (s l)⁻¹) ∧
      ∀ w h, S.Denotes w h → (∀ l ∈ w, l ∈ S.mappingClasses.keys) → h.ActsLam (w.map s).prod := by
  obtain ⟨s, h1, h2⟩ := H.perms hnames (X := LamOn R S.triangulation) (fun h σ => h.ActsLam σ) (by
    intro n h hn
    obtain ⟨a, b, c⟩ := hS.legal n h (H.get_pos n h hn)
    have := a.exists_actsLam (R := R)
    rw [← a.mappingClass b, c] at this
    obtain ⟨σ, k1, k2⟩ := this
    refine ⟨σ, k1, fun g hg => ?_⟩
    cases hg.symm.trans (Enc.inverse_eq a)
    exact k2)
  refine ⟨s, h1, fun w h hd hw L => ?_⟩
  rw [hd.lam R L.1 L.2.1.1 L.2.2]
  clear hd
  induction w with
  | nil => rfl
  | cons l w ih =>
    obtain ⟨a, hh, _⟩ := hS.get (hw l (by simp))
    rw [wordLam, ih (fun l hl => hw l (by simp [hl])), py_bind_ok, PyDict.get_eq_ok_iff.2 hh, py_bind_ok, h2 l a hh]
    rfl

/-- and on homology -/
theorem Holds.acts_hom (H : S.Holds pos) (hS : S.Legal) (hnames : ∀ name ∈ pos.keys, Str.isName name = true) :
    ∃ s : Str → Equiv.Perm (H1 S.triangulation), (∀ l, s (Str.swapcase l) = (s l)⁻¹) ∧
      ∀ w h, S.Denotes w h → (∀ l ∈ w, l ∈ S.mappingClasses.keys) → h.ActsHom (w.map s).prod := by
  obtain ⟨s, h1, h2⟩ := H.perms hnames (X := H1 S.triangulation) (fun h σ => h.ActsHom σ) (by
    intro n h hn
    obtain ⟨a, b, c⟩ := hS.legal n h (H.get_pos n h hn)
    have := a.exists_actsHom
    rw [← a.mappingClass b, c] at this
    obtain ⟨σ, k1, k2⟩ := this
    refine ⟨σ, k1, fun g hg => ?_⟩
    cases hg.symm.trans (Enc.inverse_eq a)
    exact k2)
  refine ⟨s, h1, fun w h hd hw x => ?_⟩
  rw [hd.hom x.1 x.2.1 x.2.2]
  clear hd
  induction w with
  | nil => exact ⟨x, rfl, rfl⟩
  | cons l w ih =>
    obtain ⟨a, hh, _⟩ := hS.get (hw l (by simp))
    obtain ⟨y, e1, e2⟩ := ih (fun l hl => hw l (by simp [hl]))
    obtain ⟨z, e3, e4⟩ := h2 l a hh y
    refine ⟨z, ?_, ?_⟩
    · rw [wordHom, e1, py_bind_ok, PyDict.get_eq_ok_iff.2 hh, py_bind_ok, e3]
    · rw [← e4, ← e2]; rfl

end Mcg
end Curver
