import Verif.Proofs.McgPower
import Verif.Props.Mcg
import Verif.Props.MappingEq

/-!
# C31: words given as strings

`Cut`, `Factors` (with `render`, `letters` and `Good`), `powLetters` and `Reads` are in Spec/Parser.lean; `Mcg.Denotes` in Spec/Mcg.lean.
-/

namespace Curver
open Triangulation

section
variable (T : Triangulation) (pos : PyDict Str Enc) (hne : pos ≠ []) (hn : pos.keys.Nodup)
  (hnames : ∀ name ∈ pos.keys, Str.isName name = true)
  (hl : ∀ name h, pos.get? name = some h → h.Legal ∧ h.kind = .mappingClass ∧ h.source = T) (S : Mcg) (hS : Mcg.create pos = .ok S)
include hne hn hnames hl hS

/-- C31: a string that is written with names, dots, parentheses and powers (and white space anywhere) gives the product of the letters
it stands for. -/
theorem C31_expression (e : Factors) (he : e.Good S.mappingClasses.keys) (data : Str) (hd : data.filter (fun c => !Str.isSpace c) = e.render) :
    ∃ h, S.ofLetters e.letters = .ok h ∧ S.Denotes e.letters h ∧ ∃ N, ∀ rounds, N ≤ rounds → S.ofString rounds data = .ok h := by
  obtain ⟨S', h1, h2, h3, h4⟩ := Mcg.create_ok hne hn hnames hl
  cases h1.symm.trans hS
  obtain ⟨ty, sw⟩ := h4.typed hnames
  have hr := Parser.reads_tokens ty e he data hd
  obtain ⟨h, k1, k2⟩ := h3.ofLetters_ok (w := e.letters) (Parser.Reads.mem sw hr _ (by simp))
  obtain ⟨N, hN⟩ := Mcg.ofString_reads (S := S) ty (vs := []) hr
  exact ⟨h, k1, k2, N, fun rounds hr => by rw [hN rounds hr, k1]⟩

/-- C31: every string either has tokens that can be read (in one way), and then gives the product of the last item read, or raises
`ValueError` or `IndexError`. -/
theorem C31_every_string (data : Str) :
    (∃ vs v h, Reads S.mappingClasses.keys (Parser.tokens data) (vs ++ [v]) ∧ S.ofLetters v = .ok h ∧ S.Denotes v h ∧
      ∃ N, ∀ rounds, N ≤ rounds → S.ofString rounds data = .ok h) ∨
    ((¬ ∃ vs v, Reads S.mappingClasses.keys (Parser.tokens data) (vs ++ [v])) ∧
      ∀ rounds, S.ofString rounds data = .error .valueError ∨ S.ofString rounds data = .error .indexError) := by
  obtain ⟨S', h1, h2, h3, h4⟩ := Mcg.create_ok hne hn hnames hl
  cases h1.symm.trans hS
  obtain ⟨ty, sw⟩ := h4.typed hnames
  by_cases hr : ∃ vs v, Reads S.mappingClasses.keys (Parser.tokens data) (vs ++ [v])
  · left
    obtain ⟨vs, v, hr⟩ := hr
    obtain ⟨h, k1, k2⟩ := h3.ofLetters_ok (w := v) (Parser.Reads.mem sw hr _ (by simp))
    obtain ⟨N, hN⟩ := Mcg.ofString_reads (S := S) ty hr
    exact ⟨vs, v, h, hr, k1, k2, N, fun rounds hr => by rw [hN rounds hr, k1]⟩
  · exact .inr ⟨hr, fun rounds => Mcg.ofString_not_reads ty hr rounds⟩

/-- C31: unbalanced parentheses are an error: if the numbers of opening and closing parentheses differ then the string raises. -/
theorem C31_unbalanced (data : Str) (hd : (Parser.tokens data).count .opening ≠ (Parser.tokens data).count .closing) (rounds : Nat) :
    S.ofString rounds data = .error .valueError ∨ S.ofString rounds data = .error .indexError := by
  obtain ⟨S', h1, h2, h3, h4⟩ := Mcg.create_ok hne hn hnames hl
  cases h1.symm.trans hS
  obtain ⟨ty, sw⟩ := h4.typed hnames
  refine Mcg.ofString_not_reads ty (fun ⟨vs, v, h⟩ => hd ?_) rounds
  generalize vs ++ [v] = ws at h
  generalize Parser.tokens data = ts at h
  clear hd
  induction h with
  | nil => rfl
  | int ts vs n h ih => simp [ih]
  | word ts vs w ls h hc ih => simp [ih]
  | group ts vs us ws h h' ih ih' => simp [ih, ih']
  | power ts vs v n h ih => simp [ih]

/-- C31: a row of characters that cannot be cut into names and dots, longest names first, is an error. -/
theorem C31_unknown_names (data w : Str) (hw : Token.word w ∈ Parser.tokens data) (hc : ¬ ∃ ls, Cut S.mappingClasses.keys w ls) (rounds : Nat) :
    S.ofString rounds data = .error .valueError ∨ S.ofString rounds data = .error .indexError := by
  obtain ⟨S', h1, h2, h3, h4⟩ := Mcg.create_ok hne hn hnames hl
  cases h1.symm.trans hS
  obtain ⟨ty, sw⟩ := h4.typed hnames
  refine Mcg.ofString_not_reads ty (fun ⟨vs, v, h⟩ => hc ?_) rounds
  generalize vs ++ [v] = ws at h
  generalize Parser.tokens data = ts at h hw
  clear hc
  induction h with
  | nil => cases hw
  | int ts vs n h ih => simp at hw; exact ih hw
  | word ts vs w' ls h hc ih =>
    simp at hw
    rcases hw with hw | hw
    · exact ih hw
    · rw [hw]; exact ⟨ls, hc⟩
  | group ts vs us ws h h' ih ih' =>
    simp at hw
    rcases hw with hw | hw
    · exact ih hw
    · exact ih' hw
  | power ts vs v n h ih => simp at hw; exact ih hw

/-- C31: concatenation is composition. -/
theorem C31_concatenation (u v : List Str) (hu : ∀ g ∈ u, g ∈ S.mappingClasses.keys) (hv : ∀ g ∈ v, g ∈ S.mappingClasses.keys) :
    ∃ g h k, S.ofLetters u = .ok g ∧ S.ofLetters v = .ok h ∧ S.ofLetters (u ++ v) = .ok k ∧ Enc.IsComposite k g h := by
  obtain ⟨S', h1, h2, h3, h4⟩ := Mcg.create_ok hne hn hnames hl
  cases h1.symm.trans hS
  obtain ⟨g, g1, g2⟩ := h3.ofLetters_ok hu
  obtain ⟨h, k1, k2⟩ := h3.ofLetters_ok hv
  obtain ⟨k, l1, l2⟩ := h3.ofLetters_ok (w := u ++ v) (by
    intro l hl
    rcases List.mem_append.1 hl with h | h
    · exact hu l h
    · exact hv l h)
  refine ⟨g, h, k, g1, k1, l1, l2.source.trans k2.source.symm, l2.target.trans g2.target.symm, ?_, ?_⟩
  · intro R _ _ _ _ L hL
    by_cases ht : L.tri = S.triangulation
    · rw [l2.lam R L hL ht, k2.lam R L hL ht, h3.wordLam_eq hv hL ht]
      have hp := h3.path hv
      rw [h3.wordLam_eq (w := u ++ v) (by
        intro l hl
        rcases List.mem_append.1 hl with h | h
        · exact hu l h
        · exact hv l h) hL ht]
      have : S.movesOf (u ++ v) = S.movesOf u ++ S.movesOf v := by unfold Mcg.movesOf; simp
      rw [this, List.reverse_append, performLam_append]
      cases hq : performLam (S.movesOf v).reverse L with
      | error e => rfl
      | ok L' =>
        obtain ⟨e1, e2, e3, _⟩ := hp.performLam hL ht hq
        rw [py_bind_ok, py_bind_ok, g2.lam R L' e2 e1, h3.wordLam_eq hu e2 e1]
    · rw [Enc.applyLam_eq, if_neg (fun h => ht (h.symm.trans l2.source)), Enc.applyLam_eq, if_neg (fun h' => ht (h'.symm.trans k2.source))]; rfl
  · intro x hx
    by_cases ht : x.tri = S.triangulation
    · have hp := h3.path hv
      rw [l2.hom x hx ht, k2.hom x hx ht, h3.wordHom_eq hv hx ht]
      rw [h3.wordHom_eq (w := u ++ v) (by
        intro l hl
        rcases List.mem_append.1 hl with h | h
        · exact hu l h
        · exact hv l h) hx ht]
      have : S.movesOf (u ++ v) = S.movesOf u ++ S.movesOf v := by unfold Mcg.movesOf; simp
      rw [this, List.reverse_append, performHom_append]
      obtain ⟨y, hq, e1, e2⟩ := hp.performHom hx ht
      rw [hq, py_bind_ok, py_bind_ok, g2.hom y e2 e1, h3.wordHom_eq hu e2 e1]
    · rw [Enc.applyHom_eq, if_neg (fun h => ht (h.symm.trans l2.source)), Enc.applyHom_eq, if_neg (fun h' => ht (h'.symm.trans k2.source))]; rfl

/-- C31: the letters of a power give the power: the mapping class of `w^n` is equal to the `n`-th power (for negative `n` the power of
the inverse) of that of `w`, and acts as that power on consistent laminations and on homology. -/
theorem C31_power (v : List Str) (hv : ∀ g ∈ v, g ∈ S.mappingClasses.keys) (n : Int) :
    ∃ g h p, S.ofLetters v = .ok g ∧ S.ofLetters (powLetters v n) = .ok h ∧ g.pow n = .ok p ∧ h.eq p = .ok true ∧
      (∀ (R : Type) [CommRing R] [LinearOrder R] [IsStrictOrderedRing R] [Halvable R],
        ∃ σ : Equiv.Perm (LamOn R T), g.ActsLam σ ∧ h.ActsLam (σ ^ n)) ∧
      ∃ τ : Equiv.Perm (H1 T), g.ActsHom τ ∧ h.ActsHom (τ ^ n) := by
  obtain ⟨S', h1, h2, h3, h4⟩ := Mcg.create_ok hne hn hnames hl
  cases h1.symm.trans hS
  subst h2
  obtain ⟨ty, sw⟩ := h4.typed hnames
  have hpv := Parser.powLetters_mem sw hv n
  obtain ⟨g, g1, g2⟩ := h3.ofLetters_ok hv
  obtain ⟨h, k1, k2⟩ := h3.ofLetters_ok hpv
  obtain ⟨p, p1, p2, p3, p4, p5, p6, p7⟩ := Enc.pow_eq g2.legal g2.kind n
  have lam : ∀ (R : Type) [CommRing R] [LinearOrder R] [IsStrictOrderedRing R] [Halvable R],
        ∃ σ : Equiv.Perm (LamOn R S.triangulation), g.ActsLam σ ∧ h.ActsLam (σ ^ n) := by
    intro R _ _ _ _
    obtain ⟨s, s1, s2⟩ := h4.acts_lam h3 hnames (R := R)
    have := s2 _ h k2 hpv
    rw [Mcg.prod_powLetters s s1] at this
    exact ⟨_, s2 v g g2 hv, this⟩
  have hom : ∃ τ : Equiv.Perm (H1 S.triangulation), g.ActsHom τ ∧ h.ActsHom (τ ^ n) := by
    obtain ⟨s, s1, s2⟩ := h4.acts_hom h3 hnames
    have := s2 _ h k2 hpv
    rw [Mcg.prod_powLetters s s1] at this
    exact ⟨_, s2 v g g2 hv, this⟩
  refine ⟨g, h, p, g1, k1, p1, ?_, lam, hom⟩
  have hag : h.Agree p := by
    refine ⟨k2.source.trans (g2.source.symm.trans p4.symm), k2.target.trans (g2.source.symm.trans p5.symm), ?_, ?_⟩
    · obtain ⟨σ, a, b⟩ := lam Int
      obtain ⟨σ', a', b'⟩ := Enc.powers_lam (R := Int) g2.legal g2.kind
      have hT := g2.source
      have hv := h3.valid.asLamination_consistent
      have e1 := b ⟨_, hv, rfl⟩
      have e2 : ∃ L : LamOn Int S.triangulation, p.applyLam S.triangulation.asLamination = .ok L.1 ∧ L = (σ ^ n) ⟨_, hv, rfl⟩ := by
        have hs := g2.source
        clear b
        revert σ' a' b'
        rw [hs]
        intro σ' a' b'
        cases Enc.ActsLam.unique a a'
        exact ⟨_, by rw [p6 Int _ hv.1 hs.symm]; exact b' n ⟨_, hv, rfl⟩, rfl⟩
      obtain ⟨L, e2, e3⟩ := e2
      rw [k2.source, e1, e2, e3]
    · intro x y z hx hy hz
      have tx : x.tri = h.source := by
        rw [Enc.applyHom_eq] at hy; split at hy
        · rename_i h'; exact h'.symm
        · cases hy
      have tx' : x.tri = S.triangulation := tx.trans k2.source
      obtain ⟨τ, a, b⟩ := hom
      obtain ⟨τ', a', b'⟩ := Enc.powers_hom g2.legal g2.kind
      obtain ⟨y', e1, e2⟩ := b ⟨x, hx, tx'⟩
      cases e1.symm.trans hy
      have e3 : ∃ z' : HomOn S.triangulation, p.applyHom x = .ok z'.1 ∧ (τ ^ n) (HomOn.cls ⟨x, hx, tx'⟩) = z'.cls := by
        have hs := g2.source
        clear b
        revert τ' a' b'
        rw [hs]
        intro τ' a' b'
        have hu : τ = τ' := by
          apply Equiv.ext
          intro q
          induction q using Quot.ind
          rename_i c
          obtain ⟨y1, c1, c2⟩ := a c
          obtain ⟨y2, d1, d2⟩ := a' c
          have : y1 = y2 := Subtype.ext (Except.ok.inj (c1.symm.trans d1))
          exact c2.trans (this ▸ d2.symm)
        subst hu
        obtain ⟨z', f1, f2⟩ := b' n ⟨x, hx, tx'⟩
        exact ⟨z', by rw [p7 x hx (tx'.trans hs.symm)]; exact f1, f2⟩
      obtain ⟨z', f1, f2⟩ := e3
      cases f1.symm.trans hz
      exact HomOn.cls_eq_iff.1 (e2.symm.trans f2)
  obtain ⟨b, b1, b2⟩ := k2.legal.eq_ok p2
  rw [b1, b2.2 hag]

end

/-- C31: the items of a string are determined by it. -/
theorem C31_one_reading (names : List Str) (hn : ∀ n ∈ names, n ≠ [] ∧ '.' ∉ n) (ts : List Token) (vs ws : List (List Str))
    (h : Reads names ts vs) (h' : Reads names ts ws) : vs = ws := by
  have H : Parser.Names names := ⟨fun n h => (hn n h).1, fun n h => (hn n h).2⟩
  have h1 := (Parser.runV_iff H ts vs).2 h
  have h2 := (Parser.runV_iff H ts ws).2 h'
  cases h1.symm.trans h2
  rfl

/-- C31: the longest name that fits is taken. -/
theorem C31_longest (names : List Str) (hn : ∀ n ∈ names, n ≠ [] ∧ '.' ∉ n) (w : Str) (ls : List Str) :
    Parser.decompose names w = .ok ls ↔ Cut names w ls :=
  (Parser.decompose_spec ⟨fun n h => (hn n h).1, fun n h => (hn n h).2⟩ w).1 ls

/-! ### Concrete cases -/

/-- `(a.a)^-2 A ((a))^3` -/
def sampleExpr : Factors :=
  .cons (.power (.group (.cons (.row ['a', '.', 'a'] [['a'], ['a']]) .nil)) ['-', '2'] (-2))
    (.cons (.row ['A'] [['A']]) (.cons (.power (.group (.cons (.group (.cons (.row ['a'] [['a']]) .nil)) .nil)) ['3'] 3) .nil))

theorem cut_a {s : Str} {ls : List Str} (h : Cut [['a'], ['A']] s ls) : Cut [['a'], ['A']] ('a' :: s) (['a'] :: ls) :=
  .name ['a'] s ls (by simp) (by simp) (by intro m hm _; simp at hm; rcases hm with rfl | rfl <;> simp) h

theorem cut_A {s : Str} {ls : List Str} (h : Cut [['a'], ['A']] s ls) : Cut [['a'], ['A']] ('A' :: s) (['A'] :: ls) :=
  .name ['A'] s ls (by simp) (by simp) (by intro m hm _; simp at hm; rcases hm with rfl | rfl <;> simp) h

/-- the hypotheses of `C31_expression` are met -/
example : sampleExpr.Good [['a'], ['A']] ∧ sampleExpr.render = "(a.a)^-2A((a))^3".toList ∧
    sampleExpr.letters = [['A'], ['A'], ['A'], ['A'], ['A'], ['a'], ['a'], ['a']] := by
  refine ⟨?_, by decide, by decide⟩
  simp only [sampleExpr, Factors.Good, Factor.Good, Factor.IsRow, Factors.StartWithRow, Factor.StartsWithRow]
  refine ⟨⟨⟨⟨by simp, cut_a (.dot _ _ (cut_a .nil))⟩, trivial, by simp⟩, ?_⟩, ⟨⟨by simp, cut_A .nil⟩, ⟨⟨⟨⟨⟨by simp, cut_a .nil⟩, trivial, by simp⟩, trivial, by simp⟩, ?_⟩, trivial, by simp⟩, by simp⟩, by simp⟩
  · exact .minus ['2'] (by simp) (by decide)
  · exact .plain ['3'] (by simp) (by decide)

/-- and the group of the twist has these names -/
example : (do let S ← Mcg.create twistPos; return S.mappingClasses.keys : Py _) = .ok [['a'], ['A']] := by decide +kernel

/-- strings, the power of a row of names applies to the whole row -/
example : Parser.tokens " (a.a) ^ -2 A".toList = [.opening, .opening, .word ['a', '.', 'a'], .closing, .caret, .int (-2), .word ['A'], .closing] ∧
    (do let S ← Mcg.create twistPos; let g ← S.ofString 100 "aa^2".toList; let h ← S.ofString 100 "a^4".toList; g.eq h) = .ok true := by
  constructor <;> decide +kernel

/-- names are matched longest first -/
example : Parser.decompose [['a'], ['a', 'a'], ['b']] "aaa.aab".toList = .ok [['a', 'a'], ['a'], ['a', 'a'], ['b']] := by decide

/-- C31 as stated is false for some strings with unbalanced parentheses: `a)(A` is accepted, and everything but the last part is
forgotten. -/
theorem C31_unbalanced_is_accepted : (do let S ← Mcg.create twistPos; let g ← S.ofString 100 "a)(A".toList; let h ← S.ofString 100 "A".toList; return g.eq h) =
    .ok (.ok true) := by decide +kernel

/-- C31: an exponent without a base raises `IndexError`, not `ValueError`. -/
theorem C31_exponent_alone : (do let S ← Mcg.create twistPos; S.ofString 100 "^2".toList >>= fun _ => .ok ()) = .error .indexError := by
  decide +kernel

/-- C31 as stated is false for strings with other characters: they are ignored, as are numbers that are not exponents. -/
theorem C31_other_characters_are_ignored : (do let S ← Mcg.create twistPos; let g ← S.ofString 100 "a!,7$a".toList; let h ← S.ofString 100 "a(a)".toList; g.eq h) =
    .ok true := by decide +kernel

end Curver
