import Verif.Spec.Parser
import Verif.Proofs.SLP
import Verif.Proofs.Mcg

namespace Curver
namespace Parser

/-! ### cutting rows of names -/

/-- names are not empty and have no dots -/
structure Names (names : List Str) : Prop where
  nonempty : ∀ n ∈ names, n ≠ []
  nodot : ∀ n ∈ names, '.' ∉ n

variable {names : List Str}

theorem mem_byLength {n : Str} : n ∈ byLength names ↔ n ∈ names := by
  unfold byLength; rw [List.mem_insertionSort]

theorem byLength_sorted (names : List Str) : (byLength names).Pairwise (fun v w => w.length ≤ v.length) := by
  have : IsTrans Str (fun v w => w.length ≤ v.length) := ⟨fun a b c h1 h2 => le_trans h2 h1⟩
  have : Std.Total (fun v w : Str => w.length ≤ v.length) := ⟨fun a b => le_total _ _⟩
  exact List.pairwise_insertionSort _ names

theorem find_some {s n : Str} (h : (byLength names).find? (fun n => n.isPrefixOf s) = some n) :
    n ∈ names ∧ n <+: s ∧ ∀ m ∈ names, m <+: s → m.length ≤ n.length := by
  obtain ⟨h1, as, bs, h2, h3⟩ := List.find?_eq_some_iff_append.1 h
  refine ⟨mem_byLength.1 (by rw [h2]; simp), by simpa using h1, fun m hm hp => ?_⟩
  have hm' := mem_byLength.2 hm
  rw [h2] at hm'
  rcases List.mem_append.1 hm' with h4 | h4
  · have := h3 m h4
    rw [List.isPrefixOf_iff_prefix.2 hp] at this
    cases this
  · rcases List.mem_cons.1 h4 with h5 | h5
    · rw [h5]
    · have hs := byLength_sorted names
      rw [h2, List.pairwise_append] at hs
      exact (List.pairwise_cons.1 hs.2.1).1 m h5

theorem find_none {s : Str} (h : (byLength names).find? (fun n => n.isPrefixOf s) = none) : ∀ m ∈ names, ¬ m <+: s := by
  intro m hm hp
  exact List.find?_eq_none.1 h m (mem_byLength.2 hm) (List.isPrefixOf_iff_prefix.2 hp)

/-- `findall` on a string without dots -/
theorem findNames_spec (H : Names names) : ∀ (fuel : Nat) (s : Str), s.length ≤ fuel → '.' ∉ s →
    ((findNames names fuel s).map List.length).sum ≤ s.length ∧
    (((findNames names fuel s).map List.length).sum = s.length → Cut names s (findNames names fuel s)) ∧
    (∀ ls, Cut names s ls → ls = findNames names fuel s ∧ ((findNames names fuel s).map List.length).sum = s.length) := by
  intro fuel
  induction fuel with
  | zero =>
    intro s hs _
    have : s = [] := List.length_eq_zero_iff.1 (by omega)
    subst this
    refine ⟨by simp [findNames], fun _ => .nil, fun ls h => ?_⟩
    generalize he : ([] : Str) = s at h
    cases h with
    | nil => simp [findNames]
    | dot => cases he
    | name n s ls h1 h2 => exact absurd (List.append_eq_nil_iff.1 he.symm).1 h2
  | succ fuel ih =>
    intro s hs hd
    cases s with
    | nil =>
      refine ⟨by simp [findNames], fun _ => .nil, fun ls h => ?_⟩
      generalize he : ([] : Str) = s at h
      cases h with
      | nil => simp [findNames]
      | dot => cases he
      | name n s ls h1 h2 => exact absurd (List.append_eq_nil_iff.1 he.symm).1 h2
    | cons c t =>
      cases hf : (byLength names).find? (fun n => n.isPrefixOf (c :: t)) with
      | none =>
        have hno := find_none hf
        have e : findNames names (fuel + 1) (c :: t) = findNames names fuel t := by rw [findNames, hf]
        rw [e]
        obtain ⟨h1, h2, h3⟩ := ih t (by simp at hs; omega) (fun h => hd (by simp [h]))
        refine ⟨by simp; omega, fun h => by simp at h; omega, fun ls h => ?_⟩
        exfalso
        generalize he : c :: t = s at h
        cases h with
        | nil => cases he
        | dot s ls h => injection he with he _; exact hd (by simp [he])
        | name n s ls k1 k2 k3 k4 => exact hno n k1 ⟨s, he.symm⟩
      | some n =>
        obtain ⟨hn, ⟨s, hs'⟩, hmax⟩ := find_some hf
        have e : findNames names (fuel + 1) (c :: t) = n :: findNames names fuel s := by
          rw [findNames, hf, ← hs']; simp
        rw [e]
        rw [← hs'] at hs hd hmax ⊢
        have hpos : 0 < n.length := List.length_pos_iff.2 (H.nonempty n hn)
        obtain ⟨h1, h2, h3⟩ := ih s (by simp at hs; omega) (fun h => hd (by simp [h]))
        refine ⟨by simp; omega, fun h => ?_, fun ls h => ?_⟩
        · exact .name n s _ hn (H.nonempty n hn) hmax (h2 (by simp at h; omega))
        · generalize he : n ++ s = u at h hd hmax
          cases h with
          | nil => rw [List.append_eq_nil_iff] at he; exact absurd he.1 (H.nonempty n hn)
          | dot u ls h => exact absurd (by simp) hd
          | name n' s' ls k1 k2 k3 k4 =>
            have l1 := k3 n hn ⟨s, he⟩
            have l2 := hmax n' k1 ⟨s', rfl⟩
            obtain ⟨e1, e2⟩ := List.append_inj he (by omega)
            subst e1 e2
            obtain ⟨m1, m2⟩ := h3 ls k4
            refine ⟨by rw [← m1], by simp; omega⟩

theorem dotless_append_iff (H : Names names) {s t : Str} (hs : '.' ∉ s) {ls : List Str} :
    Cut names (s ++ '.' :: t) ls ↔ ∃ a b, ls = a ++ b ∧ Cut names s a ∧ Cut names t b := by
  constructor
  · intro h
    generalize he : s ++ '.' :: t = u at h
    induction h generalizing s with
    | nil => cases s <;> cases he
    | dot u ls h ih =>
      cases s with
      | nil =>
        simp at he
        subst he
        exact ⟨[], ls, rfl, .nil, h⟩
      | cons c s =>
        injection he with h1 _
        exact absurd (by simp [h1]) hs
    | name n u ls k1 k2 k3 k4 ih =>
      have hpre : n <+: s := by
        have h1 : n <+: s ++ '.' :: t := ⟨u, he.symm⟩
        rcases List.prefix_or_prefix_of_prefix h1 (List.prefix_append s _) with h | h
        · exact h
        · obtain ⟨r, hr⟩ := h
          cases r with
          | nil => rw [List.append_nil] at hr; rw [hr]
          | cons c r =>
            rw [← hr, List.append_assoc, List.append_cancel_left_eq] at he
            injection he with e1 _
            exact absurd (by rw [← hr, ← e1]; simp) (H.nodot n k1)
      obtain ⟨r, hr⟩ := hpre
      subst hr
      rw [List.append_assoc, List.append_cancel_left_eq] at he
      obtain ⟨a, b, e, h1, h2⟩ := ih (s := r) (fun h => hs (by simp [h])) he
      refine ⟨n :: a, b, by rw [e]; rfl, .name n r a k1 k2 ?_ h1, h2⟩
      intro m hm hp
      refine k3 m hm (hp.trans ?_)
      rw [← he, ← List.append_assoc]
      exact List.prefix_append _ _
  · rintro ⟨a, b, rfl, h1, h2⟩
    induction h1 with
    | nil => exact .dot _ _ h2
    | dot u ls h ih => exact absurd (by simp) hs
    | name n u ls k1 k2 k3 k4 ih =>
      rw [List.append_assoc]
      refine .name n _ _ k1 k2 ?_ (ih (fun h => hs (by simp [h])))
      intro m hm hp
      refine k3 m hm ?_
      have h1 : n ++ u <+: n ++ (u ++ '.' :: t) := by rw [← List.append_assoc]; exact List.prefix_append _ _
      rcases List.prefix_or_prefix_of_prefix hp h1 with h | h
      · exact h
      · obtain ⟨r, hr⟩ := h
        cases r with
        | nil => rw [List.append_nil] at hr; rw [hr]
        | cons c r =>
          obtain ⟨q, hq⟩ := hp
          rw [← hr, List.append_assoc, List.append_assoc, ← List.append_assoc n, ← List.append_assoc n u ('.' :: t), List.append_cancel_left_eq] at hq
          injection hq with e1 _
          exact absurd (by rw [← hr, e1]; simp) (H.nodot m hm)

theorem splitOn_spec (w : Str) : ∃ p ps, w.splitOn '.' = p :: ps ∧ (∀ q ∈ p :: ps, '.' ∉ q) ∧
    w = ['.'].intercalate (p :: ps) ∧ w.length = ((p :: ps).map List.length).sum + ps.length ∧ w.count '.' = ps.length := by
  induction w with
  | nil => exact ⟨[], [], by simp [List.splitOn], by simp, by simp [List.intercalate], by simp, by simp⟩
  | cons c w ih =>
    obtain ⟨p, ps, h1, h2, h3, h4, h5⟩ := ih
    by_cases hc : c = '.'
    · subst hc
      refine ⟨[], p :: ps, ?_, ?_, ?_, ?_, ?_⟩
      · rw [List.splitOn, List.splitOnP_cons]; simp; exact h1
      · intro q hq
        rcases List.mem_cons.1 hq with h | h
        · rw [h]; simp
        · exact h2 q h
      · rw [h3]; simp [List.intercalate]
      · rw [List.length_cons, h4]; simp; omega
      · rw [List.count_cons, h5]; simp
    · refine ⟨c :: p, ps, ?_, ?_, ?_, ?_, ?_⟩
      · rw [List.splitOn, List.splitOnP_cons]; simp [hc]; rw [List.splitOn] at h1; rw [h1]; rfl
      · intro q hq
        rcases List.mem_cons.1 hq with h | h
        · rw [h]; simp [Ne.symm hc]; exact h2 p (by simp)
        · exact h2 q (by simp [h])
      · rw [h3]; cases ps <;> simp [List.intercalate]
      · rw [List.length_cons, h4]; simp; omega
      · rw [List.count_cons, h5]; simp [hc]

theorem cut_intercalate (H : Names names) (ps : List Str) : ∀ (p : Str), (∀ q ∈ p :: ps, '.' ∉ q) → ∀ ls,
    (Cut names (['.'].intercalate (p :: ps)) ls ↔ ∃ lss, List.Forall₂ (Cut names) (p :: ps) lss ∧ ls = lss.flatten) := by
  induction ps with
  | nil =>
    intro p _ ls
    rw [show ['.'].intercalate [p] = p by simp [List.intercalate]]
    constructor
    · intro h; exact ⟨[ls], .cons h .nil, by simp⟩
    · rintro ⟨lss, h, rfl⟩
      cases h with
      | cons h1 h2 => cases h2; simpa using h1
  | cons q ps ih =>
    intro p hd ls
    rw [show ['.'].intercalate (p :: q :: ps) = p ++ '.' :: ['.'].intercalate (q :: ps) by simp [List.intercalate]]
    rw [dotless_append_iff H (hd p (by simp))]
    constructor
    · rintro ⟨a, b, rfl, h1, h2⟩
      obtain ⟨lss, h3, rfl⟩ := (ih q (fun r hr => hd r (by simp [hr])) b).1 h2
      exact ⟨a :: lss, .cons h1 h3, by simp⟩
    · rintro ⟨lss, h, rfl⟩
      cases h with
      | @cons _ a _ lss h1 h2 =>
        exact ⟨a, lss.flatten, by simp, h1, (ih q (fun r hr => hd r (by simp [hr])) _).2 ⟨lss, h2, rfl⟩⟩

/-- rows of names are cut in exactly one way, and all other words raise `ValueError` -/
theorem decompose_spec (H : Names names) (w : Str) : (∀ ls, decompose names w = .ok ls ↔ Cut names w ls) ∧
    ((¬ ∃ ls, Cut names w ls) → decompose names w = .error .valueError) := by
  obtain ⟨p, ps, h1, h2, h3, h4, h5⟩ := splitOn_spec w
  have hcut := cut_intercalate H ps p h2
  rw [← h3] at hcut
  set F : Str → List Str := fun q => findNames names q.length q with hF
  have key : ∀ q ∈ p :: ps, ((F q).map List.length).sum ≤ q.length ∧ (((F q).map List.length).sum = q.length → Cut names q (F q)) ∧
      (∀ ls, Cut names q ls → ls = F q ∧ ((F q).map List.length).sum = q.length) :=
    fun q hq => findNames_spec H q.length q (le_refl _) (h2 q hq)
  have hsum : ∀ qs : List Str, (∀ q ∈ qs, ((F q).map List.length).sum ≤ q.length) →
      ((qs.flatMap F).map List.length).sum ≤ (qs.map List.length).sum ∧
      (((qs.flatMap F).map List.length).sum = (qs.map List.length).sum ↔ ∀ q ∈ qs, ((F q).map List.length).sum = q.length) := by
    intro qs
    induction qs with
    | nil => intro _; simp
    | cons q qs ih =>
      intro hq
      obtain ⟨i1, i2⟩ := ih (fun r hr => hq r (by simp [hr]))
      have := hq q (by simp)
      simp only [List.flatMap_cons, List.map_append, List.sum_append, List.map_cons, List.sum_cons, List.forall_mem_cons]
      refine ⟨by omega, ?_⟩
      rw [← i2]
      omega
  obtain ⟨s1, s2⟩ := hsum (p :: ps) (fun q hq => (key q hq).1)
  have hdec : decompose names w = if (((p :: ps).flatMap F).map List.length).sum + ps.length < ((p :: ps).map List.length).sum + ps.length then .error .valueError
      else .ok ((p :: ps).flatMap F) := by
    unfold decompose
    rw [h1, h5, h4]
  have hall : ∀ ls, Cut names w ls ↔ ls = (p :: ps).flatMap F ∧ ∀ q ∈ p :: ps, ((F q).map List.length).sum = q.length := by
    intro ls
    rw [hcut ls]
    constructor
    · rintro ⟨lss, hl, rfl⟩
      have : lss = (p :: ps).map F ∧ ∀ q ∈ p :: ps, ((F q).map List.length).sum = q.length := by
        clear h1 h3 h4 h5 hcut s1 s2 hdec h2
        generalize p :: ps = qs at hl key
        induction hl with
        | nil => simp
        | cons a b ih =>
          obtain ⟨x1, x2⟩ := (key _ (by simp)).2.2 _ a
          obtain ⟨y1, y2⟩ := ih (fun q hq => key q (by simp [hq]))
          refine ⟨by rw [x1, y1]; rfl, fun q hq => ?_⟩
          rcases List.mem_cons.1 hq with h | h
          · rw [h]; exact x2
          · exact y2 q h
      exact ⟨by rw [this.1]; rfl, this.2⟩
    · rintro ⟨rfl, hq⟩
      refine ⟨(p :: ps).map F, ?_, rfl⟩
      rw [List.forall₂_map_right_iff]
      exact List.forall₂_same.2 (fun q hq' => (key q hq').2.1 (hq q hq'))
  by_cases he : ∀ q ∈ p :: ps, ((F q).map List.length).sum = q.length
  · have := s2.2 he
    rw [if_neg (by omega)] at hdec
    refine ⟨fun ls => ?_, fun h => absurd ⟨_, (hall _).2 ⟨rfl, he⟩⟩ h⟩
    rw [hdec, hall]
    exact ⟨fun h => ⟨(Except.ok.inj h).symm, he⟩, fun h => by rw [h.1]⟩
  · have : ¬ (((p :: ps).flatMap F).map List.length).sum = ((p :: ps).map List.length).sum := fun h => he (s2.1 h)
    rw [if_pos (by omega)] at hdec
    refine ⟨fun ls => ?_, fun _ => hdec⟩
    rw [hdec, hall]
    constructor
    · intro h; cases h
    · intro h; exact absurd h.2 he

/-! ### the stack machine, with lists instead of straight line programs -/

/-- the loop over the tokens with lists -/
def runV (names : List Str) : List Token → List (List (List Str)) → Py (List (List (List Str)))
  | [], stack => .ok stack
  | .int _ :: ts, stack => runV names ts stack
  | .caret :: ts, stack =>
    match ts with
    | .int power :: _ =>
      match stack with
      | [] => .error .indexError
      | top :: stack =>
        match top.getLast? with
        | none => .error .indexError
        | some p => runV names ts ((top.dropLast ++ [powLetters p power]) :: stack)
    | _ => .error .valueError
  | .opening :: ts, stack => runV names ts ([] :: stack)
  | .closing :: ts, stack =>
    match stack with
    | top :: below :: stack => runV names ts ((below ++ [top.flatten]) :: stack)
    | _ => .error .valueError
  | .word w :: ts, stack =>
    match stack with
    | [] => .error .indexError
    | top :: stack => do
      let letters ← decompose names w
      runV names ts ((top ++ [letters]) :: stack)

/-- a straight line program stands for a list -/
def Stands (p : SLP Str) (l : List Str) : Prop := p.Constructed ∧ p.Lists l

/-- the stacks match -/
def Match (st : List (List (SLP Str))) (sv : List (List (List Str))) : Prop := List.Forall₂ (List.Forall₂ Stands) st sv

theorem stands_pow {p : SLP Str} {l : List Str} (h : Stands p l) (n : Int) :
    ∃ q, p.mul (n.natAbs : Int) = .ok q ∧ (¬ n < 0 → Stands q (powLetters l n)) ∧
      (n < 0 → ∃ r r', q.reverse = .ok r ∧ r.map Str.swapcase = .ok r' ∧ Stands r' (powLetters l n)) := by
  obtain ⟨q, h1, h2, h3⟩ := SLP.mul_ok h.1 h.2 (n := (n.natAbs : Int)) (by omega)
  rw [Int.toNat_natCast] at h3
  refine ⟨q, h1, fun hn => ⟨h2, ?_⟩, fun hn => ?_⟩
  · unfold powLetters; rw [if_neg hn]; exact h3
  · obtain ⟨r, k1, k2, k3⟩ := SLP.reverse_ok h2 h3
    obtain ⟨r', l1, l2, l3⟩ := SLP.map_ok Str.swapcase k2 k3
    refine ⟨r, r', k1, l1, l2, ?_⟩
    unfold powLetters invLetters; rw [if_pos hn]; exact l3

theorem forall₂_snoc {α β : Type} {R : α → β → Prop} {as : List α} {bs : List β} {a : α} {b : β} (h : List.Forall₂ R as bs) (hab : R a b) :
    List.Forall₂ R (as ++ [a]) (bs ++ [b]) := by
  induction h with
  | nil => exact .cons hab .nil
  | cons h1 h2 ih => exact .cons h1 ih

theorem forall₂_last {α β : Type} {R : α → β → Prop} {as : List α} {bs : List β} (h : List.Forall₂ R as bs) :
    (as = [] ∧ bs = []) ∨ ∃ a as' b bs', as = as' ++ [a] ∧ bs = bs' ++ [b] ∧ List.Forall₂ R as' bs' ∧ R a b := by
  induction h with
  | nil => exact .inl ⟨rfl, rfl⟩
  | @cons x y xs ys h1 h2 ih =>
    right
    rcases ih with ⟨e1, e2⟩ | ⟨a, as', b, bs', e1, e2, h3, h4⟩
    · subst e1 e2; exact ⟨x, [], y, [], rfl, rfl, .nil, h1⟩
    · subst e1 e2; exact ⟨a, x :: as', b, y :: bs', rfl, rfl, .cons h1 h3, h4⟩

/-- the loop over the tokens does the same with straight line programs and with lists -/
theorem run_spec (ts : List Token) : ∀ (st : List (List (SLP Str))) (sv : List (List (List Str))), Match st sv →
    (∀ sv', runV names ts sv = .ok sv' → ∃ st', run names ts st = .ok st' ∧ Match st' sv') ∧
    ∀ e, runV names ts sv = .error e → run names ts st = .error e := by
  induction ts with
  | nil =>
    intro st sv h
    refine ⟨fun sv' hs => ?_, fun e he => ?_⟩
    · simp only [runV] at hs; cases hs; exact ⟨st, rfl, h⟩
    · simp only [runV] at he; cases he
  | cons t ts ih =>
    intro st sv h
    cases t with
    | int n => simpa only [run, runV] using ih st sv h
    | opening => simpa only [run, runV] using ih ([] :: st) ([] :: sv) (.cons .nil h)
    | closing =>
      cases h with
      | nil => exact ⟨fun _ h => (by cases h), fun e h => (by cases h; rfl)⟩
      | cons h1 h2 =>
        cases h2 with
        | nil => exact ⟨fun _ h => (by cases h), fun e h => (by cases h; rfl)⟩
        | @cons b bv st sv h2 h3 =>
          have hx := h1
          obtain ⟨p, p1, p2, p3⟩ := SLP.sum_ok (fun p hp => (by
            obtain ⟨i, hi, rfl⟩ := List.getElem_of_mem hp
            exact (h1.get hi (by rw [← h1.length_eq]; exact hi)).1)) (h1.imp fun _ _ h => h.2)
          simp only [run, runV, p1, py_bind_ok]
          exact ih _ _ (.cons (forall₂_snoc h2 ⟨p2, p3⟩) h3)
    | word w =>
      cases h with
      | nil => exact ⟨fun _ h => (by cases h), fun e h => (by cases h; rfl)⟩
      | @cons a av st sv h1 h2 =>
        simp only [run, runV]
        cases hd : decompose names w with
        | error e => exact ⟨fun _ h => (by cases h), fun e h => (by cases h; rfl)⟩
        | ok ls =>
          obtain ⟨p, p1, p2, p3⟩ := SLP.ofValues_ok ls
          simp only [py_bind_ok, p1]
          exact ih _ _ (.cons (forall₂_snoc h1 ⟨p2, p3⟩) h2)
    | caret =>
      simp only [run, runV]
      cases ts with
      | nil => exact ⟨fun _ h => (by cases h), fun e h => (by cases h; rfl)⟩
      | cons u us =>
        cases u with
        | int n =>
          cases h with
          | nil => exact ⟨fun _ h => (by cases h), fun e h => (by cases h; rfl)⟩
          | @cons a av st sv h1 h2 =>
            rcases forall₂_last h1 with ⟨e1, e2⟩ | ⟨p, as, l, bs, e1, e2, h3, h4⟩
            · subst e1 e2
              exact ⟨fun _ h => (by cases h), fun e h => (by cases h; rfl)⟩
            · subst e1 e2
              simp only [List.getLast?_append, List.getLast?_singleton, Option.some_or, List.dropLast_concat]
              obtain ⟨q, q1, q2, q3⟩ := stands_pow h4 n
              rw [q1, py_bind_ok]
              by_cases hn : n < 0
              · obtain ⟨r, r', k1, k2, k3⟩ := q3 hn
                rw [if_pos hn, k1, py_bind_ok, k2, py_bind_ok]
                exact ih _ _ (.cons (forall₂_snoc h3 k3) h2)
              · rw [if_neg hn]
                exact ih _ _ (.cons (forall₂_snoc h3 (q2 hn)) h2)
        | caret => exact ⟨fun _ h => (by cases h), fun e h => (by cases h; rfl)⟩
        | opening => exact ⟨fun _ h => (by cases h), fun e h => (by cases h; rfl)⟩
        | closing => exact ⟨fun _ h => (by cases h), fun e h => (by cases h; rfl)⟩
        | word w => exact ⟨fun _ h => (by cases h), fun e h => (by cases h; rfl)⟩

/-! ### what the stack machine accepts -/

theorem runV_reads (H : Names names) {us : List Token} {ws : List (List Str)} (h : Reads names us ws) :
    ∀ (ts : List Token) (top : List (List Str)) (st : List (List (List Str))),
      runV names (us ++ ts) (top :: st) = runV names ts ((top ++ ws) :: st) := by
  induction h with
  | nil => intro ts top st; simp
  | int us vs n h ih =>
    intro ts top st
    rw [List.append_assoc, ih]; rfl
  | word us vs w ls h hc ih =>
    intro ts top st
    rw [List.append_assoc, ih, List.singleton_append, runV, ((decompose_spec H w).1 ls).2 hc, py_bind_ok, List.append_assoc]
  | group us vs us' ws h h' ih ih' =>
    intro ts top st
    rw [List.append_assoc, List.append_assoc, List.append_assoc, ih, List.singleton_append, runV, ih', List.singleton_append, List.nil_append, runV,
      List.append_assoc]
  | power us vs v n h ih =>
    intro ts top st
    rw [List.append_assoc, ih]
    simp only [List.cons_append, List.nil_append, runV]
    rw [← List.append_assoc]
    simp only [List.getLast?_append, List.getLast?_singleton, Option.some_or, List.dropLast_concat]
    rw [List.append_assoc]

/-- the tokens read so far and the stack they give -/
inductive Opened (names : List Str) : List Token → List (List (List Str)) → Prop
  | base (ts vs) : Reads names ts vs → Opened names ts [vs]
  | opening (ts st us vs) : Opened names ts st → Reads names us vs → Opened names (ts ++ [.opening] ++ us) (vs :: st)

/-- extending the top of the stack -/
theorem Opened.extend {ts : List Token} {top : List (List Str)} {st : List (List (List Str))} (h : Opened names ts (top :: st)) {us : List Token}
    {top' : List (List Str)} (hr : ∀ ts, Reads names ts top → Reads names (ts ++ us) top') : Opened names (ts ++ us) (top' :: st) := by
  generalize he : top :: st = st' at h
  cases h with
  | base ts vs h => cases he; exact .base _ _ (hr _ h)
  | opening ts st us' vs h h' =>
    cases he
    rw [List.append_assoc]
    exact .opening _ _ _ _ h (hr _ h')

theorem runV_opened (H : Names names) : ∀ (n : Nat) (ts : List Token), ts.length ≤ n → ∀ (us : List Token) (st st' : List (List (List Str))),
    Opened names us st → runV names ts st = .ok st' → Opened names (us ++ ts) st' := by
  intro n
  induction n with
  | zero =>
    intro ts hts us st st' h hr
    have : ts = [] := List.length_eq_zero_iff.1 (by omega)
    subst this
    simp only [runV] at hr
    cases hr; simpa using h
  | succ n ih =>
    intro ts hts us st st' h hr
    cases ts with
    | nil => simp only [runV] at hr; cases hr; simpa using h
    | cons t ts =>
      have hl : ts.length ≤ n := by simp at hts; omega
      have hne : ∃ top rest, st = top :: rest := by
        cases h with
        | base => exact ⟨_, _, rfl⟩
        | opening => exact ⟨_, _, rfl⟩
      obtain ⟨top, rest, rfl⟩ := hne
      cases t with
      | int m =>
        simp only [runV] at hr
        have := ih ts hl (us ++ [.int m]) _ _ (h.extend fun ts h => .int _ _ _ h) hr
        simpa using this
      | word w =>
        simp only [runV] at hr
        rw [py_bind_eq_ok] at hr
        obtain ⟨ls, h1, h2⟩ := hr
        have := ih ts hl (us ++ [.word w]) _ _ (h.extend fun ts h => .word _ _ _ _ h (((decompose_spec H w).1 ls).1 h1)) h2
        simpa using this
      | opening =>
        simp only [runV] at hr
        have := ih ts hl (us ++ [.opening]) _ _ (by simpa using Opened.opening us _ [] [] h .nil) hr
        simpa using this
      | closing =>
        cases rest with
        | nil => simp only [runV] at hr; cases hr
        | cons below rest =>
          simp only [runV] at hr
          have hc : Opened names (us ++ [.closing]) ((below ++ [top.flatten]) :: rest) := by
            generalize he : top :: below :: rest = st at h
            cases h with
            | base ts vs h => cases he
            | opening us st us' vs h h' =>
              cases he
              have := h.extend (us := [.opening] ++ us' ++ [.closing]) (top' := below ++ [top.flatten]) (fun ts hts => by
                have := Reads.group ts below us' top hts h'
                simpa using this)
              simpa using this
          have := ih ts hl (us ++ [.closing]) _ _ hc hr
          simpa using this
      | caret =>
        simp only [runV] at hr
        cases ts with
        | nil => cases hr
        | cons u ts =>
          cases u with
          | int m =>
            rcases List.eq_nil_or_concat top with e | ⟨vs, v, e⟩
            · subst e; cases hr
            · rw [List.concat_eq_append] at e
              subst e
              simp only [List.getLast?_append, List.getLast?_singleton, Option.some_or, List.dropLast_concat, runV] at hr
              have := ih ts (by simp at hl; omega) (us ++ [.caret, .int m]) _ _ (h.extend fun ts h => .power _ _ _ _ h) hr
              simpa using this
          | caret => cases hr
          | opening => cases hr
          | closing => cases hr
          | word w => cases hr

theorem runV_iff (H : Names names) (ts : List Token) (vs : List (List Str)) : runV names ts [[]] = .ok [vs] ↔ Reads names ts vs := by
  constructor
  · intro h
    have := runV_opened H ts.length ts (le_refl _) [] [[]] _ (.base _ _ .nil) h
    rw [List.nil_append] at this
    generalize he : [vs] = st at this
    cases this with
    | base _ _ h => cases he; exact h
    | opening ts st us vs h h' => cases he; cases h
  · intro h
    have := runV_reads H h [] [] []
    simpa [runV] using this

/-- the errors of the loop -/
theorem runV_error (H : Names names) (ts : List Token) : ∀ st e, st ≠ [] → runV names ts st = .error e → e = .valueError ∨ e = .indexError := by
  induction ts with
  | nil => intro st e _ h; simp only [runV] at h; cases h
  | cons t ts ih =>
    intro st e hst h
    cases t with
    | int n => simp only [runV] at h; exact ih st e hst h
    | opening => simp only [runV] at h; exact ih _ e (by simp) h
    | closing =>
      simp only [runV] at h
      split at h
      · exact ih _ e (by simp) h
      · cases h; exact .inl rfl
    | word w =>
      simp only [runV] at h
      cases st with
      | nil => exact absurd rfl hst
      | cons top st =>
        dsimp only at h
        cases hd : decompose names w with
        | ok ls => rw [hd, py_bind_ok] at h; exact ih _ e (by simp) h
        | error e' =>
          rw [hd] at h
          cases h
          left
          by_cases hc : ∃ ls, Cut names w ls
          · obtain ⟨ls, hc⟩ := hc
            rw [((decompose_spec H w).1 ls).2 hc] at hd; cases hd
          · rw [(decompose_spec H w).2 hc] at hd; cases hd; rfl
    | caret =>
      simp only [runV] at h
      split at h
      · split at h
        · cases h; exact .inr rfl
        · split at h
          · cases h; exact .inr rfl
          · exact ih _ e (by simp) h
      · cases h; exact .inl rfl

end Parser
end Curver
