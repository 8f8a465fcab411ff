import Verif.Spec.Encoding
import Verif.Proofs.Legal
import Verif.Proofs.Canonical

namespace Curver
open Triangulation

@[simp] theorem Triangulation.eq_iff {S T : Triangulation} : S.eq T = true ↔ S = T := by
  unfold Triangulation.eq
  rw [beq_iff_eq]
  constructor
  · intro h
    have : ∀ l l' : List Tri, l.flatMap Tri.labels = l'.flatMap Tri.labels → l = l' := by
      intro l
      induction l with
      | nil => intro l' h; cases l' with
        | nil => rfl
        | cons t l' => simp [Tri.labels] at h
      | cons t l ih => intro l' h; cases l' with
        | nil => simp [Tri.labels] at h
        | cons t' l' =>
          simp only [List.flatMap_cons, Tri.labels, List.cons_append, List.nil_append, List.cons.injEq] at h
          obtain ⟨h1, h2, h3, h4⟩ := h
          rw [ih l' h4]
          cases t; cases t'; simp_all
    cases S; cases T
    simp only [Triangulation.mk.injEq]
    exact this _ _ h
  · rintro rfl; rfl

theorem Triangulation.eq_decide (S T : Triangulation) : S.eq T = decide (S = T) := by
  rw [Bool.eq_iff_iff, Triangulation.eq_iff, decide_eq_true_eq]

namespace Path
variable {S T U : Triangulation} {ms ns : List LMove}

theorem valid_source (h : Path S ms T) : S.Valid := by
  cases h with
  | nil T hT => exact hT
  | cons m ms T h hs => exact h.valid.1

theorem valid_target (h : Path S ms T) : T.Valid := by
  induction h with
  | nil T hT => exact hT
  | cons m ms T h hs ih => exact ih

theorem zeta (h : Path S ms T) : T.zeta = S.zeta := by
  induction h with
  | nil T hT => rfl
  | cons m ms T h hs ih => rw [ih, h.valid.2.2.1]

theorem append (h : Path S ms T) (h' : Path T ns U) : Path S (ms ++ ns) U := by
  induction h with
  | nil T hT => exact h'
  | cons m ms T h hs ih => exact .cons m _ _ h (ih h')

theorem split (h : Path S (ms ++ ns) U) : ∃ T, Path S ms T ∧ Path T ns U := by
  induction ms generalizing S with
  | nil => exact ⟨S, .nil S h.valid_source, h⟩
  | cons m ms ih =>
    cases h with
    | cons _ _ _ h hs =>
      obtain ⟨T, h1, h2⟩ := ih hs
      exact ⟨T, .cons m ms T h h1, h2⟩

theorem single {m : LMove} (h : m.Legal) : Path m.move.source [m] m.move.target := .cons m [] _ h (.nil _ h.valid.2.1)

theorem eq_of_nil (h : Path S [] T) : S = T := by cases h; rfl

theorem single_iff {m : LMove} : Path S [m] T ↔ m.Legal ∧ S = m.move.source ∧ T = m.move.target := by
  constructor
  · intro h
    cases h with
    | cons _ _ _ h hs => exact ⟨h, rfl, hs.eq_of_nil.symm⟩
  · rintro ⟨h, rfl, rfl⟩; exact single h

theorem cons_iff {m : LMove} : Path S (m :: ms) T ↔ m.Legal ∧ S = m.move.source ∧ Path m.move.target ms T := by
  constructor
  · intro h
    cases h with
    | cons _ _ _ h hs => exact ⟨h, rfl, hs⟩
  · rintro ⟨h, rfl, h'⟩; exact .cons m ms T h h'

theorem concat_iff {m : LMove} : Path S (ms ++ [m]) T ↔ m.Legal ∧ T = m.move.target ∧ Path S ms m.move.source := by
  constructor
  · intro h
    obtain ⟨U, h1, h2⟩ := h.split
    obtain ⟨h3, rfl, rfl⟩ := single_iff.1 h2
    exact ⟨h3, rfl, h1⟩
  · rintro ⟨h, rfl, h'⟩; exact h'.append (single h)

theorem legal (h : Path S ms T) : ∀ m ∈ ms, m.Legal := by
  induction h with
  | nil T hT => simp
  | cons m ms T h hs ih => simpa using ⟨h, ih⟩

theorem inverse (h : Path S ms T) : Path T (ms.reverse.map LMove.inverse) S := by
  induction h with
  | nil T hT => exact .nil T hT
  | cons m ms T h hs ih =>
    simp only [List.reverse_cons, List.map_append, List.map_cons, List.map_nil]
    rw [concat_iff]
    exact ⟨h.inverse, h.valid.2.2.2.2.symm, by rw [h.valid.2.2.2.1]; exact ih⟩

theorem target_unique (h : Path S ms T) (h' : Path S ms U) : T = U := by
  induction ms generalizing S with
  | nil => rw [← h.eq_of_nil, h'.eq_of_nil]
  | cons m ms ih => exact ih (cons_iff.1 h).2.2 (cons_iff.1 h').2.2

end Path

section
variable {R : Type} [CommRing R] [LinearOrder R] [Halvable R]

theorem performLam_append (ms ns : List LMove) (L : Lam R) :
    performLam (ms ++ ns) L = (do let L' ← performLam ms L; performLam ns L') := by
  induction ms generalizing L with
  | nil => rfl
  | cons m ms ih =>
    simp only [List.cons_append, performLam]
    cases m.move.applyLam L with
    | error e => rfl
    | ok L' => simp only [py_bind_ok]; exact ih L'

theorem foldlM_performLam (ms : List LMove) (L : Lam R) :
    ms.foldlM (fun L m => m.move.applyLam L) L = performLam ms L := by
  induction ms generalizing L with
  | nil => rfl
  | cons m ms ih =>
    simp only [List.foldlM_cons, performLam]
    cases m.move.applyLam L with
    | error e => rfl
    | ok L' => simp only [py_bind_ok]; exact ih L'

theorem performHom_append (ms ns : List LMove) (x : Hom) :
    performHom (ms ++ ns) x = (do let y ← performHom ms x; performHom ns y) := by
  induction ms generalizing x with
  | nil => rfl
  | cons m ms ih =>
    simp only [List.cons_append, performHom]
    cases m.move.applyHom x with
    | error e => rfl
    | ok L' => simp only [py_bind_ok]; exact ih L'

theorem foldlM_performHom (ms : List LMove) (x : Hom) :
    ms.foldlM (fun x m => m.move.applyHom x) x = performHom ms x := by
  induction ms generalizing x with
  | nil => rfl
  | cons m ms ih =>
    simp only [List.foldlM_cons, performHom]
    cases m.move.applyHom x with
    | error e => rfl
    | ok L' => simp only [py_bind_ok]; exact ih L'

variable [IsStrictOrderedRing R]

theorem Path.performLam {S T : Triangulation} {ms : List LMove} (h : Path S ms T) {L L' : Lam R} (hL : L.WellFormed) (ht : L.tri = S)
    (ha : performLam ms L = .ok L') : L'.tri = T ∧ L'.WellFormed ∧ L'.cls = L.cls ∧
      Curver.performLam (ms.reverse.map LMove.inverse) L' = .ok L := by
  induction h generalizing L with
  | nil T hT => cases ha; exact ⟨ht, hL, rfl, rfl⟩
  | cons m ms T h hs ih =>
    simp only [Curver.performLam, py_bind_eq_ok] at ha
    obtain ⟨K, h1, h2⟩ := ha
    obtain ⟨k1, k2, k3, k4⟩ := h.applyLam hL ht h1
    obtain ⟨l1, l2, l3, l4⟩ := ih k2 k1 h2
    refine ⟨l1, l2, l3.trans k3, ?_⟩
    simp only [List.reverse_cons, List.map_append, List.map_cons, List.map_nil, performLam_append, l4, py_bind_ok,
      Curver.performLam, k4]

theorem Path.performLam_total {S T : Triangulation} {ms : List LMove} (h : Path S ms T) {L : Lam R} (hL : L.Consistent) (ht : L.tri = S) :
    ∃ L', Curver.performLam ms L = .ok L' ∧ L'.tri = T ∧ L'.Consistent ∧ L'.cls = L.cls := by
  induction h generalizing L with
  | nil T hT => exact ⟨L, rfl, ht, hL, rfl⟩
  | cons m ms T h hs ih =>
    obtain ⟨K, h1, h2, h3, h4⟩ := h.applyLam_total hL ht
    obtain ⟨L', k1, k2, k3, k4⟩ := ih h3 h2
    exact ⟨L', by simp only [Curver.performLam, h1, py_bind_ok, k1], k2, k3, k4.trans h4⟩

omit [CommRing R] [LinearOrder R] [Halvable R] [IsStrictOrderedRing R] in
theorem Path.performHom {S T : Triangulation} {ms : List LMove} (h : Path S ms T) {x : Hom} (hx : x.WellFormed) (ht : x.tri = S) :
    ∃ x', Curver.performHom ms x = .ok x' ∧ x'.tri = T ∧ x'.WellFormed := by
  induction h generalizing x with
  | nil T hT => exact ⟨x, rfl, ht, hx⟩
  | cons m ms T h hs ih =>
    obtain ⟨y, h1, h2, h3⟩ := h.applyHom hx ht
    obtain ⟨z, k1, k2, k3⟩ := ih h3 h2
    exact ⟨z, by simp only [Curver.performHom, h1, py_bind_ok, k1], k2, k3⟩

omit [CommRing R] [LinearOrder R] [Halvable R] [IsStrictOrderedRing R] in
theorem Path.homologous_iff {S T : Triangulation} {ms : List LMove} (h : Path S ms T) {x y x' y' : Hom} (hx : x.WellFormed)
    (hy : y.WellFormed) (tx : x.tri = S) (ty : y.tri = S) (ax : Curver.performHom ms x = .ok x')
    (ay : Curver.performHom ms y = .ok y') : x'.Homologous y' ↔ x.Homologous y := by
  induction h generalizing x y with
  | nil T hT => cases ax; cases ay; rfl
  | cons m ms T h hs ih =>
    obtain ⟨x₁, h1, h2, h3⟩ := h.applyHom hx tx
    obtain ⟨y₁, k1, k2, k3⟩ := h.applyHom hy ty
    simp only [Curver.performHom, h1, py_bind_ok] at ax
    simp only [Curver.performHom, k1, py_bind_ok] at ay
    rw [ih h3 k3 h2 k2 ax ay, h.homologous_iff hx hy tx ty h1 k1]

omit [CommRing R] [LinearOrder R] [Halvable R] [IsStrictOrderedRing R] in
theorem Path.hom_back {S T : Triangulation} {ms : List LMove} (h : Path S ms T) {x x' : Hom} (hx : x.WellFormed)
    (tx : x.tri = S) (ax : Curver.performHom ms x = .ok x') :
    ∃ y, Curver.performHom (ms.reverse.map LMove.inverse) x' = .ok y ∧ x.Homologous y := by
  induction h generalizing x with
  | nil T hT => cases ax; exact ⟨_, rfl, Hom.Homologous.refl _⟩
  | cons m ms T h hs ih =>
    obtain ⟨x₁, h1, h2, h3⟩ := h.applyHom hx tx
    simp only [Curver.performHom, h1, py_bind_ok] at ax
    obtain ⟨y, k1, k2⟩ := ih h3 h2 ax
    obtain ⟨z, l1, l2⟩ := h.hom_back hx tx h1
    have hy : y.tri = m.move.target := by rw [← k2.1, h2]
    obtain ⟨x'', p1, p2, p3⟩ := hs.performHom h3 h2
    cases ax.symm.trans p1
    obtain ⟨y', q1, q2, q3⟩ := hs.inverse.performHom p3 p2
    cases k1.symm.trans q1
    have hm := h.valid.2.2.2.1
    obtain ⟨w, r1, r2, r3⟩ := h.inverse.applyHom q3 (by rw [hm]; exact q2)
    refine ⟨w, ?_, ?_⟩
    · simp only [List.reverse_cons, List.map_append, List.map_cons, List.map_nil, performHom_append, k1, py_bind_ok,
        Curver.performHom, r1]
    · exact l2.trans ((h.inverse.homologous_iff h3 q3 (by rw [hm]; exact h2) (by rw [hm]; exact q2) l1 r1).2 k2)

end

namespace Enc

theorem trim_induct {P : List LMove → Prop} {s : List LMove} (h : P s)
    (hr : ∀ ms m, m.move.isIdentityIsometry = true → ms ≠ [] → P (ms ++ [m]) → P ms)
    (hl : ∀ m ms, m.move.isIdentityIsometry = true → ms ≠ [] → P (m :: ms) → P ms) : P (trim s) := by
  have key : ∀ s, P s → P (if droppable s s.getLast? then s.dropLast else s) := by
    intro s h
    split
    · rename_i hd
      unfold droppable at hd
      rw [Bool.and_eq_true, decide_eq_true_eq] at hd
      rcases s.eq_nil_or_concat with rfl | ⟨ms, m, rfl⟩
      · simp at hd
      · simp only [List.concat_eq_append, List.length_append, List.length_singleton, List.getLast?_append, List.getLast?_singleton,
          Option.some_or, Option.map_some, Option.getD_some] at hd
        rw [List.concat_eq_append, List.dropLast_concat]
        refine hr ms m hd.2 ?_ (by simpa using h)
        rintro rfl
        simp at hd
    · exact h
  have := key s h
  unfold trim
  generalize (if droppable s s.getLast? then s.dropLast else s) = s at this
  dsimp only
  split
  · rename_i hd
    unfold droppable at hd
    rw [Bool.and_eq_true, decide_eq_true_eq] at hd
    cases s with
    | nil => simp at hd
    | cons m ms =>
      simp only [List.head?_cons, Option.map_some, Option.getD_some] at hd
      refine hl m ms hd.2 ?_ this
      rintro rfl
      simp at hd
  · exact this

theorem trim_ne_nil {s : List LMove} (h : s ≠ []) : trim s ≠ [] :=
  trim_induct (P := fun s => s ≠ []) h (fun _ _ _ h _ => h) (fun _ _ _ h _ => h)

theorem path_trim {S T : Triangulation} {s : List LMove} (h : Path S s.reverse T) : Path S (trim s).reverse T := by
  refine trim_induct (P := fun s => Path S s.reverse T) h ?_ ?_
  · intro ms m hm _ h
    rw [List.reverse_append, List.reverse_singleton, List.singleton_append, Path.cons_iff] at h
    rw [h.2.1, (h.1.isIdentity hm).1]
    exact h.2.2
  · intro m ms hm _ h
    rw [List.reverse_cons, Path.concat_iff] at h
    rw [h.2.1, ← (h.1.isIdentity hm).1]
    exact h.2.2

theorem performLam_trim {R : Type} [CommRing R] [LinearOrder R] [IsStrictOrderedRing R] [Halvable R] {S T : Triangulation}
    {s : List LMove} (h : Path S s.reverse T) {L : Lam R} (hL : L.WellFormed) (ht : L.tri = S) :
    performLam (trim s).reverse L = performLam s.reverse L := by
  refine (trim_induct (P := fun s' => Path S s'.reverse T ∧ performLam s'.reverse L = performLam s.reverse L) ⟨h, rfl⟩ ?_ ?_).2
  · intro ms m hm _ h
    obtain ⟨h1, h2⟩ := h
    have h3 := path_trim h1
    rw [List.reverse_append, List.reverse_singleton, List.singleton_append] at h1 h2
    obtain ⟨k1, k2, k3⟩ := Path.cons_iff.1 h1
    refine ⟨by rw [k2, (k1.isIdentity hm).1]; exact k3, ?_⟩
    rw [← h2, performLam, k1.isIdentity_applyLam hm hL (ht.trans k2)]; rfl
  · intro m ms hm _ h
    obtain ⟨h1, h2⟩ := h
    rw [List.reverse_cons] at h1 h2
    obtain ⟨k1, k2, k3⟩ := Path.concat_iff.1 h1
    refine ⟨by rw [k2, ← (k1.isIdentity hm).1]; exact k3, ?_⟩
    rw [← h2, performLam_append]
    cases hp : performLam ms.reverse L with
    | error e => rfl
    | ok L' =>
      obtain ⟨l1, l2, l3, l4⟩ := k3.performLam hL ht hp
      rw [py_bind_ok, performLam, k1.isIdentity_applyLam hm l2 l1]; rfl

theorem performHom_trim {S T : Triangulation} {s : List LMove} (h : Path S s.reverse T) {x : Hom} (hx : x.WellFormed) (ht : x.tri = S) :
    performHom (trim s).reverse x = performHom s.reverse x := by
  refine (trim_induct (P := fun s' => Path S s'.reverse T ∧ performHom s'.reverse x = performHom s.reverse x) ⟨h, rfl⟩ ?_ ?_).2
  · intro ms m hm _ h
    obtain ⟨h1, h2⟩ := h
    rw [List.reverse_append, List.reverse_singleton, List.singleton_append] at h1 h2
    obtain ⟨k1, k2, k3⟩ := Path.cons_iff.1 h1
    refine ⟨by rw [k2, (k1.isIdentity hm).1]; exact k3, ?_⟩
    rw [← h2, performHom, k1.isIdentity_applyHom hm hx (ht.trans k2)]; rfl
  · intro m ms hm _ h
    obtain ⟨h1, h2⟩ := h
    rw [List.reverse_cons] at h1 h2
    obtain ⟨k1, k2, k3⟩ := Path.concat_iff.1 h1
    refine ⟨by rw [k2, ← (k1.isIdentity hm).1]; exact k3, ?_⟩
    rw [← h2, performHom_append]
    obtain ⟨y, l1, l2, l3⟩ := k3.performHom hx ht
    rw [l1, py_bind_ok, performHom, k1.isIdentity_applyHom hm l3 l2]; rfl

/-- the value of the constructor on a sequence of moves that fit together -/
theorem create_eq {S T : Triangulation} {s : List LMove} (k : EncKind) (hs : s ≠ []) (h : Path S s.reverse T) :
    create k s = .ok ⟨k, trim s, S, T⟩ := by
  unfold create
  have h1 := trim_ne_nil hs
  have h2 := path_trim h
  have h3 : pyAssert (!s.isEmpty) = .ok () := by
    cases s with
    | nil => exact absurd rfl hs
    | cons => rfl
  rw [h3, py_bind_ok]
  dsimp only
  generalize trim s = t at h1 h2
  rcases t.eq_nil_or_concat with rfl | ⟨ms, m, rfl⟩
  · exact absurd rfl h1
  · cases hc : ms.concat m with
    | nil => simp at hc
    | cons a t =>
      rw [hc] at h2
      have e1 : (a :: t).getLast? = some m := by rw [← hc, List.concat_eq_append]; simp
      have e2 : m.move.source = S := by
        rw [← hc, List.concat_eq_append, List.reverse_append, List.reverse_singleton, List.singleton_append, Path.cons_iff] at h2
        exact h2.2.1.symm
      have e3 : a.move.target = T := by
        rw [List.reverse_cons, Path.concat_iff] at h2
        exact h2.2.1.symm
      rw [e1, List.head?_cons, ← e2, ← e3]; rfl

theorem legal_mk {S T : Triangulation} {s : List LMove} (k : EncKind) (hs : s ≠ []) (h : Path S s.reverse T)
    (hk : k = .mappingClass → S = T) : (Enc.mk k (trim s) S T).Legal := ⟨trim_ne_nil hs, path_trim h, hk⟩

section
variable {R : Type} [CommRing R] [LinearOrder R] [Halvable R]

theorem applyLam_eq (h : Enc) (L : Lam R) : h.applyLam L = if h.source = L.tri then performLam h.performed L else .error .valueError := by
  unfold applyLam performed
  rw [foldlM_performLam]
  rw [Triangulation.eq_decide]
  by_cases hs : h.source = L.tri <;> simp [hs]

omit [CommRing R] [LinearOrder R] [Halvable R] in
theorem applyHom_eq (h : Enc) (x : Hom) : h.applyHom x = if h.source = x.tri then performHom h.performed x else .error .valueError := by
  unfold applyHom performed
  rw [foldlM_performHom]
  rw [Triangulation.eq_decide]
  by_cases hs : h.source = x.tri <;> simp [hs]

end

/-- trimming changes nothing -/
theorem sameMap_trim {S T : Triangulation} {s : List LMove} (k k' : EncKind) (h : Path S s.reverse T) :
    SameMap ⟨k, trim s, S, T⟩ ⟨k', s, S, T⟩ := by
  refine ⟨rfl, rfl, ?_, ?_⟩
  · intro R _ _ _ _ L hL
    rw [applyLam_eq, applyLam_eq]
    by_cases ht : S = L.tri
    · rw [if_pos ht, if_pos ht]; exact performLam_trim h hL ht.symm
    · rw [if_neg ht, if_neg ht]
  · intro x hx
    rw [applyHom_eq, applyHom_eq]
    by_cases ht : S = x.tri
    · rw [if_pos ht, if_pos ht]; exact performHom_trim h hx ht.symm
    · rw [if_neg ht, if_neg ht]

theorem SameMap.symm {g h : Enc} (H : SameMap g h) : SameMap h g :=
  ⟨H.source.symm, H.target.symm, fun R _ _ _ _ L hL => (H.lam R L hL).symm, fun x hx => (H.hom x hx).symm⟩

theorem SameMap.trans {g h k : Enc} (H : SameMap g h) (K : SameMap h k) : SameMap g k :=
  ⟨H.source.trans K.source, H.target.trans K.target, fun R _ _ _ _ L hL => (H.lam R L hL).trans (K.lam R L hL),
    fun x hx => (H.hom x hx).trans (K.hom x hx)⟩

theorem SameMap.refl (g : Enc) : SameMap g g := ⟨rfl, rfl, fun _ _ _ _ _ _ _ => rfl, fun _ _ => rfl⟩

theorem isComposite_append {g h : Enc} (k : EncKind) (hh : h.Legal) (he : g.source = h.target) :
    IsComposite ⟨k, g.sequence ++ h.sequence, h.source, g.target⟩ g h := by
  refine ⟨rfl, rfl, ?_, ?_⟩
  · intro R _ _ _ _ L hL
    rw [applyLam_eq, applyLam_eq]
    by_cases ht : h.source = L.tri
    · rw [if_pos ht, if_pos ht]
      simp only [performed, List.reverse_append, performLam_append]
      cases hp : performLam h.sequence.reverse L with
      | error e => rfl
      | ok L' =>
        obtain ⟨l1, l2, l3, l4⟩ := hh.path.performLam hL ht.symm hp
        rw [py_bind_ok, py_bind_ok, applyLam_eq, if_pos (he.trans l1.symm)]; rfl
    · rw [if_neg ht, if_neg ht]; rfl
  · intro x hx
    rw [applyHom_eq, applyHom_eq]
    by_cases ht : h.source = x.tri
    · rw [if_pos ht, if_pos ht]
      simp only [performed, List.reverse_append, performHom_append]
      obtain ⟨y, l1, l2, l3⟩ := hh.path.performHom hx ht.symm
      have l1' := l1
      unfold performed at l1'
      rw [l1', py_bind_ok, py_bind_ok, applyHom_eq, if_pos (he.trans l2.symm)]; rfl
    · rw [if_neg ht, if_neg ht]; rfl

theorem IsComposite.congr {k k' g h : Enc} (H : SameMap k k') (K : IsComposite k' g h) : IsComposite k g h :=
  ⟨H.source.trans K.source, H.target.trans K.target, fun R _ _ _ _ L hL => (H.lam R L hL).trans (K.lam R L hL),
    fun x hx => (H.hom x hx).trans (K.hom x hx)⟩

/-- the kind of a product -/
def mulKind (g h : Enc) : EncKind :=
  if !(g.kind.isMapping && h.kind.isMapping) then .encoding else if g.target = h.source then .mappingClass else .mapping

theorem Legal.path_append {g h : Enc} (hg : g.Legal) (hh : h.Legal) (he : g.source = h.target) :
    Path h.source (g.sequence ++ h.sequence).reverse g.target := by
  rw [List.reverse_append]
  exact hh.path.append (he ▸ hg.path)

theorem mul_eq {g h : Enc} (hg : g.Legal) (hh : h.Legal) (he : g.source = h.target) :
    g.mul h = .ok ⟨mulKind g h, trim (g.sequence ++ h.sequence), h.source, g.target⟩ := by
  have hp := hg.path_append hh he
  have hn : g.sequence ++ h.sequence ≠ [] := by simp [hg.nonempty]
  unfold mul mulKind
  rw [create_eq _ hn hp, create_eq _ hn hp, create_eq _ hn hp, Triangulation.eq_decide, Triangulation.eq_decide]
  simp only [he, decide_true, Bool.not_true, Bool.false_eq_true, if_false]
  by_cases h1 : (g.kind.isMapping && h.kind.isMapping) = true
  · by_cases h2 : g.target = h.source <;> simp [h1, h2]
  · simp only [Bool.not_eq_true] at h1; simp [h1]

theorem inverse_eq {h : Enc} (hh : h.Legal) :
    h.inverse = .ok ⟨h.kind, trim (h.sequence.reverse.map LMove.inverse), h.target, h.source⟩ := by
  refine create_eq _ (by simpa using hh.nonempty) ?_
  rw [← List.map_reverse, List.reverse_reverse]
  have := hh.path.inverse
  rw [performed, List.reverse_reverse] at this
  exact this

theorem Legal.path_inverse {h : Enc} (hh : h.Legal) : Path h.target (h.sequence.reverse.map LMove.inverse).reverse h.source := by
  rw [← List.map_reverse, List.reverse_reverse]
  have := hh.path.inverse
  rw [performed, List.reverse_reverse] at this
  exact this

theorem trim_singleton (m : LMove) : trim [m] = [m] := by
  unfold trim droppable; simp

theorem _root_.Curver.LMove.Legal.encode {m : LMove} (h : m.Legal) :
    m.encode = .ok ⟨if m.move.source = m.move.target then .mappingClass else .mapping, [m], m.move.source, m.move.target⟩ := by
  have hp : Path m.move.source [m].reverse m.move.target := Path.single h
  unfold LMove.encode
  rw [create_eq _ (by simp) hp, py_bind_ok]
  unfold promote
  dsimp only
  rw [trim_singleton, create_eq _ (by simp) hp, create_eq _ (by simp) hp, trim_singleton]
  rw [Triangulation.eq_decide]
  by_cases h : m.move.source = m.move.target <;> simp [h]

theorem _root_.Curver.Triangulation.Valid.idEncoding {T : Triangulation} (hT : T.Valid) :
    ∃ m, T.idEncoding = .ok ⟨.mappingClass, [m], T, T⟩ ∧ m.Legal ∧ m.move.source = T ∧ m.move.target = T ∧
      m.move.isIdentityIsometry = true := by
  obtain ⟨m, h1, h2, h3, h4, h5⟩ := hT.idIsometry
  refine ⟨m, ?_, h2, h3, h4, h5⟩
  unfold Triangulation.idEncoding
  rw [h1, py_bind_ok, h2.encode, if_pos (h3.trans h4.symm), h3, h4]

/-- promotion of what the constructor gives -/
theorem create_promote {S T : Triangulation} {s : List LMove} (hs : s ≠ []) (h : Path S s.reverse T) :
    (do let e ← create .encoding s; e.promote) =
      .ok ⟨if S = T then .mappingClass else .mapping, trim (trim s), S, T⟩ := by
  rw [create_eq _ hs h, py_bind_ok]
  unfold promote
  dsimp only
  rw [create_eq _ (trim_ne_nil hs) (path_trim h), create_eq _ (trim_ne_nil hs) (path_trim h)]
  rw [Triangulation.eq_decide]
  by_cases h : S = T <;> simp [h]

theorem sameMap_trim_trim {S T : Triangulation} {s : List LMove} (k k' : EncKind) (h : Path S s.reverse T) :
    SameMap ⟨k, trim (trim s), S, T⟩ ⟨k', s, S, T⟩ := (sameMap_trim k k (path_trim h)).trans (sameMap_trim k k' h)

end Enc
end Curver
