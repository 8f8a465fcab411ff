import Verif.Proofs.Slice
import Verif.Props.Flips

/-!
# C14, C15, C16, C17, C46: composition, inverses, powers and slices of encodings, and `Triangulation.encode`

`Enc.Legal` describes the encodings that can be built from flips, multiflips and isometries; each operation is shown to
give legal encodings again.  `SameMap` and `IsComposite` (Spec/Encoding.lean) compare encodings as maps on all well formed
laminations and homology classes, including the errors raised.
-/

namespace Curver
open Triangulation

/-! ## C14 -/

/-- C14: when the triangulations match, `g * h` is defined and is the composite map. -/
theorem C14_composition (g h : Enc) (hg : g.Legal) (hh : h.Legal) (he : g.source = h.target) :
    ∃ k, g.mul h = .ok k ∧ k.Legal ∧ k.IsComposite g h := by
  obtain ⟨k, h1, h2, h3, _⟩ := Enc.mul_spec hg hh he
  exact ⟨k, h1, h2, h3⟩

/-- C14: the class of the product: a mapping class exactly when both are mappings and the product returns to its source. -/
theorem C14_class (g h k : Enc) (hg : g.Legal) (hh : h.Legal) (hk : g.mul h = .ok k) :
    (k.kind = .encoding ↔ g.kind = .encoding ∨ h.kind = .encoding) ∧
      (k.kind = .mappingClass ↔ g.kind ≠ .encoding ∧ h.kind ≠ .encoding ∧ g.target = h.source) := by
  by_cases he : g.source = h.target
  · obtain ⟨k', h1, _, _, h4⟩ := Enc.mul_spec hg hh he
    cases hk.symm.trans h1
    rw [h4]
    unfold Enc.mulKind
    cases hgk : g.kind <;> cases hhk : h.kind <;> simp [EncKind.isMapping] <;> split <;> simp_all
  · rw [Enc.mul, if_pos (by rw [Triangulation.eq_decide]; simpa using he)] at hk; cases hk

/-- C14: encodings over different triangulations do not compose. -/
theorem C14_compose_mismatch (g h : Enc) (he : g.source ≠ h.target) : g.mul h = .error .valueError := by
  rw [Enc.mul, if_pos (by rw [Triangulation.eq_decide]; simpa using he)]

/-- C14: an encoding does not apply to something on a triangulation other than its source. -/
theorem C14_apply_mismatch {R : Type} [CommRing R] [LinearOrder R] [Halvable R] (h : Enc) (L : Lam R) (x : Hom) :
    (h.source ≠ L.tri → h.applyLam L = .error .valueError) ∧ (h.source ≠ x.tri → h.applyHom x = .error .valueError) :=
  ⟨fun ht => by rw [Enc.applyLam_eq, if_neg ht], fun ht => by rw [Enc.applyHom_eq, if_neg ht]⟩

/-- C14: composition is associative, as maps. -/
theorem C14_associative (f g h : Enc) (hf : f.Legal) (hg : g.Legal) (hh : h.Legal) (h1 : f.source = g.target)
    (h2 : g.source = h.target) :
    ∃ fg gh l r, f.mul g = .ok fg ∧ fg.mul h = .ok l ∧ g.mul h = .ok gh ∧ f.mul gh = .ok r ∧ l.SameMap r := by
  obtain ⟨fg, a1, a2, a3, _⟩ := Enc.mul_spec hf hg h1
  obtain ⟨gh, b1, b2, b3, _⟩ := Enc.mul_spec hg hh h2
  obtain ⟨l, c1, c2, c3, _⟩ := Enc.mul_spec a2 hh (a3.source.trans h2)
  obtain ⟨r, d1, d2, d3, _⟩ := Enc.mul_spec hf b2 (h1.trans b3.target.symm)
  refine ⟨fg, gh, l, r, a1, c1, b1, d1, ?_, ?_, ?_, ?_⟩
  · rw [c3.source, d3.source, b3.source]
  · rw [c3.target, d3.target, a3.target]
  · intro R _ _ _ _ L hL
    rw [c3.lam R L hL, d3.lam R L hL, b3.lam R L hL]
    cases ha : h.applyLam L with
    | error e => rfl
    | ok L' => simp only [py_bind_ok]; exact a3.lam R L' (hh.undo hL ha).1
  · intro x hx
    rw [c3.hom x hx, d3.hom x hx, b3.hom x hx]
    cases ha : h.applyHom x with
    | error e => rfl
    | ok y =>
      simp only [py_bind_ok]
      rw [Enc.applyHom_eq] at ha
      split at ha
      · rename_i ht
        obtain ⟨y', l1, l2, l3⟩ := hh.path.performHom hx ht.symm
        cases ha.symm.trans l1
        exact a3.hom _ l3
      · cases ha

/-- C14: `id_encoding` is the identity map. -/
theorem C14_identity (T : Triangulation) (hT : T.Valid) :
    ∃ p, T.idEncoding = .ok p ∧ p.Legal ∧ p.kind = .mappingClass ∧ p.source = T ∧ p.target = T ∧
      (∀ (R : Type) [CommRing R] [LinearOrder R] [IsStrictOrderedRing R] [Halvable R] (L : Lam R), L.WellFormed → L.tri = T →
        p.applyLam L = .ok L) ∧ ∀ x : Hom, x.WellFormed → x.tri = T → p.applyHom x = .ok x := hT.idEncoding_spec

/-- C14: `id_encoding` is neutral on both sides. -/
theorem C14_neutral (h : Enc) (hh : h.Legal) :
    ∃ p q ph hq, h.target.idEncoding = .ok p ∧ h.source.idEncoding = .ok q ∧ p.mul h = .ok ph ∧ h.mul q = .ok hq ∧
      ph.SameMap h ∧ hq.SameMap h := by
  obtain ⟨p, p1, p2, p3, p4, p5, p6, p7⟩ := hh.path.valid_target.idEncoding_spec
  obtain ⟨q, q1, q2, q3, q4, q5, q6, q7⟩ := hh.path.valid_source.idEncoding_spec
  obtain ⟨ph, a1, a2, a3, _⟩ := Enc.mul_spec p2 hh p4
  obtain ⟨hq, b1, b2, b3, _⟩ := Enc.mul_spec hh q2 q5.symm
  refine ⟨p, q, ph, hq, p1, q1, a1, b1, ⟨a3.source, a3.target.trans p5, ?_, ?_⟩, ⟨b3.source.trans q4, b3.target, ?_, ?_⟩⟩
  · intro R _ _ _ _ L hL
    rw [a3.lam R L hL]
    cases ha : h.applyLam L with
    | error e => rfl
    | ok L' =>
      obtain ⟨l1, l2, _⟩ := hh.undo hL ha
      simp only [py_bind_ok]; exact p6 R L' l1 l2
  · intro x hx
    rw [a3.hom x hx]
    cases ha : h.applyHom x with
    | error e => rfl
    | ok y =>
      simp only [py_bind_ok]
      rw [Enc.applyHom_eq] at ha
      split at ha
      · rename_i ht
        obtain ⟨y', l1, l2, l3⟩ := hh.path.performHom hx ht.symm
        cases ha.symm.trans l1
        exact p7 _ l3 l2
      · cases ha
  · intro R _ _ _ _ L hL
    rw [b3.lam R L hL]
    by_cases ht : h.source = L.tri
    · rw [q6 R L hL ht.symm, py_bind_ok]
    · rw [Enc.applyLam_eq, Enc.applyLam_eq, q4, if_neg ht, if_neg ht]; rfl
  · intro x hx
    rw [b3.hom x hx]
    by_cases ht : h.source = x.tri
    · rw [q7 x hx ht.symm, py_bind_ok]
    · rw [Enc.applyHom_eq, Enc.applyHom_eq, q4, if_neg ht, if_neg ht]; rfl

/-- C14: the constructor accepts every non empty sequence of moves that fit together; whatever identity isometries it drops,
the map is that of performing all the given moves, from right to left. -/
theorem C14_constructor (S T : Triangulation) (seq : List LMove) (hne : seq ≠ []) (hs : Path S seq.reverse T) (k : EncKind)
    (hk : k = .mappingClass → S = T) :
    ∃ h, Enc.create k seq = .ok h ∧ h.Legal ∧ h.source = S ∧ h.target = T ∧ h.kind = k ∧
      (∀ (R : Type) [CommRing R] [LinearOrder R] [IsStrictOrderedRing R] [Halvable R] (L : Lam R), L.WellFormed → L.tri = S →
        h.applyLam L = performLam seq.reverse L) ∧
      ∀ x : Hom, x.WellFormed → x.tri = S → h.applyHom x = performHom seq.reverse x := by
  refine ⟨_, Enc.create_eq k hne hs, Enc.legal_mk k hne hs hk, rfl, rfl, rfl, ?_, ?_⟩
  · intro R _ _ _ _ L hL ht
    rw [Enc.applyLam_eq, if_pos ht.symm]; exact Enc.performLam_trim hs hL ht
  · intro x hx ht
    rw [Enc.applyHom_eq, if_pos ht.symm]; exact Enc.performHom_trim hs hx ht

/-- C14: an empty sequence is rejected. -/
theorem C14_empty (k : EncKind) : Enc.create k [] = .error .assertionError := rfl

/-! ## C15 -/

section
variable {R : Type} [CommRing R] [LinearOrder R] [IsStrictOrderedRing R] [Halvable R]

/-- C15: `~h` is defined, has the same class, and undoes `h` on every lamination on which `h` is defined, and vice versa. -/
theorem C15_inverse (h : Enc) (hh : h.Legal) :
    ∃ g, h.inverse = .ok g ∧ g.Legal ∧ g.kind = h.kind ∧ g.source = h.target ∧ g.target = h.source ∧
      (∀ L L' : Lam R, L.WellFormed → h.applyLam L = .ok L' → g.applyLam L' = .ok L) ∧
      ∀ L L' : Lam R, L.WellFormed → g.applyLam L = .ok L' → h.applyLam L' = .ok L :=
  ⟨_, Enc.inverse_eq hh, hh.inv', rfl, rfl, rfl, fun _ _ hL ha => (hh.undo hL ha).2.2.2, fun _ _ hL ha => (hh.undo' hL ha).2.2.2⟩

/-- C15: hence `h` is a bijection from the consistent laminations of its source to those of its target, with inverse `~h`. -/
theorem C15_bijection (h g : Enc) (hh : h.Legal) (hg : h.inverse = .ok g) :
    ∃ σ : LamOn R h.source ≃ LamOn R h.target, h.ActsLam σ ∧ g.ActsLam σ.symm := by
  cases hg.symm.trans (Enc.inverse_eq hh)
  exact hh.exists_actsLam

omit [CommRing R] [LinearOrder R] [IsStrictOrderedRing R] [Halvable R] in
/-- C15: and a bijection of first homology, with inverse `~h`. -/
theorem C15_homology (h g : Enc) (hh : h.Legal) (hg : h.inverse = .ok g) :
    ∃ τ : H1 h.source ≃ H1 h.target, h.ActsHom τ ∧ g.ActsHom τ.symm := by
  cases hg.symm.trans (Enc.inverse_eq hh)
  exact hh.exists_actsHom

/-- C15: `~~h` has the moves of `h`, when `h` has no identity isometries that the constructor would drop. -/
theorem C15_double_inverse (h : Enc) (hh : h.Legal) (hr : h.Reduced) :
    ∃ g, h.inverse = .ok g ∧ g.inverse = .ok h := by
  have h1 := (Enc.reduced_iff hh.nonempty).1 hr
  have hl : ∀ m ∈ h.sequence, m.Legal := fun m hm => hh.path.legal m (by simpa [Enc.performed] using hm)
  have h2 := Enc.trim_inverse hl (Enc.not_pair_of_reduced h1)
  rw [h1] at h2
  have e := Enc.inverse_eq hh
  rw [h2] at e
  refine ⟨_, e, ?_⟩
  have hi := hh.inv'
  unfold Enc.inv' at hi
  rw [h2] at hi
  rw [Enc.inverse_eq hi]
  have : LMove.inverse ∘ LMove.inverse = id := by funext m; rfl
  dsimp only
  rw [← List.map_reverse, List.reverse_reverse, List.map_map, this, List.map_id, h1]

/-- C15: in general `~~h` is the same map as `h`. -/
theorem C15_double_inverse_map (h : Enc) (hh : h.Legal) :
    ∃ g k, h.inverse = .ok g ∧ g.inverse = .ok k ∧ k.source = h.source ∧ k.target = h.target ∧
      ∀ L : LamOn R h.source, k.applyLam L.1 = h.applyLam L.1 := by
  obtain ⟨σ, h1, h2⟩ := hh.exists_actsLam (R := R)
  obtain ⟨ρ, h3, h4⟩ := hh.inv'.exists_actsLam (R := R)
  refine ⟨_, _, Enc.inverse_eq hh, Enc.inverse_eq hh.inv', rfl, rfl, ?_⟩
  have : ρ = σ.symm := Enc.ActsLam.unique h3 h2
  subst this
  intro L
  rw [h1 L]
  exact h4 L

/-- C15: `~(g * h)` and `~h * ~g` have the same moves, unless both are a single identity isometry. -/
theorem C15_product (g h k : Enc) (hg : g.Legal) (hh : h.Legal) (rg : g.Reduced) (rh : h.Reduced) (hk : g.mul h = .ok k)
    (hne : ¬ ∃ a b, g.sequence = [a] ∧ h.sequence = [b] ∧ a.move.isIdentityIsometry = true ∧ b.move.isIdentityIsometry = true) :
    ∃ k' g' h' l, k.inverse = .ok k' ∧ g.inverse = .ok g' ∧ h.inverse = .ok h' ∧ h'.mul g' = .ok l ∧ k'.sequence = l.sequence := by
  by_cases he : g.source = h.target
  swap
  · rw [C14_compose_mismatch g h he] at hk; cases hk
  obtain ⟨k₁, h1, hkl, _⟩ := Enc.mul_spec hg hh he
  cases hk.symm.trans h1
  cases hk.symm.trans (Enc.mul_eq hg hh he)
  have tg := (Enc.reduced_iff hg.nonempty).1 rg
  have th := (Enc.reduced_iff hh.nonempty).1 rh
  have lg : ∀ m ∈ g.sequence, m.Legal := fun m hm => hg.path.legal m (by simpa [Enc.performed] using hm)
  have lh : ∀ m ∈ h.sequence, m.Legal := fun m hm => hh.path.legal m (by simpa [Enc.performed] using hm)
  have ig := Enc.trim_inverse lg (Enc.not_pair_of_reduced tg)
  have ih := Enc.trim_inverse lh (Enc.not_pair_of_reduced th)
  rw [tg] at ig
  rw [th] at ih
  have hnp : ¬ ∃ a b, g.sequence ++ h.sequence = [a, b] ∧ a.move.isIdentityIsometry = true ∧ b.move.isIdentityIsometry = true := by
    rintro ⟨a, b, hab, ha, hb⟩
    have hg0 := hg.nonempty
    have hh0 := hh.nonempty
    cases hgs : g.sequence with
    | nil => exact hg0 hgs
    | cons c l =>
      cases hhs : h.sequence with
      | nil => exact hh0 hhs
      | cons d l' =>
        rw [hgs, hhs] at hab
        cases l with
        | nil =>
          simp only [List.cons_append, List.nil_append, List.cons.injEq] at hab
          obtain ⟨rfl, rfl, rfl⟩ := hab
          exact hne ⟨c, d, hgs, hhs, ha, hb⟩
        | cons c' l => simp at hab
  have iapp := Enc.trim_inverse (s := g.sequence ++ h.sequence) (by
    intro m hm
    rcases List.mem_append.1 hm with h | h
    · exact lg m h
    · exact lh m h) hnp
  have tt := Enc.trim_trim_append hg.nonempty hh.nonempty tg th
  have lt : ∀ m ∈ Enc.trim (g.sequence ++ h.sequence), m.Legal := fun m hm => hkl.path.legal m (by simpa [Enc.performed] using hm)
  have it := Enc.trim_inverse lt (Enc.not_pair_of_reduced tt)
  refine ⟨_, _, _, _, Enc.inverse_eq hkl, Enc.inverse_eq hg, Enc.inverse_eq hh, Enc.mul_eq hh.inv' hg.inv' ?_, ?_⟩
  · exact he.symm
  · change Enc.trim ((Enc.trim (g.sequence ++ h.sequence)).reverse.map LMove.inverse) =
      Enc.trim (Enc.trim (h.sequence.reverse.map LMove.inverse) ++ Enc.trim (g.sequence.reverse.map LMove.inverse))
    rw [it, tt, ig, ih, ← iapp]
    simp

end

/-! ## C16 -/

/-- C16: for every integer `k`, `h ** k` is a mapping class on the same triangulation and acts on consistent laminations as
the `k`-th power of the permutation given by `h` (so `h ** 0` is the identity, `h ** -1` is the inverse and
`h ** (j + k)` is `h ** j` after `h ** k`); and so does `h(L, power=k)`. -/
theorem C16_powers {R : Type} [CommRing R] [LinearOrder R] [IsStrictOrderedRing R] [Halvable R] (h : Enc) (hh : h.Legal)
    (hk : h.kind = .mappingClass) :
    ∃ σ : Equiv.Perm (LamOn R h.source), h.ActsLam σ ∧ ∀ k : Int, ∃ p, h.pow k = .ok p ∧ p.Legal ∧ p.kind = .mappingClass ∧
      p.source = h.source ∧ p.target = h.source ∧ p.ActsLam (σ ^ k) ∧
      ∀ L : LamOn R h.source, h.applyLamPow L.1 k = .ok ((σ ^ k) L).1 := by
  obtain ⟨σ, h1, h2⟩ := Enc.powers_lam (R := R) hh hk
  refine ⟨σ, h1, fun k => ?_⟩
  obtain ⟨p, k1, k2, k3, k4, k5, k6, _⟩ := Enc.pow_eq hh hk k
  refine ⟨p, k1, k2, k3, k4, k5, ?_, h2 k⟩
  intro L
  rw [k6 R L.1 L.2.1.1 L.2.2, h2 k L]

/-- C16: the same on homology. -/
theorem C16_powers_homology (h : Enc) (hh : h.Legal) (hk : h.kind = .mappingClass) :
    ∃ τ : Equiv.Perm (H1 h.source), h.ActsHom τ ∧ ∀ k : Int, ∃ p, h.pow k = .ok p ∧ p.ActsHom (τ ^ k) ∧
      ∀ x : HomOn h.source, ∃ y : HomOn h.source, h.applyHomPow x.1 k = .ok y.1 ∧ (τ ^ k) x.cls = y.cls := by
  obtain ⟨τ, h1, h2⟩ := Enc.powers_hom hh hk
  refine ⟨τ, h1, fun k => ?_⟩
  obtain ⟨p, k1, k2, k3, k4, k5, _, k7⟩ := Enc.pow_eq hh hk k
  refine ⟨p, k1, ?_, h2 k⟩
  intro x
  obtain ⟨y, h3, h4⟩ := h2 k x
  exact ⟨y, by rw [k7 x.1 x.2.1 x.2.2, h3], h4⟩

/-- C16: `h(x, power=k) == (h ** k)(x)` for every well formed lamination and homology class on the source, including the
errors raised on inconsistent laminations. -/
theorem C16_call_with_power (h : Enc) (hh : h.Legal) (hk : h.kind = .mappingClass) (k : Int) :
    ∃ p, h.pow k = .ok p ∧
      (∀ (R : Type) [CommRing R] [LinearOrder R] [IsStrictOrderedRing R] [Halvable R] (L : Lam R), L.WellFormed → L.tri = h.source →
        p.applyLam L = h.applyLamPow L k) ∧ ∀ x : Hom, x.WellFormed → x.tri = h.source → p.applyHom x = h.applyHomPow x k := by
  obtain ⟨p, k1, _, _, _, _, k6, k7⟩ := Enc.pow_eq hh hk k
  exact ⟨p, k1, k6, k7⟩

/-! ## C17 -/

/-- C17: for `0 <= i <= j <= len(h)` the three slices and their products are defined and `h[:i] * h[i:j] * h[j:]` is the same
map as `h`. -/
theorem C17_split (h : Enc) (hh : h.Legal) (i j : Nat) (hij : i ≤ j) (hj : j ≤ h.len) :
    ∃ a b c ab abc, h.slice none (some i) = .ok a ∧ h.slice (some i) (some j) = .ok b ∧ h.slice (some j) none = .ok c ∧
      a.mul b = .ok ab ∧ ab.mul c = .ok abc ∧ abc.SameMap h := by
  have hi : i ≤ h.len := hij.trans hj
  obtain ⟨a, S₁, T₁, a1, a2, a3, a4, a5, a6, a7⟩ := Enc.slice_spec hh (Nat.zero_le i) hi
  obtain ⟨b, S₂, T₂, b1, b2, b3, b4, b5, b6, b7⟩ := Enc.slice_spec hh hij hj
  obtain ⟨c, S₃, T₃, c1, c2, c3, c4, c5, c6, c7⟩ := Enc.slice_spec hh hj (le_refl h.len)
  -- the ends fit together
  have e1 : T₁ = h.target := by simpa using a6.eq_of_nil
  have e3 : S₃ = h.source := by
    have : h.sequence.drop h.len = [] := by rw [List.drop_eq_nil_iff]; exact le_refl _
    rw [this] at c4
    exact c4.eq_of_nil.symm
  have hpath := hh.path
  have e23 : S₂ = T₃ := by
    have : (h.sequence.take h.len).drop j = h.sequence.drop j := by unfold Enc.len; rw [List.take_length]
    rw [this, e3] at c5
    exact b4.target_unique c5
  have e12 : S₁ = T₂ := by
    have e : (h.sequence.drop i).reverse = (h.sequence.drop j).reverse ++ ((h.sequence.take j).drop i).reverse := by
      rw [← List.reverse_append]
      congr 1
      have : h.sequence.drop i = ((h.sequence.take j) ++ (h.sequence.drop j)).drop i := by rw [List.take_append_drop]
      rw [this, List.drop_append_of_le_length]
      unfold Enc.len at hj
      rw [List.length_take]; omega
    have := a4
    rw [e] at this
    exact this.target_unique (b4.append b5)
  obtain ⟨ab, d1, d2, d3, _⟩ := Enc.mul_spec a2 b2 (by rw [a7.source, b7.target]; exact e12)
  obtain ⟨abc, f1, f2, f3, _⟩ := Enc.mul_spec d2 c2 (by rw [d3.source, b7.source, c7.target]; exact e23)
  refine ⟨a, b, c, ab, abc, ?_, b1, ?_, d1, f1, ?_⟩
  · rw [← a1]
    refine Enc.slice_norm (Nat.zero_le _) hi (.inr (.inl ⟨rfl, rfl⟩)) (.inl rfl)
  · rw [← c1]
    exact Enc.slice_norm hj (le_refl _) (.inl rfl) (.inr (.inl ⟨rfl, rfl⟩))
  · -- as lists of moves
    have hseq : h.sequence = (h.sequence.take i).drop 0 ++ (h.sequence.take j).drop i ++ (h.sequence.take h.len).drop j := by
      rw [List.drop_zero]
      have e4 : (h.sequence.take h.len).drop j = h.sequence.drop j := by unfold Enc.len; rw [List.take_length]
      rw [e4]
      conv_lhs => rw [← List.take_append_drop j h.sequence]
      congr 1
      conv_lhs => rw [← List.take_append_drop i (h.sequence.take j)]
      rw [List.take_take, min_eq_left hij]
    refine ⟨f3.source.trans (c7.source.trans e3), f3.target.trans (d3.target.trans (a7.target.trans e1)), ?_, ?_⟩
    · intro R _ _ _ _ L hL
      rw [f3.lam R L hL, c7.lam R L hL, Enc.applyLam_eq, Enc.applyLam_eq]
      dsimp only
      rw [e3]
      by_cases ht : h.source = L.tri
      · rw [if_pos ht, if_pos ht, Enc.performed, Enc.performed]
        conv_rhs => rw [hseq, List.reverse_append, performLam_append]
        dsimp only
        cases hp : performLam ((h.sequence.take h.len).drop j).reverse L with
        | error e => rfl
        | ok L₁ =>
          obtain ⟨l1, l2, _⟩ := (e3 ▸ c5).performLam hL ht.symm hp
          simp only [py_bind_ok]
          rw [d3.lam R L₁ l2, b7.lam R L₁ l2, Enc.applyLam_eq]
          dsimp only
          rw [if_pos (e23.trans l1.symm), Enc.performed, List.reverse_append, performLam_append]
          dsimp only
          cases hq : performLam ((h.sequence.take j).drop i).reverse L₁ with
          | error e => rfl
          | ok L₂ =>
            obtain ⟨m1, m2, _⟩ := b5.performLam l2 (l1.trans e23.symm) hq
            simp only [py_bind_ok]
            rw [a7.lam R L₂ m2, Enc.applyLam_eq]
            dsimp only
            rw [if_pos (e12.trans m1.symm)]; rfl
      · rw [if_neg ht, if_neg ht]; rfl
    · intro L hL
      rw [f3.hom L hL, c7.hom L hL, Enc.applyHom_eq, Enc.applyHom_eq]
      dsimp only
      rw [e3]
      by_cases ht : h.source = L.tri
      · rw [if_pos ht, if_pos ht, Enc.performed, Enc.performed]
        conv_rhs => rw [hseq, List.reverse_append, performHom_append]
        dsimp only
        obtain ⟨L₁, hp, l1, l2⟩ := (e3 ▸ c5).performHom hL ht.symm
        rw [hp]
        simp only [py_bind_ok]
        rw [d3.hom L₁ l2, b7.hom L₁ l2, Enc.applyHom_eq]
        dsimp only
        rw [if_pos (e23.trans l1.symm), Enc.performed, List.reverse_append, performHom_append]
        dsimp only
        obtain ⟨L₂, hq, m1, m2⟩ := b5.performHom l2 (l1.trans e23.symm)
        rw [hq]
        simp only [py_bind_ok]
        rw [a7.hom L₂ m2, Enc.applyHom_eq]
        dsimp only
        rw [if_pos (e12.trans m1.symm)]; rfl
      · rw [if_neg ht, if_neg ht]; rfl

/-- C17: a slice performs exactly the moves at its positions: `h[i:j]` starts where the moves after position `j` (which are
performed first) lead, and performs the moves at positions `i, ..., j - 1`. -/
theorem C17_moves (h : Enc) (hh : h.Legal) (i j : Nat) (hij : i ≤ j) (hj : j ≤ h.len) :
    ∃ p, h.slice (some i) (some j) = .ok p ∧ p.Legal ∧ p.source = endOf h.source (h.sequence.drop j).reverse ∧
      p.target = endOf p.source ((h.sequence.take j).drop i).reverse ∧
      (∀ (R : Type) [CommRing R] [LinearOrder R] [IsStrictOrderedRing R] [Halvable R] (L : Lam R), L.WellFormed → L.tri = p.source →
        p.applyLam L = performLam ((h.sequence.take j).drop i).reverse L) ∧
      ∀ x : Hom, x.WellFormed → x.tri = p.source → p.applyHom x = performHom ((h.sequence.take j).drop i).reverse x := by
  obtain ⟨p, S, T, h1, h2, h3, h4, h5, h6, h7⟩ := Enc.slice_spec hh hij hj
  have hend : ∀ {S T : Triangulation} {ms : List LMove}, Path S ms T → endOf S ms = T := by
    intro S T ms hp
    induction hp with
    | nil T hT => rfl
    | cons m ms T h hs ih => exact ih
  refine ⟨p, h1, h2, ?_, ?_, ?_, ?_⟩
  · rw [h7.source, hend h4]
  · rw [h7.source, h7.target]; exact (hend h5).symm
  · intro R _ _ _ _ L hL ht
    rw [h7.source] at ht
    rw [h7.lam R L hL, Enc.applyLam_eq, if_pos ht.symm]; rfl
  · intro x hx ht
    rw [h7.source] at ht
    rw [h7.hom x hx, Enc.applyHom_eq, if_pos ht.symm]; rfl

/-- C17: `h[i:i]` is the identity encoding on the triangulation between the moves `i - 1` and `i`. -/
theorem C17_empty_slice (h : Enc) (hh : h.Legal) (i : Nat) (hi : i ≤ h.len) :
    h.slice (some i) (some i) = (endOf h.source (h.sequence.drop i).reverse).idEncoding := by
  have hend : ∀ {S T : Triangulation} {ms : List LMove}, Path S ms T → endOf S ms = T := by
    intro S T ms hp
    induction hp with
    | nil T hT => rfl
    | cons m ms T h hs ih => exact ih
  obtain ⟨S, T, h1, h2, h3⟩ := Enc.path_slice hh (le_refl i)
  rw [Enc.slice_eq hi, hend h1]
  congr 1
  unfold Enc.len at hi
  by_cases hlt : i < h.sequence.length
  · rw [List.getElem?_eq_getElem hlt]
    rw [List.drop_eq_getElem_cons hlt, List.reverse_cons, Path.concat_iff] at h1
    exact h1.2.1.symm
  · rw [List.getElem?_eq_none (by omega)]
    rw [List.drop_of_length_le (by omega)] at h1
    exact h1.eq_of_nil

/-- C17: negative and missing bounds count as for lists. -/
theorem C17_bounds (h : Enc) (v w : Option Int) (i j : Nat) (hi : i ≤ h.len) (hj : j ≤ h.len)
    (hv : v = some (i : Int) ∨ (v = none ∧ i = 0) ∨ (v = some ((i : Int) - h.len) ∧ i < h.len))
    (hw : w = some (j : Int) ∨ (w = none ∧ j = h.len) ∨ (w = some ((j : Int) - h.len) ∧ j < h.len)) :
    h.slice v w = h.slice (some i) (some j) := Enc.slice_norm hi hj hv hw

/-- C17: reversed bounds raise `IndexError`. -/
theorem C17_reversed (h : Enc) (i j : Nat) (hij : j < i) : h.slice (some i) (some j) = .error .indexError := by
  unfold Enc.slice
  dsimp only
  rw [Enc.sliceBound_nat, Enc.sliceBound_nat, max_eq_left (by omega), if_neg, if_pos]
  · have := min_le_left (j : Int) (h.len : Int); omega
  · have := min_le_left (j : Int) (h.len : Int); omega

/-! ## C46 -/

/-- C46: if the entries of `seq`, read from right to left, stand for the moves `ms` (integers for flips, sets for multiflips,
complete dictionaries for relabellings, `None` for the identity, moves and encodings for themselves) then `T.encode(seq)`
performs exactly these moves in this order, from `T` to the last triangulation, and is a mapping class exactly when this is
`T` again. -/
theorem C46_encode (T U : Triangulation) (seq : List EncItem) (ms : List LMove) (hseq : seq ≠ [])
    (h : EncItem.AllStandFor T seq.reverse ms U) :
    ∃ k, T.encode seq = .ok k ∧ k.Legal ∧ k.source = T ∧ k.target = U ∧ k.kind ≠ .encoding ∧ (k.kind = .mappingClass ↔ T = U) ∧
      (∀ (R : Type) [CommRing R] [LinearOrder R] [IsStrictOrderedRing R] [Halvable R] (L : Lam R), L.WellFormed → L.tri = T →
        k.applyLam L = performLam ms L) ∧ ∀ x : Hom, x.WellFormed → x.tri = T → k.applyHom x = performHom ms x := by
  have hms : ms ≠ [] := by
    have hr : seq.reverse ≠ [] := by simpa using hseq
    generalize seq.reverse = items at h hr
    cases h with
    | nil => exact absurd rfl hr
    | cons T U V item items ms ns hT h hs =>
      have : ms ≠ [] := by
        cases h with
        | enc k hk h => unfold Enc.performed; simpa using hk.nonempty
        | _ => simp
      simp [this]
  have he := h.encode hms
  rw [List.reverse_reverse] at he
  have hp : Path T ms.reverse.reverse U := by rw [List.reverse_reverse]; exact h.path
  have hne : ms.reverse ≠ [] := by simpa using hms
  refine ⟨_, he, Enc.legal_mk _ (Enc.trim_ne_nil hne) (Enc.path_trim hp) ?_, rfl, rfl, ?_, ?_, ?_, ?_⟩
  · intro hk; by_contra hc; rw [if_neg hc] at hk; cases hk
  · dsimp only; split <;> simp
  · dsimp only; split <;> simp_all
  · intro R _ _ _ _ L hL ht
    rw [(Enc.sameMap_trim_trim (if T = U then .mappingClass else .mapping) .encoding hp).lam R L hL, Enc.applyLam_eq, if_pos ht.symm, Enc.performed, List.reverse_reverse]
  · intro x hx ht
    rw [(Enc.sameMap_trim_trim (if T = U then .mappingClass else .mapping) .encoding hp).hom x hx, Enc.applyHom_eq, if_pos ht.symm, Enc.performed, List.reverse_reverse]

/-- C46: an empty list is rejected. -/
theorem C46_empty (T : Triangulation) : T.encode [] = .error .assertionError := rfl

/-! ## Non-vacuity and counterexamples -/

/-- the result of flipping the edge 0 of the torus -/
def torusFlip : LMove :=
  ⟨.flip ⟨torus, ⟨[⟨-3, 1, 0⟩, ⟨-2, -1, 2⟩]⟩, 0, ⟨1, 2, -2, -3, 0⟩⟩, .flip ⟨⟨[⟨-3, 1, 0⟩, ⟨-2, -1, 2⟩]⟩, torus, -1, ⟨2, -2, -3, 1, -1⟩⟩⟩

theorem torusFlip_ok : torus.encodeFlip 0 = .ok torusFlip := by decide

theorem torusFlip_legal : torusFlip.Legal := .flip torus 0 _ torus_valid torusFlip_ok

/-- the relabelling back to the torus -/
def backMap : Int → Int := fun e => if e = 0 then 1 else if e = -1 then -2 else if e = 1 then 0 else if e = -2 then -1 else inv e

theorem backMap_signedBij : torusFlip.move.target.SignedBij backMap := by
  have key : ∀ e ∈ torusFlip.move.target.labels, torusFlip.move.target.IsLabel (backMap e) ∧ backMap (inv e) = inv (backMap e) ∧
    ∀ e' ∈ torusFlip.move.target.labels, backMap e = backMap e' → e = e' := by decide
  exact ⟨fun e he => (key e (mem_labels.2 he)).1, fun e e' he he' => (key e (mem_labels.2 he)).2.2 e' (mem_labels.2 he'),
    fun e he => (key e (mem_labels.2 he)).2.1⟩

/-- a Dehn twist of the once punctured torus: flip the edge 0, then relabel -/
def torusTwist : Enc :=
  match torus.encode [.dict [(0, 1), (1, 0), (2, -3)], .flip 0] with
  | .ok h => h
  | .error _ => ⟨.encoding, [], torus, torus⟩

/-- The hypotheses of C46, and so those of C14, C15, C16 and C17, are met by a mapping class with two moves which does not
fix `torusCurve`. -/
theorem torusTwist_spec : torus.encode [.dict [(0, 1), (1, 0), (2, -3)], .flip 0] = .ok torusTwist ∧ torusTwist.Legal ∧
    torusTwist.kind = .mappingClass ∧ torusTwist.len = 2 ∧ torusTwist.Reduced := by
  have h0 : torus.encode [.dict [(0, 1), (1, 0), (2, -3)], .flip 0] = .ok torusTwist := by decide +kernel
  have hl : ∃ m, torusFlip.move.target.encodeRelabel [(0, 1), (1, 0), (2, -3)] = .ok m ∧ m.Legal := by
    refine backMap_signedBij.encodeRelabel_legal torusFlip_legal.valid.2.1 (by decide) ?_ (by decide)
    have : ∀ p ∈ ([(0, 1), (1, 0), (2, -3)] : PyDict Int Int), torusFlip.move.target.IsLabel p.1 ∧ p.2 = backMap p.1 := by decide
    exact fun e v hv => this _ hv
  obtain ⟨m, h1, h2⟩ := hl
  have h3 : EncItem.AllStandFor torus [.flip 0, .dict [(0, 1), (1, 0), (2, -3)]] ([torusFlip] ++ ([m] ++ [])) m.move.target :=
    .cons _ _ _ _ _ _ _ torus_valid (.flip 0 _ torusFlip_ok)
      (.cons _ _ _ _ _ _ _ torusFlip_legal.valid.2.1
        (.relabel _ m (fun i h0 hi => by
          have hd : ∀ i ∈ torusFlip.move.target.indices, i ∈ PyDict.keys [((0 : Int), (1 : Int)), (1, 0), (2, -3)] ∨
            inv i ∈ PyDict.keys [((0 : Int), (1 : Int)), (1, 0), (2, -3)] := by decide
          exact hd i (mem_indices.2 ⟨h0, hi.2⟩)) h1 h2)
        (.nil _ h2.valid.2.1))
  obtain ⟨k, k1, k2, _⟩ := C46_encode torus _ [.dict [(0, 1), (1, 0), (2, -3)], .flip 0] _ (by simp) h3
  cases h0.symm.trans k1
  refine ⟨h0, k2, by decide +kernel, by decide +kernel, .inr ⟨?_, ?_⟩⟩ <;> decide +kernel

example : torusTwist.applyLam torusCurve = .ok ⟨torus, [1, 3, 2], .curve⟩ := by decide +kernel

example : ∃ g, torusTwist.inverse = .ok g ∧ g.applyLam torusCurve = .ok ⟨torus, [3, 1, 2], .curve⟩ := ⟨_, rfl, by decide +kernel⟩

/-- C15, without the hypothesis that `h` is reduced, is false for the lists of moves: the constructor drops only one identity
at each end, so `~~h` can have fewer moves than `h` (it is still the same map, `C15_double_inverse_map`). -/
theorem C15_double_inverse_needs_reduced : ∃ h g k, torus.encode [.none, .none, .none, .flip 0] = .ok h ∧ h.inverse = .ok g ∧ g.inverse = .ok k ∧
    h.len = 2 ∧ k.len = 1 := by
  refine ⟨_, _, _, rfl, rfl, rfl, ?_⟩
  decide +kernel

/-- C46 fails for incomplete dictionaries: the documented "isometry back to this triangulation" raises `TypeError`. -/
theorem C46_incomplete_dict_raises : torusFlip.move.target.encode [.dict [(0, 0)]] = .error .typeError ∧
    ∃ m, torusFlip.move.target.findIsometry torusFlip.move.target [(0, 0)] = .ok m := by
  refine ⟨by decide +kernel, ?_⟩
  have : (torusFlip.move.target.findIsometry torusFlip.move.target [(0, 0)]).toOption.isSome = true := by decide +kernel
  cases h : torusFlip.move.target.findIsometry torusFlip.move.target [(0, 0)] with
  | ok m => exact ⟨m, rfl⟩
  | error e => rw [h] at this; cases this

/-- C17 is limited to bounds that lie in the list: a start below `-len(h)` with stop 0 raises `AssertionError`. -/
theorem C17_far_start : torusTwist.slice (some (-10)) (some 0) = .error .assertionError := by decide +kernel

end Curver
