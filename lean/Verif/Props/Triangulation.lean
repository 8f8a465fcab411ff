import Verif.Proofs.TriangulationBuild

/-!
# C01, C04, C05, C06, C07: edges and triangulations

The vocabulary (`Valid`, `Glues`, `IsLabel`, `RotatesTo`, `CompleteLabelling`) is in `Verif/Spec/Triangulation.lean`.
-/

namespace Curver

/-! ## C01 -/

/-- C01: `~~e == e`, `e` and `~e` have the same index and opposite signs, and the index is not negative. -/
theorem C01_invert (e : Int) : inv (inv e) = e ∧ inv e ≠ e ∧ norm (inv e) = norm e ∧ sign (inv e) = -sign e ∧
    0 ≤ norm e := ⟨inv_inv e, inv_ne e, norm_inv e, sign_inv e, norm_nonneg e⟩

/-- C01: an edge is determined by its index and its sign; every index and sign occur; the edges of index `i` are `i`
and `~i`. -/
theorem C01_index_sign : (∀ e f : Int, norm e = norm f → sign e = sign f → e = f) ∧
    (∀ i : Int, 0 ≤ i → norm i = i ∧ sign i = 1 ∧ norm (inv i) = i ∧ sign (inv i) = -1) ∧
    (∀ e i : Int, norm e = i → e = i ∨ e = inv i) := by
  refine ⟨?_, ?_, ?_⟩
  · intro e f h1 h2
    rcases norm_eq_iff.1 h1 with h | h
    · exact h
    · subst h
      rw [sign_inv] at h2
      rcases lt_or_ge f 0 with h | h
      · rw [sign_of_neg h] at h2; omega
      · rw [sign_of_nonneg h] at h2; omega
  · intro i hi
    rw [norm_inv, sign_inv, norm_of_nonneg hi, sign_of_nonneg hi]; simp
  · intro e i h
    unfold norm inv at *; omega

/-- C01: `e.set_sign(s)` is the one of `e` and `~e` of sign `s`. -/
theorem C01_set_sign (e s : Int) (hs : s = 1 ∨ s = -1) :
    sign (setSign e s) = s ∧ (setSign e s = e ∨ setSign e s = inv e) := by
  unfold setSign
  split
  · rename_i h; exact ⟨h, .inl rfl⟩
  · rename_i h
    refine ⟨?_, .inr rfl⟩
    rw [sign_inv]
    rcases lt_or_ge e 0 with h' | h'
    · rw [sign_of_neg h'] at h ⊢; omega
    · rw [sign_of_nonneg h'] at h ⊢; omega

namespace Triangulation

/-! ## a concrete triangulation: the once punctured torus of the documentation -/

/-- `curver.create_triangulation([(0, 1, 2), (~0, ~1, ~2)])` -/
def torus : Triangulation := ⟨[⟨-3, -1, -2⟩, ⟨0, 1, 2⟩]⟩

theorem torus_valid : torus.Valid := ⟨by decide, by decide, by decide⟩

/-! ## C05 -/

/-- C05: a complete labelling is accepted, the result is well formed and has exactly the given triangles. -/
theorem C05_complete_is_accepted (ls : List (List Int)) (hne : ls ≠ []) (h : CompleteLabelling ls) :
    ∃ T, fromTuple ls = .ok T ∧ T.Valid ∧ 2 * T.zeta = 3 * ls.length ∧
      ∀ a b c, T.Glues a b c ↔ [a, b, c] ∈ ls ∨ [b, c, a] ∈ ls ∨ [c, a, b] ∈ ls := by
  obtain ⟨T, h1, h2, h3⟩ := fromTuple_ok hne h
  refine ⟨T, h1, h2, ?_, glues_of_perm_toTri h.1 h2.comp h3⟩
  rw [← h2.comp.three_length, h3.length_eq, List.length_map]

/-- C05: exactly what is accepted: a non-empty list of triples in which each of `0, ..., zeta-1, ~0, ..., ~(zeta-1)` occurs, where
`zeta` is half the number of labels given, rounded down. -/
theorem C05_accepted_iff (ls : List (List Int)) : (∃ T, fromTuple ls = .ok T) ↔
    ls ≠ [] ∧ (∀ l ∈ ls, l.length = 3) ∧ ∀ i : Nat, i < ls.flatten.length / 2 → (i : Int) ∈ ls.flatten ∧ inv i ∈ ls.flatten := by
  constructor
  · rintro ⟨T, h⟩
    obtain ⟨h1, h2, h3⟩ := fromTuple_ok_of h
    refine ⟨h2, h1, fun i hi => h3 i ?_⟩
    rw [flatten_length h1] at hi; omega
  · rintro ⟨h1, h2, h3⟩
    refine fromTuple_total h2 h1 (fun i hi => h3 i ?_)
    rw [flatten_length h2]; omega

/-- C05: for an even number of triples these are the complete labellings: no label occurs twice. -/
theorem C05_only_complete_is_accepted (ls : List (List Int)) (hev : ls.length % 2 = 0) : (∃ T, fromTuple ls = .ok T) ↔ ls ≠ [] ∧ CompleteLabelling ls := by
  constructor
  · rintro ⟨T, h⟩
    obtain ⟨h1, h2, h3⟩ := fromTuple_ok_of h
    exact ⟨h2, (completeLabelling_iff h1 hev).2 h3⟩
  · rintro ⟨h1, h2⟩
    obtain ⟨T, h, _⟩ := C05_complete_is_accepted ls h1 h2
    exact ⟨T, h⟩

/-- C05: what is raised otherwise: `AssertionError` for an empty list or for other tuples, `TypeError` for triples with a label missing. -/
theorem C05_errors (ls : List (List Int)) :
    (ls = [] ∨ (∃ l ∈ ls, l.length ≠ 3) → fromTuple ls = .error .assertionError) ∧
    (ls ≠ [] → (∀ l ∈ ls, l.length = 3) → (¬ ∃ T, fromTuple ls = .ok T) → fromTuple ls = .error .typeError) := by
  constructor
  · intro h
    unfold fromTuple
    by_cases hall : ls.all (fun l => l.length == 3) = true
    · have : ls = [] := by
        rcases h with h | ⟨l, hl, h⟩
        · exact h
        · rw [List.all_eq_true] at hall; have := hall l hl; simp at this; exact absurd this h
      subst this; rfl
    · simp [pyAssert, hall]
  · intro hne h3 hc
    have hc : ¬ ∀ i : Nat, i < ls.length * 3 / 2 → (i : Int) ∈ ls.flatten ∧ inv i ∈ ls.flatten := fun h => hc (fromTuple_total h3 hne h)
    unfold fromTuple
    have h1 : pyAssert (ls.all (fun l => l.length == 3)) = .ok () := by
      rw [pyAssert_ok_iff, List.all_eq_true]; intro l hl; simp [h3 l hl]
    have h2 : pyAssert (!ls.isEmpty) = .ok () := by rw [pyAssert_ok_iff]; simp [hne]
    rw [h1, py_bind_ok, h2, py_bind_ok]
    simp only
    rw [check_error _ (by simpa using hc)]
    rfl

/-- C05: with an odd number of triples one label too many is tolerated: the single triple `(0, ~0, 5)` is accepted although `5` is
not a label and the labelling is not complete. -/
theorem C05_odd_is_accepted : (∃ T, fromTuple [[0, -1, 5]] = .ok T) ∧ ¬ CompleteLabelling [[0, -1, 5]] := by
  refine ⟨⟨⟨[⟨-1, 5, 0⟩]⟩, by decide⟩, ?_⟩
  rintro ⟨_, z, hz, _⟩
  simp at hz; omega

example : fromTuple [[0, 1, 2], [-1, -2, -3]] = .ok torus := by decide
example : fromTuple [[0, 1, 2], [-1, -2, -2]] = .error .typeError := by decide

/-! ## C06 -/

/-- C06: two triangulations compare equal iff they have the same triangles, up to the starting side. -/
theorem C06_eq_iff_same_gluing (S T : Triangulation) (hS : S.Valid) (hT : T.Valid) :
    S.eq T = true ↔ ∀ a b c, S.Glues a b c ↔ T.Glues a b c := by
  unfold eq
  rw [beq_iff_eq]
  constructor
  · intro h; rw [signature_inj h]; simp
  · intro h; rw [Valid.ext hS hT h]

/-- C06: equal triangulations are indistinguishable (all their attributes are computed from equal data). -/
theorem C06_eq_iff_eq (S T : Triangulation) : S.eq T = true ↔ S = T := by
  unfold eq
  rw [beq_iff_eq]
  exact ⟨signature_inj, fun h => by rw [h]⟩

/-- C06: the order in which the triangles are given and the side at which each triple starts do not matter. -/
theorem C06_presentation (ls ls' : List (List Int)) (S T : Triangulation) (h : CompleteLabelling ls)
    (h' : CompleteLabelling ls') (hS : fromTuple ls = .ok S) (hT : fromTuple ls' = .ok T)
    (hsame : ∀ a b c : Int, ([a, b, c] ∈ ls ∨ [b, c, a] ∈ ls ∨ [c, a, b] ∈ ls) ↔
      ([a, b, c] ∈ ls' ∨ [b, c, a] ∈ ls' ∨ [c, a, b] ∈ ls')) : S = T := by
  obtain ⟨S', h1, h2, _, h3⟩ := C05_complete_is_accepted ls (fromTuple_ok_of hS).2.1 h
  obtain ⟨T', g1, g2, _, g3⟩ := C05_complete_is_accepted ls' (fromTuple_ok_of hT).2.1 h'
  rw [hS] at h1; cases h1
  rw [hT] at g1; cases g1
  exact Valid.ext h2 g2 (fun a b c => by rw [h3, g3, hsame])

/-- C06: `package()` / pickling rebuilds the triangulation. -/
theorem C06_pickle (T : Triangulation) (hT : T.Valid) (hne : T.triangles ≠ []) : T.unpickle = .ok T :=
  unpickle_ok hT hne

example : fromTuple [[-2, -3, -1], [2, 0, 1]] = .ok torus := by decide

/-! ## C04 -/

/-- C04: `triangulation_from_sig(T.sig()) == T`. -/
theorem C04_roundtrip (T : Triangulation) (hT : T.Valid) (hne : T.triangles ≠ []) :
    ∃ s, T.sig = .ok s ∧ fromSig s = .ok T := by
  obtain ⟨p, σ, h1, h2, h3⟩ := sig_ok hT.comp
  refine ⟨_, h1, ?_⟩
  unfold fromSig
  rw [splitUnderscore_append (C02_alphabet _).2 (C02_alphabet _).2]
  have hparts : [b64encode T.zeta, b64encode p.index].mapM b64decode = (.ok [T.zeta, p.index] : Py _) := by
    simp [C02_roundtrip]
  rw [hparts, py_bind_ok]
  simp only
  rw [(Permutation.C03_roundtrip h2).2, py_bind_ok, h3]
  have htr : triples T.zeta (T.signature.map (fun e => (e + (T.zeta : Int)).toNat)) = .ok T.package :=
    triples_package T.zeta T.triangles (fun e he => by
      have := hT.comp.mem_signature.1 he; unfold IsLabel at this; omega)
  rw [htr, py_bind_ok]
  exact unpickle_ok hT hne

/-- C04: the signature string identifies the triangulation. -/
theorem C04_injective (S T : Triangulation) (hS : S.Valid) (hT : T.Valid) (hneS : S.triangles ≠ [])
    (hneT : T.triangles ≠ []) : S.sig = T.sig ↔ S = T := by
  constructor
  · intro h
    obtain ⟨s, h1, h2⟩ := C04_roundtrip S hS hneS
    obtain ⟨t, h3, h4⟩ := C04_roundtrip T hT hneT
    rw [h, h3] at h1; cases h1
    rw [h4] at h2; cases h2; rfl
  · rintro rfl; rfl

/-- C04: `T.sig()` never fails and is `<zeta>_<index>` in base 64. -/
theorem C04_sig_defined (T : Triangulation) (hT : T.Valid) :
    ∃ n, T.sig = .ok (b64encode T.zeta ++ '_' :: b64encode n) := by
  obtain ⟨p, _, h, _⟩ := sig_ok hT.comp; exact ⟨_, h⟩

/-! ## C07 -/

/-- C07: the constructor's vertex computation succeeds; each oriented edge is in exactly one vertex. -/
theorem C07_partition (T : Triangulation) (hT : T.Valid) :
    ∃ vs, T.vertices = .ok vs ∧ vs.flatten.Nodup ∧ (∀ e, e ∈ vs.flatten ↔ T.IsLabel e) ∧ vs.Nodup := by
  obtain ⟨vs, h1, h2, h3, h4⟩ := hT.comp.vertices_ok
  refine ⟨vs, h1, h2.nodup_iff.2 nodup_labels, fun e => by rw [h2.mem_iff, mem_labels], ?_⟩
  have : (vs.map List.head?).Nodup := by
    refine h4.imp ?_
    rintro a b ⟨x, y, rfl, rfl, h⟩ hab
    simp at hab; omega
  exact List.Nodup.of_map _ this

/-- C07: two edges are in the same vertex iff one is reached from the other by repeatedly rotating anticlockwise about
the tail. -/
theorem C07_same_vertex_iff (T : Triangulation) (hT : T.Valid) (vs : List (List Int)) (h : T.vertices = .ok vs)
    (e f : Int) (he : T.IsLabel e) :
    (∃ v ∈ vs, e ∈ v ∧ f ∈ v) ↔ Relation.ReflTransGen T.RotatesTo e f := by
  obtain ⟨vs', h1, h2, h3, h4⟩ := hT.comp.vertices_ok
  rw [h] at h1; cases h1
  have hlab : ∀ v ∈ vs, ∀ x ∈ v, T.IsLabel x := by
    intro v hv x hx
    rw [← mem_labels, ← h2.mem_iff]
    exact List.mem_flatten.2 ⟨v, hv, hx⟩
  have hreach : ∀ v ∈ vs, ∀ (hne : v ≠ []), ∀ x ∈ v, Relation.ReflTransGen T.RotatesTo (v.head hne) x ∧
      Relation.ReflTransGen T.RotatesTo x (v.getLast hne) := by
    intro v hv hne
    have hl := hlab v hv
    have hc := (h3 v hv).chain
    clear h3 hv
    induction v with
    | nil => exact absurd rfl hne
    | cons a l ih =>
      cases l with
      | nil => intro x hx; simp at hx; subst hx; exact ⟨.refl, .refl⟩
      | cons b l =>
        rw [List.isChain_cons_cons] at hc
        have hab : T.RotatesTo a b := (hT.comp.rotatesTo_iff (hl a (by simp))).2 hc.1
        have ih' := ih (by simp) (fun x hx => hl x (List.mem_cons_of_mem _ hx)) hc.2
        intro x hx
        simp only [List.head_cons]
        rw [List.getLast_cons (by simp)]
        rw [List.mem_cons] at hx
        rcases hx with rfl | hx
        · exact ⟨.refl, .head hab (ih' b (by simp)).2⟩
        · exact ⟨.head hab (ih' x hx).1, (ih' x hx).2⟩
  constructor
  · rintro ⟨v, hv, h5, h6⟩
    have hne := (h3 v hv).ne
    have h7 := (hreach v hv hne e h5).2
    have h8 := (hreach v hv hne f h6).1
    have h9 : T.RotatesTo (v.getLast hne) (v.head hne) := by
      rw [hT.comp.rotatesTo_iff (hlab v hv _ (List.getLast_mem _))]
      have := (h3 v hv).closes
      rw [List.head?_eq_some_head hne] at this
      simpa [spin] using this
    exact h7.trans (.head h9 h8)
  · intro hr
    have : e ∈ vs.flatten := by rw [h2.mem_iff, mem_labels]; exact he
    obtain ⟨v, hv, hev⟩ := List.mem_flatten.1 this
    refine ⟨v, hv, hev, ?_⟩
    induction hr with
    | refl => exact hev
    | tail _ hstep ih =>
      rw [hT.comp.rotatesTo_iff (hlab v hv _ ih)] at hstep
      rw [hstep]
      exact (h3 v hv).spin_mem ih

/-- C07: each vertex is listed in the order of rotation, closing up, starting at its least edge; the vertices are found
in the order of these least edges. -/
theorem C07_rotation_order (T : Triangulation) (hT : T.Valid) (vs : List (List Int)) (h : T.vertices = .ok vs) :
    (∀ v ∈ vs, ∃ hne : v ≠ [], (∀ i (hi : i + 1 < v.length), T.RotatesTo v[i] v[i + 1]) ∧
      T.RotatesTo (v.getLast hne) (v.head hne) ∧ ∀ x ∈ v, v.head hne ≤ x) ∧
    vs.Pairwise (fun v w => ∀ x ∈ v.head?, ∀ y ∈ w.head?, x < y) := by
  obtain ⟨vs', h1, h2, h3, h4⟩ := hT.comp.vertices_ok
  rw [h] at h1; cases h1
  constructor
  · intro v hv
    have hl : ∀ x ∈ v, T.IsLabel x := by
      intro x hx
      rw [← mem_labels, ← h2.mem_iff]
      exact List.mem_flatten.2 ⟨v, hv, hx⟩
    have hvx := h3 v hv
    refine ⟨hvx.ne, ?_, ?_, hvx.least⟩
    · intro i hi
      rw [hT.comp.rotatesTo_iff (hl _ (List.getElem_mem _))]
      exact List.isChain_iff_getElem.1 hvx.chain i hi
    · rw [hT.comp.rotatesTo_iff (hl _ (List.getLast_mem _))]
      have := hvx.closes
      rw [List.head?_eq_some_head hvx.ne] at this
      simpa [spin] using this
  · rw [List.pairwise_map] at h4
    refine h4.imp ?_
    rintro v w ⟨x, y, hx, hy, hlt⟩ x' hx' y' hy'
    rw [hx] at hx'; rw [hy] at hy'
    simp at hx' hy'
    omega

example : torus.vertices = .ok [[-3, 1, -1, 2, -2, 0]] := by decide

end Triangulation
end Curver
