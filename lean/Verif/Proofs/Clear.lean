import Verif.Proofs.Swing

namespace Curver
open Triangulation

/-- `h1` is `h0` followed by the moves `ms`, which end at `S` -/
structure Enc.After (h1 h0 : Enc) (ms : List LMove) (S : Triangulation) : Prop where
  legal : h1.Legal
  kind : h1.kind ≠ .encoding
  source : h1.source = h0.source
  target : h1.target = S
  path : Path h0.target ms S
  lam : ∀ (R : Type) [CommRing R] [LinearOrder R] [IsStrictOrderedRing R] [Halvable R] (L : Lam R), L.WellFormed → h1.applyLam L = (h0.applyLam L >>= performLam ms)
  hom : ∀ x : Hom, x.WellFormed → h1.applyHom x = (h0.applyHom x >>= performHom ms)

theorem Enc.After.refl {h0 : Enc} (hl : h0.Legal) (hk : h0.kind ≠ .encoding) : h0.After h0 [] h0.target := by
  refine ⟨hl, hk, rfl, rfl, .nil _ hl.path.valid_target, ?_, ?_⟩
  · intro R _ _ _ _ L hL
    cases h0.applyLam L <;> rfl
  · intro x hx
    cases h0.applyHom x <;> rfl

theorem performLam_append' {R : Type} [CommRing R] [LinearOrder R] [Halvable R] (ms ns : List LMove) (L : Lam R) :
    performLam (ms ++ ns) L = (performLam ms L >>= performLam ns) := by
  induction ms generalizing L with
  | nil => rfl
  | cons m ms ih =>
    simp only [List.cons_append, performLam]
    cases m.move.applyLam L with
    | error x => rfl
    | ok L' => simp only [py_bind_ok]; exact ih L'

theorem performHom_append' (ms ns : List LMove) (L : Hom) :
    performHom (ms ++ ns) L = (performHom ms L >>= performHom ns) := by
  induction ms generalizing L with
  | nil => rfl
  | cons m ms ih =>
    simp only [List.cons_append, performHom]
    cases m.move.applyHom L with
    | error x => rfl
    | ok L' => simp only [py_bind_ok]; exact ih L'

theorem Path.append' {S T U : Triangulation} {ms ns : List LMove} (h : Path S ms T) (h' : Path T ns U) : Path S (ms ++ ns) U := by
  induction h with
  | nil T hT => exact h'
  | cons m ms T hm hs ih => exact .cons m _ U hm (ih h')

theorem Enc.After.trans {h0 h1 h2 : Enc} {ms ns : List LMove} {S S' : Triangulation} (h : h1.After h0 ms S) (h' : h2.After h1 ns S') : h2.After h0 (ms ++ ns) S' := by
  refine ⟨h'.legal, h'.kind, h'.source.trans h.source, h'.target, h.path.append' (by have := h'.path; rwa [h.target] at this), ?_, ?_⟩
  · intro R _ _ _ _ L hL
    rw [h'.lam R L hL, h.lam R L hL]
    cases h0.applyLam L with
    | error x => rfl
    | ok L' => simp only [py_bind_ok]; rw [performLam_append']
  · intro x hx
    rw [h'.hom x hx, h.hom x hx]
    cases h0.applyHom x with
    | error x => rfl
    | ok L' => simp only [py_bind_ok]; rw [performHom_append']

/-- one more move -/
theorem Enc.After.step {m : LMove} (hm : m.Legal) {h0 : Enc} (hl : h0.Legal) (hk : h0.kind ≠ .encoding) (ht : h0.target = m.move.source) :
    ∃ f h1, m.encode = .ok f ∧ f.mul h0 = .ok h1 ∧ h1.After h0 [m] m.move.target ∧ (m.move.target = h0.source → h1.kind = .mappingClass) := by
  obtain ⟨f, hf1, fl, hf2, hf3, fs, ft⟩ := hm.encoded
  obtain ⟨k, k1, k2, k3⟩ := C14_composition f h0 fl hl (fs.trans ht.symm)
  refine ⟨f, k, hf1, k1, ⟨k2, ?_, k3.source, k3.target.trans ft, by rw [ht]; exact .single hm, ?_, ?_⟩, ?_⟩
  · intro h
    rcases (C14_class f h0 k fl hl k1).1.1 h with h | h
    · exact hf2 h
    · exact hk h
  · intro R _ _ _ _ L hL
    rw [k3.lam R L hL]
    cases hx : h0.applyLam L with
    | error x => rfl
    | ok L' =>
      simp only [py_bind_ok]
      have : L'.tri = m.move.source := (hl.undo hL hx).2.1.trans ht
      rw [Enc.applyLam_eq, fs, this, if_pos rfl]
      simp only [Enc.performed, hf3, List.reverse_singleton]
  · intro x hx
    rw [k3.hom x hx]
    cases hy : h0.applyHom x with
    | error x => rfl
    | ok y =>
      simp only [py_bind_ok]
      have : y.tri = m.move.source := (hl.applyHom_ok hx hy).2.trans ht
      rw [Enc.applyHom_eq, fs, this, if_pos rfl]
      simp only [Enc.performed, hf3, List.reverse_singleton]
  · intro h
    exact (C14_class f h0 k fl hl k1).2.2 ⟨hf2, hk, by rw [ft, h]⟩

namespace Triangulation
variable {T S S' : Triangulation} {a b e : Int} {X D : List Int}

/-- the flip of an edge, as the code makes it -/
def flipMove (S S' : Triangulation) (x : Int) : LMove := ⟨.flip ⟨S, S', x, S.sq x⟩, .flip ⟨S', S, inv x, S'.sq (inv x)⟩⟩

theorem Complete.valence (hT : T.Complete) (ha : T.IsLabel a) {v : List Int} (hv : T.vertexOf a = .ok v) : v.length > 1 ↔ T.spin a ≠ a := by
  obtain ⟨X, w, hO, hw, hp⟩ := hT.orbit ha
  rw [hv] at hw; cases hw
  rw [hp.length_eq]
  cases X with
  | nil =>
    have := hO.closes
    simpa using this
  | cons x X =>
    have h1 := (List.isChain_cons_cons.1 hO.chain).1
    have h2 := (List.nodup_cons.1 hO.nodup).1
    simp only [List.length_cons, gt_iff_lt, lt_add_iff_pos_left, add_pos_iff, Nat.lt_one_iff, pos_of_gt, or_true, ne_eq, true_iff]
    intro k
    apply h2
    rw [h1, k]; simp

theorem clear_stop (hS : S.Valid) {y : Int} (hg : S.Glues a y (inv a)) {h0 : Enc} (ht : h0.target = S) (n : Nat) : HalfTwist.clear a n h0 = .ok h0 := by
  have ha := (hS.comp.label_of_glues hg).1
  obtain ⟨v, _, h1, _⟩ := hS.comp.vertexOf_ok ha
  have h2 := hS.comp.valence ha h1
  have h3 := Sweep.spin_eq hS.comp hg
  rw [inv_inv] at h3
  rw [HalfTwist.clear.eq_def]; dsimp only; rw [ht, h1, py_bind_ok, if_neg]
  rw [h2, h3]; simp

theorem clear_step (hS : S.Valid) {y z : Int} (hg : S.Glues a y z) (hz : z ≠ inv a) (hf : S.Flippable z) (hm : S.IsMultiflip [z] S') {h0 : Enc} (hl : h0.Legal)
    (hk : h0.kind ≠ .encoding) (ht : h0.target = S) : ∃ h1, h1.After h0 [flipMove S S' z] S' ∧ ∀ n, HalfTwist.clear a (n + 1) h0 = HalfTwist.clear a n h1 := by
  have ha := (hS.comp.label_of_glues hg).1
  obtain ⟨v, _, h1, _⟩ := hS.comp.vertexOf_ok ha
  have h2 := hS.comp.valence ha h1
  have h3 := Sweep.spin_eq hS.comp hg
  obtain ⟨l1, l2⟩ := Turns.legal hS hf hm
  have hc : S.corner a = .ok ⟨a, y, z⟩ := hS.comp.corner_ok_iff.2 ⟨rfl, hg⟩
  obtain ⟨f, k, f1, k1, k2, _⟩ := Enc.After.step (m := flipMove S S' z) l2 hl hk ht
  refine ⟨k, k2, fun n => ?_⟩
  rw [HalfTwist.clear.eq_def]; dsimp only; rw [ht, h1, py_bind_ok, if_pos]
  · rw [hc, py_bind_ok]
    dsimp only
    rw [l1, py_bind_ok]
    change ((flipMove S S' z).encode >>= _) = _
    rw [f1, py_bind_ok, k1, py_bind_ok]
  · rw [h2, h3]
    intro k; exact hz (inv_eq_iff.1 k)

theorem Turns.cleared (B : Base T a b e) {d : Int} {rest : List Int} {F F'' : Int → Int} {ms : List LMove} {S'' : Triangulation} (h : Turns T a b e d rest S F ms S'' F'') :
    ∀ {h0 : Enc}, h0.Legal → h0.target = S → h0.kind ≠ .encoding →
    ∃ h1, h1.After h0 ms S'' ∧ ∀ n, HalfTwist.clear a (n + rest.length) h0 = HalfTwist.clear a n h1 := by
  induction h with
  | nil d S F hs =>
    intro h0 hl ht hk
    exact ⟨h0, ht ▸ Enc.After.refl hl hk, fun n => rfl⟩
  | cons d d' p ε rest S S' S'' F F' F'' ms hs _ _ hg hf hm ht g1 g2 hr ih =>
    intro h0 hl htt hk
    have hne : F e ≠ inv a := by
      intro k
      have := B.labels
      rw [← hs.fia] at k
      exact B.en (hs.inj _ _ this.2.2 (isLabel_inv.2 this.1) k)
    obtain ⟨h1, k1, k2⟩ := clear_step hs.valid g1.rot hne hf hm hl hk htt
    obtain ⟨h2, j1, j2⟩ := ih k1.legal k1.target k1.kind
    refine ⟨h2, k1.trans j1, fun n => ?_⟩
    rw [List.length_cons, ← Nat.add_assoc, k2, j2]

/-- all the edges but `a` have been moved away from the tail of `a` -/
structure Swept (T : Triangulation) (a b e : Int) (D : List Int) (ms : List LMove) (S : Triangulation) (F : Int → Int) (S' : Triangulation) (ε r p : Int) : Prop where
  turns : Turns T a b e b D T (fun x => x) ms S F
  slid : Slid T S a b e r F
  left : T.Left a e r ∧ T.Left a e (inv r)
  joined : T.Joined a r
  glues : T.Glues (hat b e r) p (inv a)
  flippable : S.Flippable (F e)
  flipped : S.IsMultiflip [F e] S'
  data : FlipData S S' (F e) ε a (F b) (F p) (inv a)

theorem Swing.swept (K : Swing T a b e D) : ∃ ms S F S' ε r p, Swept T a b e D ms S F S' ε r p := by
  have B := K.base
  obtain ⟨ms, S, F, ht⟩ := K.turns D b T (fun x => x) (fun _ h => h) K.chain B.slid
  obtain ⟨r, p, r1, r2⟩ := K.last
  have hl := ht.last
  have hr : (b :: D).getLast (by simp) = r := by
    rw [List.getLast?_eq_getLast_of_ne_nil (by simp)] at r1
    exact Option.some.inj r1
  rw [hr] at hl
  have hmem : r ∈ b :: D := by rw [← hr]; exact List.getLast_mem _
  have lr := K.left r hmem
  have hf := hl.flippable B lr.1
  obtain ⟨S', hm, _⟩ := hl.valid.encodeFlip_eq hf
  obtain ⟨ε, A, B', C, E, Kf⟩ := hf.flipData hl.valid hm
  have g1 := (hl.corner B).rot.rot
  obtain ⟨e1, e2⟩ := hl.valid.comp.glues_unique Kf.s1 g1
  have g2 := hl.glues _ _ _ r2
  have hk : inv (F e) = F (hat b e r) := by rw [hl.fe, inv_inv]
  rw [← hk, hl.fia] at g2
  obtain ⟨e3, e4⟩ := hl.valid.comp.glues_unique Kf.s2 g2
  subst A B' C E
  exact ⟨ms, S, F, S', ε, r, p, ht, hl, lr, K.joined r hmem, r2, hf, hm, Kf⟩

theorem Swept.cleared (K : Swing T a b e D) {ms : List LMove} {F : Int → Int} {ε r p : Int} (h : Swept T a b e D ms S F S' ε r p) {h0 : Enc} (hl : h0.Legal) (ht : h0.target = T)
    (hk : h0.kind ≠ .encoding) : ∃ h1, h1.After h0 (ms ++ [flipMove S S' (F e)]) S' ∧ ∀ n, D.length + 1 ≤ n → HalfTwist.clear a n h0 = .ok h1 := by
  have B := K.base
  obtain ⟨h1, k1, k2⟩ := h.turns.cleared B hl ht hk
  have hne : F e ≠ inv a := by
    intro k
    have := B.labels
    rw [← h.slid.fia] at k
    exact B.en (h.slid.inj _ _ this.2.2 (isLabel_inv.2 this.1) k)
  obtain ⟨h2, j1, j2⟩ := clear_step h.slid.valid (h.slid.corner B) hne h.flippable h.flipped k1.legal k1.kind k1.target
  refine ⟨h2, k1.trans j1, fun n hn => ?_⟩
  obtain ⟨k, rfl⟩ : ∃ k, n = (k + 1) + D.length := ⟨n - D.length - 1, by omega⟩
  rw [k2, j2]
  exact clear_stop h.flipped.valid h.data.t1.rot.rot j1.target k

end Triangulation
end Curver
