import Verif.Proofs.Finite
import Verif.Props.Mcg
import Verif.Props.MappingEq

/-!
# C44: finite subgroups

`IsProduct`, `GeneratorsOn`, `UniquelySpelled` and `Enc.Equal` are in Spec/Finite.lean.
-/

namespace Curver
open Triangulation

variable {T : Triangulation} {gens : PyDict Str Enc}

/-- the state at the end of the search -/
theorem FiniteSubgroup.final (H : GeneratorsOn T gens) {rounds : Nat} {F : FiniteSubgroup} (h : FiniteSubgroup.fromGenerators rounds gens = .ok F) :
    F.generators = gens.keys ∧ ∃ st : FiniteSubgroup.State, st.mappingClasses = F.mappingClasses ∧ FiniteSubgroup.Inv gens F.mappingClasses.keys st ∧
      (UniquelySpelled gens.keys → ∀ w x, F.mappingClasses.get? w = some x → FiniteSubgroup.Covered gens st.seen x gens.keys) := by
  unfold FiniteSubgroup.fromGenerators at h
  rw [py_bind_eq_ok] at h
  obtain ⟨mcs, h1, h2⟩ := h
  split at h2
  · cases h2
  · cases h2
    obtain ⟨st, a, b, c⟩ := (FiniteSubgroup.loop_spec H rounds (FiniteSubgroup.inv_start H) (by intro _ w hw; cases hw)).1 mcs h1
    exact ⟨rfl, st, a, b, c⟩

/-- C44: the generators are kept under their names, and every stored name is a concatenation of names of generators whose product is
the mapping class stored. -/
theorem C44_words (T : Triangulation) (gens : PyDict Str Enc) (H : GeneratorsOn T gens) (rounds : Nat) (F : FiniteSubgroup)
    (h : FiniteSubgroup.fromGenerators rounds gens = .ok F) :
    F.generators = gens.keys ∧ F.mappingClasses.keys.Nodup ∧
    (∀ l g, gens.get? l = some g → F.mappingClasses.get? l = some g) ∧
    ∀ w x, F.mappingClasses.get? w = some x → x.Legal ∧ x.kind = .mappingClass ∧ x.source = T ∧ ∃ ls, w = ls.flatten ∧ IsProduct gens ls x := by
  obtain ⟨h0, st, h1, I, _⟩ := FiniteSubgroup.final H h
  have nd := I.nodup
  have sp := I.spelled
  have gn := I.gen
  rw [h1] at nd sp gn
  refine ⟨h0, nd, gn, fun w x hx => ?_⟩
  obtain ⟨ls, a, b⟩ := sp w x hx
  have hd := H.denotes b
  exact ⟨hd.legal, hd.kind, hd.source, ls, a, b⟩

/-- C44: if no two generators are equal then no two stored mapping classes are. -/
theorem C44_different (T : Triangulation) (gens : PyDict Str Enc) (H : GeneratorsOn T gens) (rounds : Nat) (F : FiniteSubgroup)
    (h : FiniteSubgroup.fromGenerators rounds gens = .ok F)
    (hd : ∀ l l' g g', gens.get? l = some g → gens.get? l' = some g' → g.Equal g' → l = l')
    (w w' : Str) (x x' : Enc) (hx : F.mappingClasses.get? w = some x) (hx' : F.mappingClasses.get? w' = some x') (he : x.Equal x') : w = w' := by
  obtain ⟨h0, st, h1, I, _⟩ := FiniteSubgroup.final H h
  have nd := I.distinct
  rw [h1] at nd
  refine nd ?_ w w' x x' hx hx' he
  unfold PyDict.values
  rw [List.pairwise_map]
  have hk : gens.Pairwise (fun p q => p.1 ≠ q.1) := by
    have := H.nodup
    unfold PyDict.keys List.Nodup at this
    rwa [List.pairwise_map] at this
  refine hk.imp_of_mem ?_
  intro p q hp hq hne
  have h1 := PyDict.get?_of_mem H.nodup hp
  have h2 := PyDict.get?_of_mem H.nodup hq
  exact ⟨fun h => hne (hd _ _ _ _ h1 h2 h), fun h => hne (hd _ _ _ _ h2 h1 h).symm⟩

/-- C44: when the names of the generators can be told apart in a concatenation, the stored mapping classes are closed under
multiplication by a generator on the left. -/
theorem C44_closed (T : Triangulation) (gens : PyDict Str Enc) (H : GeneratorsOn T gens) (hU : UniquelySpelled gens.keys) (rounds : Nat)
    (F : FiniteSubgroup) (h : FiniteSubgroup.fromGenerators rounds gens = .ok F) (l w : Str) (g x : Enc) (hg : gens.get? l = some g)
    (hx : F.mappingClasses.get? w = some x) :
    ∃ y, g.mul x = .ok y ∧ ∃ w' z, F.mappingClasses.get? w' = some z ∧ y.Equal z := by
  obtain ⟨h0, st, h1, I, hc⟩ := FiniteSubgroup.final H h
  obtain ⟨y, a, z, b, c⟩ := hc hU w x hx l (PyDict.get?_isSome_iff.1 (by rw [hg]; rfl)) g hg
  obtain ⟨w', hw'⟩ := (I.seen z).1 b
  rw [h1] at hw'
  exact ⟨y, a, w', z, hw', c⟩

/-- C44: hence every product of generators is equal to a stored mapping class. -/
theorem C44_every_product (T : Triangulation) (gens : PyDict Str Enc) (H : GeneratorsOn T gens) (hU : UniquelySpelled gens.keys) (rounds : Nat)
    (F : FiniteSubgroup) (h : FiniteSubgroup.fromGenerators rounds gens = .ok F) (ls : List Str) (x : Enc) (hx : IsProduct gens ls x) :
    ∃ w z, F.mappingClasses.get? w = some z ∧ x.Equal z := by
  obtain ⟨_, _, hgen, hsp⟩ := C44_words T gens H rounds F h
  induction hx with
  | single l g hg =>
    obtain ⟨a, _, _⟩ := H.legal l g hg
    exact ⟨l, g, hgen l g hg, (a.equal_iff a).2 (.refl a)⟩
  | cons l g ls x y hg hx hy ih =>
    obtain ⟨w, z, hz, hxz⟩ := ih
    obtain ⟨y', hy', w', z', hz', hyz⟩ := C44_closed T gens H hU rounds F h l w g z hg hz
    obtain ⟨zl, zk, zs, ls', hw, hzp⟩ := hsp w z hz
    obtain ⟨zl', _, _, _⟩ := hsp w' z' hz'
    obtain ⟨gl, gk, gs⟩ := H.legal l g hg
    have hd := H.denotes hx
    have hyd := H.denotes (.cons l g ls x y hg hx hy)
    have hyd' := H.denotes (.cons l g ls' z y' hg hzp hy')
    have hS := H.group_legal
    have hag := ((hd.legal.equal_iff zl).1 hxz).comp_left (Mcg.Denotes.composite hS (a := g) hg hd hyd)
      (Mcg.Denotes.composite hS (a := g) hg (H.denotes hzp) hyd') gl hd.legal zl (gs.trans hd.target.symm)
    exact ⟨w', z', hz', (hyd.legal.equal_iff zl').2 (hag.trans hyd'.legal ((hyd'.legal.equal_iff zl').1 hyz))⟩

/-- C44: the search ends whenever the generators have only finitely many different products. -/
theorem C44_terminates (T : Triangulation) (gens : PyDict Str Enc) (H : GeneratorsOn T gens) (E : List Enc) (hE : ∀ e ∈ E, e.Legal)
    (hP : ∀ ls x, IsProduct gens ls x → ∃ e ∈ E, x.Equal e) :
    ∃ F, FiniteSubgroup.fromGenerators (E.length + gens.length) gens = .ok F := by
  obtain ⟨mcs, hm⟩ := (FiniteSubgroup.loop_spec H (E.length + gens.length) (FiniteSubgroup.inv_start H) (by intro _ w hw; cases hw)).2 E hE hP (by
    have h1 : FiniteSubgroup.missing E gens.values ≤ E.length := by unfold FiniteSubgroup.missing; exact List.length_filter_le _ _
    have h2 : (sortedKeys gens).length = gens.length := by unfold sortedKeys; rw [List.length_insertionSort]; simp [PyDict.keys]
    dsimp only
    omega)
  unfold FiniteSubgroup.fromGenerators
  rw [hm, py_bind_ok]
  refine ⟨⟨mcs, gens.keys⟩, if_neg ?_⟩
  intro he
  have he' : mcs = [] := by simpa using he
  obtain ⟨st, a, b, _⟩ := (FiniteSubgroup.loop_spec H _ (FiniteSubgroup.inv_start H) (by intro _ w hw; cases hw)).1 mcs hm
  cases hgs : gens with
  | nil => exact H.nonempty hgs
  | cons p rest =>
    have := b.gen p.1 p.2 (by rw [hgs]; simp [PyDict.get?])
    rw [a, he'] at this
    cases this

/-- C44: names of one character can be told apart. -/
theorem C44_one_character (names : List Str) (h : ∀ l ∈ names, l.length = 1) : UniquelySpelled names := by
  intro u
  induction u with
  | nil =>
    intro v _ hv he
    cases v with
    | nil => rfl
    | cons b v =>
      have h1 := congrArg List.length he
      rw [List.flatten_cons, List.length_append, h b (hv b (by simp))] at h1
      simp at h1
      omega
  | cons a u ih =>
    intro v hu hv he
    have ha := h a (hu a (by simp))
    cases v with
    | nil =>
      have h1 := congrArg List.length he
      rw [List.flatten_cons, List.length_append, ha] at h1
      simp at h1
    | cons b v =>
      have hb := h b (hv b (by simp))
      rw [List.flatten_cons, List.flatten_cons] at he
      obtain ⟨h1, h2⟩ := List.append_inj he (by rw [ha, hb])
      rw [h1, ih v (fun l hl => hu l (by simp [hl])) (fun l hl => hv l (by simp [hl])) h2]

/-! ## It is a group -/

namespace Mcg
variable {S : Mcg}

theorem wordLam_append {R : Type} [CommRing R] [LinearOrder R] [Halvable R] (u v : List Str) (L : Lam R) :
    S.wordLam (u ++ v) L = (S.wordLam v L >>= S.wordLam u) := by
  induction u with
  | nil => simp [wordLam]; cases S.wordLam v L <;> rfl
  | cons a u ih =>
    rw [List.cons_append, wordLam, ih]
    cases S.wordLam v L <;> rfl

theorem wordHom_append (u v : List Str) (x : Hom) : S.wordHom (u ++ v) x = (S.wordHom v x >>= S.wordHom u) := by
  induction u with
  | nil => simp [wordHom]; cases S.wordHom v x <;> rfl
  | cons a u ih =>
    rw [List.cons_append, wordHom, ih]
    cases S.wordHom v x <;> rfl

theorem Denotes.append {u v : List Str} {x y z : Enc} (hx : S.Denotes u x) (hz : S.Denotes v z) (hy : S.Denotes (u ++ v) y) : Enc.IsComposite y x z := by
  refine ⟨hy.source.trans hz.source.symm, hy.target.trans hx.target.symm, ?_, ?_⟩
  · intro R _ _ _ _ L hL
    by_cases ht : L.tri = S.triangulation
    · rw [hy.lam R L hL ht, wordLam_append, ← hz.lam R L hL ht]
      cases hz' : z.applyLam L with
      | error e => rfl
      | ok L' =>
        obtain ⟨a, b, _⟩ := hz.legal.undo hL hz'
        exact (hx.lam R L' a (b.trans hz.target)).symm
    · rw [Enc.applyLam_eq, if_neg (fun h => ht (h.symm.trans hy.source)), Enc.applyLam_eq, if_neg (fun h' => ht (h'.symm.trans hz.source))]; rfl
  · intro c hc
    by_cases ht : c.tri = S.triangulation
    · rw [hy.hom c hc ht, wordHom_append, ← hz.hom c hc ht]
      obtain ⟨h1, h2, h3⟩ := hz.legal.act_ok hc (ht.trans hz.source.symm)
      rw [h1, py_bind_ok, py_bind_ok]
      exact (hx.hom _ h2 (h3.trans hz.target)).symm
    · rw [Enc.applyHom_eq, if_neg (fun h => ht (h.symm.trans hy.source)), Enc.applyHom_eq, if_neg (fun h' => ht (h'.symm.trans hz.source))]; rfl

end Mcg

/-- if `y = x * z` agrees with `x` then `z` is the identity -/
theorem Enc.Agree.cancel {x y z p : Enc} (hx : x.Legal) (hz : z.Legal) (hxt : x.source = T) (hzs : z.source = T) (hzt : z.target = T)
    (hc : Enc.IsComposite y x z) (H : y.Agree x) (hp : T.idEncoding = .ok p) (hT : T.Valid) : z.Agree p := by
  obtain ⟨p', h1, h2, h3, h4, h5, h6, h7⟩ := hT.idEncoding_spec
  cases h1.symm.trans hp
  have hw := hT.asLamination_consistent.1
  refine ⟨hzs.trans h4.symm, hzt.trans h5.symm, ?_, ?_⟩
  · rw [hzs, h6 Int _ hw rfl]
    have e := H.edges
    rw [hc.source, hzs, hc.lam Int _ hw] at e
    obtain ⟨L, l1, l2, l3⟩ := hz.selfImage_ok
    unfold Enc.selfImage at l1
    rw [hzs] at l1
    rw [l1] at e ⊢
    rw [py_bind_ok] at e
    obtain ⟨M, m1, m2, m3⟩ := hx.selfImage_ok
    unfold Enc.selfImage at m1
    rw [hxt] at m1
    rw [m1] at e
    have a := (hx.undo (hz.undo hw l1).1 e).2.2.2
    have b := (hx.undo hw m1).2.2.2
    rw [← a, ← b]
  · intro c u v hcw hu hv
    have tc : c.tri = z.source := by
      rw [Enc.applyHom_eq] at hu; split at hu
      · rename_i h'; exact h'.symm
      · cases hu
    rw [h7 c hcw (tc.trans hzs)] at hv
    cases hv
    obtain ⟨a1, a2, a3⟩ := hz.act_ok hcw tc
    cases a1.symm.trans hu
    obtain ⟨b1, b2, b3⟩ := hx.act_ok hcw (tc.trans (hzs.trans hxt.symm))
    obtain ⟨c1, c2, c3⟩ := hx.act_ok a2 (a3.trans (hzt.trans hxt.symm))
    have := H.homology c (x.act (z.act c)) (x.act c) hcw (by rw [hc.hom c hcw, a1, py_bind_ok, c1]) b1
    exact (hx.hom_congr a2 hcw c1 b1).1 this

theorem IsProduct.get {ls : List Str} {x : Enc} (h : IsProduct gens ls x) : ls ≠ [] := h.letters.1

theorem GeneratorsOn.power_trivial (H : GeneratorsOn T gens) (F : List Enc) (hF : ∀ e ∈ F, e.Legal)
    (hP : ∀ ls x, IsProduct gens ls x → ∃ e ∈ F, x.Equal e) {ls : List Str} {x p : Enc} (hx : IsProduct gens ls x) (hp : T.idEncoding = .ok p) :
    ∃ n z, IsProduct gens (List.replicate (n + 1) ls).flatten z ∧ z.Agree p := by
  have hl : ∀ n, (List.replicate (n + 1) ls).flatten ≠ [] ∧ ∀ l ∈ (List.replicate (n + 1) ls).flatten, l ∈ gens.keys := by
    intro n
    constructor
    · rw [List.replicate_succ, List.flatten_cons]
      simp [hx.letters.1]
    · intro l hl
      obtain ⟨a, h1, h2⟩ := List.mem_flatten.1 hl
      rw [List.eq_of_mem_replicate h1] at h2
      exact hx.letters.2 l h2
  have hprod : ∀ n, ∃ y, IsProduct gens (List.replicate (n + 1) ls).flatten y := fun n => H.exists_product (hl n).1 (hl n).2
  choose pw hpw using hprod
  have hin : ∀ n, ∃ e : {e // e ∈ F}, (pw n).Equal e.1 := fun n => by
    obtain ⟨e, he, h⟩ := hP _ _ (hpw n); exact ⟨⟨e, he⟩, h⟩
  choose e he using hin
  have : Finite {e // e ∈ F} := List.finite_toSet F
  obtain ⟨i, j, hij, heq⟩ := Finite.exists_ne_map_eq_of_infinite e
  have main : ∀ i j, i < j → e i = e j → ∃ n z, IsProduct gens (List.replicate (n + 1) ls).flatten z ∧ z.Agree p := by
    intro i j hij heq
    obtain ⟨d, hd⟩ : ∃ d, j = i + (d + 1) := ⟨j - i - 1, by omega⟩
    have hi := H.denotes (hpw i)
    have hj := H.denotes (hpw j)
    have hdn := H.denotes (hpw d)
    have hsplit : (List.replicate (j + 1) ls).flatten = (List.replicate (i + 1) ls).flatten ++ (List.replicate (d + 1) ls).flatten := by
      rw [← List.flatten_append, List.replicate_append_replicate, hd]; congr 2; omega
    rw [hsplit] at hj
    have hc := Mcg.Denotes.append hi hdn hj
    have hel := hF (e i).1 (e i).2
    have h1 := (hi.legal.equal_iff hel).1 (he i)
    have h2 : (pw j).Agree (e i).1 := by
      rw [heq]; exact (hj.legal.equal_iff (hF (e j).1 (e j).2)).1 (he j)
    exact ⟨d, pw d, hpw d, (h2.trans hel h1.symm).cancel hi.legal hdn.legal hi.source hdn.source hdn.target hc hp H.valid⟩
  rcases Nat.lt_or_gt_of_ne hij with h | h
  · exact main i j h heq
  · exact main j i h heq.symm

/-- C44: the identity is among the mapping classes returned, and every one of them has an inverse among them. -/
theorem C44_group (T : Triangulation) (gens : PyDict Str Enc) (H : GeneratorsOn T gens) (hU : UniquelySpelled gens.keys) (rounds : Nat)
    (F : FiniteSubgroup) (h : FiniteSubgroup.fromGenerators rounds gens = .ok F) :
    ∃ p, T.idEncoding = .ok p ∧ (∃ w z, F.mappingClasses.get? w = some z ∧ z.Equal p) ∧
    (∀ w x w' x', F.mappingClasses.get? w = some x → F.mappingClasses.get? w' = some x' →
      ∃ y, x.mul x' = .ok y ∧ ∃ v z, F.mappingClasses.get? v = some z ∧ y.Equal z) ∧
    ∀ w x, F.mappingClasses.get? w = some x → ∃ w' x' y, F.mappingClasses.get? w' = some x' ∧ x.mul x' = .ok y ∧ y.Equal p := by
  obtain ⟨p, hp, pl, pk, ps, pt, p6, p7⟩ := H.valid.idEncoding_spec
  obtain ⟨h0, hnd, hgen, hsp⟩ := C44_words T gens H rounds F h
  have hall := C44_every_product T gens H hU rounds F h
  have hS := H.group_legal
  have hFl : ∀ e ∈ F.mappingClasses.values, e.Legal := by
    intro e he
    obtain ⟨q, hq, rfl⟩ := List.mem_map.1 he
    exact (hsp q.1 q.2 (PyDict.get?_of_mem hnd hq)).1
  have hFP : ∀ ls x, IsProduct gens ls x → ∃ e ∈ F.mappingClasses.values, x.Equal e := by
    intro ls x hx
    obtain ⟨w, z, hz, hxz⟩ := hall ls x hx
    exact ⟨z, List.mem_map.2 ⟨_, PyDict.mem_of_get? hz, rfl⟩, hxz⟩
  have hmul : ∀ u v x z, IsProduct gens u x → IsProduct gens v z → ∃ y, x.mul z = .ok y ∧ Enc.IsComposite y x z ∧ y.Legal := by
    intro u v x z hx hz
    have dx := H.denotes hx
    have dz := H.denotes hz
    obtain ⟨y, y1, y2⟩ := C14_composition x z dx.legal dz.legal (dx.source.trans dz.target.symm)
    exact ⟨y, y1, y2.2, y2.1⟩
  have hcong : ∀ {y y' x z : Enc}, y.Legal → y'.Legal → Enc.IsComposite y x z → Enc.IsComposite y' x z → y.Agree y' := by
    intro y y' x z hy hy' c c'
    have : y.SameMap y' := ⟨c.source.trans c'.source.symm, c.target.trans c'.target.symm, fun R _ _ _ _ L hL => (c.lam R L hL).trans (c'.lam R L hL).symm,
      fun a ha => (c.hom a ha).trans (c'.hom a ha).symm⟩
    exact (hy.equal_iff hy').1 (C47_same_map y y' hy hy' this)
  have happ : ∀ u v x z y, IsProduct gens u x → IsProduct gens v z → x.mul z = .ok y → ∃ y', IsProduct gens (u ++ v) y' ∧ y.Legal ∧ y.Agree y' := by
    intro u v x z y hx hz hy
    obtain ⟨y1, a, b, c⟩ := hmul u v x z hx hz
    cases a.symm.trans hy
    obtain ⟨y', hy'⟩ := H.exists_product (ls := u ++ v) (by simp [hx.letters.1]) (by
      intro l hl
      rcases List.mem_append.1 hl with h | h
      · exact hx.letters.2 l h
      · exact hz.letters.2 l h)
    have dy := H.denotes hy'
    exact ⟨y', hy', c, hcong c dy.legal b (Mcg.Denotes.append (H.denotes hx) (H.denotes hz) dy)⟩
  refine ⟨p, hp, ?_, ?_, ?_⟩
  · cases hgs : gens with
    | nil => exact absurd hgs H.nonempty
    | cons q rest =>
      have hq : gens.get? q.1 = some q.2 := by rw [hgs]; simp [PyDict.get?]
      obtain ⟨n, z, hz, hag⟩ := H.power_trivial _ hFl hFP (.single q.1 q.2 hq) hp
      obtain ⟨w, z', hz', hzz⟩ := hall _ z hz
      have dz := H.denotes hz
      have zl := (hsp w z' hz').1
      exact ⟨w, z', hz', (zl.equal_iff pl).2 (((dz.legal.equal_iff zl).1 hzz).symm.trans dz.legal hag)⟩
  · intro w x w' x' hx hx'
    obtain ⟨xl, xk, xs, u, hu, hxp⟩ := hsp w x hx
    obtain ⟨xl', xk', xs', v, hv, hxp'⟩ := hsp w' x' hx'
    obtain ⟨y, y1, y2, y3⟩ := hmul u v x x' hxp hxp'
    obtain ⟨y', a, b, c⟩ := happ u v x x' y hxp hxp' y1
    obtain ⟨t, z, hz, hyz⟩ := hall _ y' a
    have dy := H.denotes a
    have zl := (hsp t z hz).1
    exact ⟨y, y1, t, z, hz, (b.equal_iff zl).2 (c.trans dy.legal ((dy.legal.equal_iff zl).1 hyz))⟩
  · intro w x hx
    obtain ⟨xl, xk, xs, u, hu, hxp⟩ := hsp w x hx
    obtain ⟨n, z, hz, hag⟩ := H.power_trivial _ hFl hFP hxp hp
    -- `z` is the power with exponent `n + 1`; we use exponent `2 * n + 1` for the inverse, so that it is never zero
    have hn : (List.replicate (2 * n + 1) u).flatten ≠ [] ∧ ∀ l ∈ (List.replicate (2 * n + 1) u).flatten, l ∈ gens.keys := by
      constructor
      · rw [List.replicate_succ, List.flatten_cons]; simp [hxp.letters.1]
      · intro l hl
        obtain ⟨a, h1, h2⟩ := List.mem_flatten.1 hl
        rw [List.eq_of_mem_replicate h1] at h2
        exact hxp.letters.2 l h2
    obtain ⟨i, hi⟩ := H.exists_product hn.1 hn.2
    obtain ⟨t, i', hi', hii⟩ := hall _ i hi
    obtain ⟨il, ik, is', v, hv, hip⟩ := hsp t i' hi'
    obtain ⟨y, y1, y2, y3⟩ := hmul u v x i' hxp hip
    have di := H.denotes hi
    -- x * i agrees with z * z
    obtain ⟨xi, x1, x2, x3⟩ := hmul u _ x i hxp hi
    have h1 : y.Agree xi := (((di.legal.equal_iff il).1 hii).symm).comp_left y2 x2 xl il di.legal (xs.trans ((H.denotes hip).target).symm)
    obtain ⟨xi', a, b, c⟩ := happ _ _ _ _ _ hxp hi x1
    obtain ⟨zz, z1, z2, z3⟩ := hmul _ _ z z hz hz
    obtain ⟨zz', d, e, f⟩ := happ _ _ _ _ _ hz hz z1
    have hsame : u ++ (List.replicate (2 * n + 1) u).flatten = (List.replicate (n + 1) u).flatten ++ (List.replicate (n + 1) u).flatten := by
      rw [← List.flatten_append, List.replicate_append_replicate, ← List.flatten_cons, ← List.replicate_succ]; congr 2; omega
    rw [hsame] at a
    cases a.unique d
    have dz := H.denotes hz
    -- z * z agrees with z * p, which agrees with z
    obtain ⟨zp, q1, q2⟩ := C14_composition z p dz.legal pl (dz.source.trans pt.symm)
    have h2 : zz.Agree zp := hag.comp_left z2 q2.2 dz.legal dz.legal pl (dz.source.trans dz.target.symm)
    have h3 : zp.Agree z := by
      have : zp.SameMap z := by
        refine ⟨q2.2.source.trans (ps.trans dz.source.symm), q2.2.target, ?_, ?_⟩
        · intro R _ _ _ _ L hL
          rw [q2.2.lam R L hL]
          by_cases ht : L.tri = T
          · rw [p6 R L hL ht, py_bind_ok]
          · rw [Enc.applyLam_eq, if_neg (fun h => ht (h.symm.trans ps)), Enc.applyLam_eq, if_neg (fun h' => ht (h'.symm.trans dz.source))]; rfl
        · intro c hc
          rw [q2.2.hom c hc]
          by_cases ht : c.tri = T
          · rw [p7 c hc ht, py_bind_ok]
          · rw [Enc.applyHom_eq, if_neg (fun h => ht (h.symm.trans ps)), Enc.applyHom_eq, if_neg (fun h' => ht (h'.symm.trans dz.source))]; rfl
      exact (q2.1.equal_iff dz.legal).1 (C47_same_map zp z q2.1 dz.legal this)
    have dzz := (H.denotes d).legal
    have tot : y.Agree p := h1.trans x3 (c.trans dzz (f.symm.trans z3 (h2.trans q2.1 (h3.trans dz.legal hag))))
    exact ⟨t, i', y, hi', y1, (y3.equal_iff pl).2 tot⟩

/-! ### Concrete cases -/

/-- the rotation of order six of the once-punctured torus -/
def rotation : Enc := match torus.encode [.dict [(0, -2), (1, -3), (2, -1)]] with
  | .ok h => h
  | .error _ => torusTwist

/-- its label map -/
def sixMap (x : Int) : Int := if x = 0 then -2 else if x = 1 then -3 else if x = 2 then -1 else if x = -1 then 1 else if x = -2 then 2 else 0

theorem sixMap_signedBij : torus.SignedBij sixMap := by
  have key : ∀ e ∈ torus.labels, torus.IsLabel (sixMap e) ∧ sixMap (inv e) = inv (sixMap e) ∧ ∀ e' ∈ torus.labels, sixMap e = sixMap e' → e = e' := by
    decide
  exact ⟨fun e he => (key e (mem_labels.2 he)).1, fun e e' he he' => (key e (mem_labels.2 he)).2.2 e' (mem_labels.2 he'),
    fun e he => (key e (mem_labels.2 he)).2.1⟩

theorem rotation_legal : rotation.Legal ∧ rotation.kind = .mappingClass ∧ rotation.source = torus := by
  have hl : ∃ m, torus.encodeRelabel [(0, -2), (1, -3), (2, -1)] = .ok m ∧ m.Legal := by
    refine sixMap_signedBij.encodeRelabel_legal torus_valid (by decide) ?_ (by decide)
    have : ∀ p ∈ ([(0, -2), (1, -3), (2, -1)] : PyDict Int Int), torus.IsLabel p.1 ∧ p.2 = sixMap p.1 := by decide
    exact fun e v hv => this _ hv
  obtain ⟨m, h1, h2⟩ := hl
  have h3 : EncItem.AllStandFor torus [.dict [(0, -2), (1, -3), (2, -1)]] ([m] ++ []) m.move.target :=
    .cons _ _ _ _ _ _ _ torus_valid
        (.relabel _ m (fun i h0 hi => by
          have hd : ∀ i ∈ torus.indices, i ∈ PyDict.keys [((0 : Int), (-2 : Int)), (1, -3), (2, -1)] ∨
            inv i ∈ PyDict.keys [((0 : Int), (-2 : Int)), (1, -3), (2, -1)] := by decide
          exact hd i (mem_indices.2 ⟨h0, hi.2⟩)) h1 h2)
        (.nil _ h2.valid.2.1)
  obtain ⟨k, k1, k2, _⟩ := C46_encode torus _ [.dict [(0, -2), (1, -3), (2, -1)]] _ (by simp) h3
  have h0 : torus.encode [.dict [(0, -2), (1, -3), (2, -1)]] = .ok rotation := by decide +kernel
  cases h0.symm.trans k1
  exact ⟨k2, by decide +kernel, by decide +kernel⟩

/-- the hypotheses are met by the cyclic group of order six -/
theorem rotation_generators : GeneratorsOn torus [(['r'], rotation)] ∧ UniquelySpelled (PyDict.keys [(['r'], rotation)]) := by
  refine ⟨⟨by simp, by simp [PyDict.keys], ?_⟩, C44_one_character _ (by simp [PyDict.keys])⟩
  intro name h hg
  have := PyDict.mem_of_get? hg
  simp only [List.mem_singleton, Prod.mk.injEq] at this
  rw [this.2]
  exact rotation_legal

example : (do let F ← FiniteSubgroup.fromGenerators 20 [(['r'], rotation)]; return F.mappingClasses.keys : Py _) =
    .ok [['r'], ['r', 'r'], ['r', 'r', 'r'], ['r', 'r', 'r', 'r'], ['r', 'r', 'r', 'r', 'r'], ['r', 'r', 'r', 'r', 'r', 'r']] := by decide +kernel

/-- the hypothesis of `C44_terminates` is met: the six powers are all the products -/
example : ∃ E : List Enc, (∀ e ∈ E, e.Legal) ∧ ∀ ls x, IsProduct [(['r'], rotation)] ls x → ∃ e ∈ E, x.Equal e := by
  obtain ⟨F, hF⟩ : ∃ F, FiniteSubgroup.fromGenerators 20 [(['r'], rotation)] = .ok F := by
    cases h : FiniteSubgroup.fromGenerators 20 [(['r'], rotation)] with
    | ok F => exact ⟨F, rfl⟩
    | error e =>
      have : (match FiniteSubgroup.fromGenerators 20 [(['r'], rotation)] with | .ok _ => true | .error _ => false) = true := by decide +kernel
      rw [h] at this; cases this
  obtain ⟨_, nd, _, sp⟩ := C44_words torus _ rotation_generators.1 20 F hF
  refine ⟨F.mappingClasses.values, ?_, ?_⟩
  · intro e he
    obtain ⟨q, hq, rfl⟩ := List.mem_map.1 he
    exact (sp q.1 q.2 (PyDict.get?_of_mem nd hq)).1
  · intro ls x hx
    obtain ⟨w, z, hz, hxz⟩ := C44_every_product torus _ rotation_generators.1 rotation_generators.2 20 F hF ls x hx
    exact ⟨z, List.mem_map.2 ⟨_, PyDict.mem_of_get? hz, rfl⟩, hxz⟩

/-- C44 without the hypothesis on the names is false: with generators named `a` (of order six) and `aa` (the identity) the square of
`a` is never considered, because its name is taken. -/
theorem C44_names_collide : ∃ p F, torus.idEncoding = .ok p ∧ FiniteSubgroup.fromGenerators 20 [(['a'], rotation), (['a', 'a'], p)] = .ok F ∧
    F.mappingClasses.keys = [['a'], ['a', 'a']] ∧
    ∃ y, rotation.mul rotation = .ok y ∧ y.eq rotation = .ok false ∧ y.eq p = .ok false := by
  refine ⟨_, _, rfl, rfl, by decide +kernel, _, rfl, by decide +kernel, by decide +kernel⟩

/-- C44 without the hypothesis that the generators are different is false: equal generators are both kept. -/
theorem C44_repeated_generators : ∃ F, FiniteSubgroup.fromGenerators 20 [(['a'], rotation), (['b'], rotation)] = .ok F ∧
    F.mappingClasses.get? ['a'] = some rotation ∧ F.mappingClasses.get? ['b'] = some rotation := by
  refine ⟨_, rfl, by decide +kernel, by decide +kernel⟩

end Curver
