import Verif.Model.AllEncodings
import Verif.Proofs.EncodeSeq

namespace Curver
open Triangulation EncItem

namespace AllEnc

/-- the encoding that performs the moves `ms` -/
def enc (T : Triangulation) (ms : List LMove) (U : Triangulation) : Enc := ⟨if T = U then .mappingClass else .mapping, ms.reverse, T, U⟩

/-- the moves flip the edges of the list one after the other -/
def Flips (T : Triangulation) (es : List Int) (ms : List LMove) (U : Triangulation) : Prop := AllStandFor T (es.map .flip) ms U

theorem flips_nil {T U : Triangulation} {ms : List LMove} (hT : T.Valid) : Flips T [] ms U ↔ ms = [] ∧ U = T := by
  constructor
  · intro h; cases h; exact ⟨rfl, rfl⟩
  · rintro ⟨rfl, rfl⟩; exact .nil _ hT

theorem flips_cons {T U : Triangulation} {e : Int} {es : List Int} {ms : List LMove} (hT : T.Valid) :
    Flips T (e :: es) ms U ↔ ∃ m ns, T.encodeFlip e = .ok m ∧ ms = m :: ns ∧ Flips m.move.target es ns U := by
  constructor
  · intro h
    unfold Flips at h
    rw [List.map_cons] at h
    cases h with
    | cons _ U' _ _ _ ms' ns hT h hs =>
      cases h with
      | flip _ m h => exact ⟨m, ns, h, rfl, hs⟩
  · rintro ⟨m, ns, h, rfl, hs⟩
    exact AllStandFor.cons T _ U _ _ [m] ns hT (.flip e m h) hs

theorem Flips.unique {T U U' : Triangulation} {es es' : List Int} {ms : List LMove} (hT : T.Valid) (h : Flips T es ms U)
    (h' : Flips T es' ms U') : es = es' ∧ U = U' := by
  induction es generalizing T es' ms with
  | nil =>
    obtain ⟨rfl, rfl⟩ := (flips_nil hT).1 h
    cases es' with
    | nil => exact ⟨rfl, ((flips_nil hT).1 h').2.symm⟩
    | cons e' es' =>
      obtain ⟨m, ns, -, h, -⟩ := (flips_cons hT).1 h'
      cases h
  | cons e es ih =>
    obtain ⟨m, ns, h1, rfl, h2⟩ := (flips_cons hT).1 h
    cases es' with
    | nil => exact absurd ((flips_nil hT).1 h').1 (by simp)
    | cons e' es' =>
      obtain ⟨m', ns', k1, k, k2⟩ := (flips_cons hT).1 h'
      obtain ⟨rfl, rfl⟩ := List.cons.inj k
      obtain ⟨T', -, t1, rfl⟩ := hT.encodeFlip_ok_iff.1 h1
      obtain ⟨T'', -, t2, e⟩ := hT.encodeFlip_ok_iff.1 k1
      injection e with e _
      injection e with e
      injection e with _ _ e _
      obtain ⟨rfl, rfl⟩ := ih t1.valid h2 k2
      exact ⟨by rw [e], rfl⟩

theorem Flips.plain {T U : Triangulation} {es : List Int} {ms : List LMove} (hT : T.Valid) (h : Flips T es ms U) :
    ∀ m ∈ ms, m.move.isIdentityIsometry = false := by
  induction es generalizing T ms with
  | nil => obtain ⟨rfl, rfl⟩ := (flips_nil hT).1 h; simp
  | cons e es ih =>
    obtain ⟨m, ns, h1, rfl, h2⟩ := (flips_cons hT).1 h
    obtain ⟨T', -, t1, rfl⟩ := hT.encodeFlip_ok_iff.1 h1
    intro m hm
    rcases List.mem_cons.1 hm with rfl | hm
    · rfl
    · exact ih t1.valid h2 m hm

theorem trim_plain {s : List LMove} (h : ∀ m ∈ s, m.move.isIdentityIsometry = false) : Enc.trim s = s := by
  have d : ∀ o : Option LMove, (∀ m, o = some m → m ∈ s) → Enc.droppable s o = false := by
    intro o ho
    unfold Enc.droppable
    cases o with
    | none => simp
    | some m => simp [h m (ho m rfl)]
  unfold Enc.trim
  simp only [d _ (fun m hm => List.mem_of_getLast? hm), d _ (fun m hm => List.mem_of_head? hm), Bool.false_eq_true, if_false]

theorem Flips.enc_legal {T U : Triangulation} {es : List Int} {ms : List LMove} (h : Flips T es ms U) (hne : ms ≠ []) :
    (enc T ms U).Legal := by
  refine ⟨by simpa [enc] using hne, ?_, ?_⟩
  · show Path T ms.reverse.reverse U
    rw [List.reverse_reverse]; exact h.path
  · intro h
    unfold enc at h ⊢
    by_contra hc
    dsimp only at h hc
    rw [if_neg hc] at h
    cases h

/-- `encode` of a list of flips -/
theorem encode_iff {T : Triangulation} (hT : T.Valid) {es : List Int} (hne : es ≠ []) {E : Enc} :
    T.encode (es.map .flip) = .ok E ↔ ∃ ms U, Flips T es.reverse ms U ∧ E = enc T ms U := by
  have key : ∀ ms U, Flips T es.reverse ms U → T.encode (es.map .flip) = .ok (enc T ms U) := by
    intro ms U h
    have hm : ms ≠ [] := by
      rintro rfl
      cases hr : es.reverse with
      | nil => exact hne (by simpa using hr)
      | cons e l =>
        rw [hr] at h
        obtain ⟨m, ns, -, h, -⟩ := (flips_cons hT).1 h
        cases h
    have := AllStandFor.encode h hm
    rw [← List.map_reverse, List.reverse_reverse] at this
    rw [this]
    have p : ∀ m ∈ ms.reverse, m.move.isIdentityIsometry = false := fun m hm => h.plain hT m (List.mem_reverse.1 hm)
    rw [trim_plain p, trim_plain p]; rfl
  constructor
  · intro h
    have : ∃ ms U, Flips T es.reverse ms U := by
      unfold Triangulation.encode at h
      simp only [py_bind_eq_ok] at h
      obtain ⟨_, _, ts, h, _⟩ := h
      rw [← List.map_reverse] at h
      clear key
      have : ∀ (l : List Int) (S : Triangulation) (ts : List EncTerm), S.Valid → T.encodeTerms S (l.map .flip) = .ok ts → ∃ ms U, Flips S l ms U := by
        intro l
        induction l with
        | nil => intro S ts hS _; exact ⟨[], S, .nil S hS⟩
        | cons e l ih =>
          intro S ts hS h
          simp only [List.map_cons, Triangulation.encodeTerms, Triangulation.encodeItem, py_bind_eq_ok] at h
          obtain ⟨t, ⟨m, h1, k, h2, h3⟩, ts', h4, -⟩ := h
          cases h3
          have hl : m.Legal := .flip S e m hS h1
          rw [hl.encode] at h2
          cases h2
          obtain ⟨ms, U, h⟩ := ih _ _ hl.valid.2.1 h4
          exact ⟨_, _, (flips_cons hS).2 ⟨m, ms, h1, rfl, h⟩⟩
      exact this _ _ _ hT h
    obtain ⟨ms, U, hf⟩ := this
    rw [key ms U hf] at h
    cases h
    exact ⟨ms, U, hf, rfl⟩
  · rintro ⟨ms, U, h, rfl⟩; exact key ms U h

/-- what `all_encodings` yields -/
theorem allEncodings_spec (n : Nat) {T : Triangulation} (hT : T.Valid) : ∃ gs, allEncodings n T = .ok gs ∧ gs.Nodup ∧
    ∀ E, E ∈ gs ↔ T.idEncoding = .ok E ∨ ∃ es ms U, es ≠ [] ∧ es.length ≤ n ∧ (∀ e ∈ es, 0 ≤ e) ∧ Flips T es ms U ∧ E = enc T ms U := by
  induction n generalizing T with
  | zero =>
    obtain ⟨i, h1, h2, h3, h4, h5⟩ := hT.idEncoding
    refine ⟨[⟨.mappingClass, [i], T, T⟩], by unfold allEncodings; rw [h1]; rfl, by simp, fun E => ?_⟩
    rw [h1, List.mem_singleton]
    constructor
    · rintro rfl; exact .inl rfl
    · rintro (h | ⟨es, ms, U, e1, e2, -⟩)
      · cases h; rfl
      · exact absurd (List.length_eq_zero_iff.1 (by omega)) e1
  | succ n ih =>
    obtain ⟨i, h1, h2, h3, h4, h5⟩ := hT.idEncoding
    have each : ∀ edge ∈ T.indices, ∃ r : List Enc, (do
        if ← T.isFlippable edge then do
          let m ← T.encodeFlip edge
          let step ← m.encode
          let encodings ← allEncodings n step.target
          encodings.mapM (fun encoding => encoding.mul step)
        else return [] : Py (List Enc)) = .ok r ∧ r.Nodup ∧
        ∀ E, E ∈ r ↔ ∃ es ms U, es.length ≤ n ∧ (∀ e ∈ es, 0 ≤ e) ∧ Flips T (edge :: es) ms U ∧ E = enc T ms U := by
      intro edge hedge
      have hl : T.IsLabel edge := by
        unfold indices at hedge
        rw [List.mem_map] at hedge
        obtain ⟨j, hj, rfl⟩ := hedge
        rw [List.mem_range] at hj
        exact ⟨by simp, by simpa using hj⟩
      by_cases hf : T.Flippable edge
      · obtain ⟨T', t1, t2⟩ := hT.encodeFlip_eq hf
        generalize hm : (⟨.flip ⟨T, T', edge, T.sq edge⟩, .flip ⟨T', T, inv edge, T'.sq (inv edge)⟩⟩ : LMove) = m at t2
        have ms' : m.move.source = T := by rw [← hm]; rfl
        have mt : m.move.target = T' := by rw [← hm]; rfl
        have mi : m.move.isIdentityIsometry = false := by rw [← hm]; rfl
        have hml : m.Legal := .flip T edge m hT t2
        obtain ⟨gs, g1, g2, g3⟩ := ih t1.valid
        obtain ⟨j, j1, j2, j3, j4, j5⟩ := t1.valid.idEncoding
        have hstep := hml.encode
        rw [ms', mt] at hstep
        have sl : (⟨if T = T' then .mappingClass else .mapping, [m], T, T'⟩ : Enc).Legal := by
          have := Flips.enc_legal (T := T) (es := [edge]) (ms := [m]) (U := T') ((flips_cons hT).2 ⟨m, [], t2, rfl, by
            rw [mt]; exact (flips_nil t1.valid).2 ⟨rfl, rfl⟩⟩) (by simp)
          exact this
        -- the product with the identity and with flips
        have p1 : (⟨.mappingClass, [j], T', T'⟩ : Enc).mul ⟨if T = T' then .mappingClass else .mapping, [m], T, T'⟩ = .ok (enc T [m] T') := by
          have il : (⟨.mappingClass, [j], T', T'⟩ : Enc).Legal :=
            ⟨by simp, by have := Path.single j2; rw [j3, j4] at this; exact this, fun _ => rfl⟩
          rw [Enc.mul_eq il sl rfl]
          have : Enc.trim ([j] ++ [m]) = [m] := by
            unfold Enc.trim Enc.droppable
            simp [mi, j5]
          rw [this]
          unfold enc Enc.mulKind
          by_cases hTT : T = T'
          · subst hTT; simp [EncKind.isMapping]
          · rw [if_neg hTT]
            simp [EncKind.isMapping, Ne.symm hTT]
        have p2 : ∀ es ms U, es ≠ [] → Flips T' es ms U → (enc T' ms U).mul ⟨if T = T' then .mappingClass else .mapping, [m], T, T'⟩ =
            .ok (enc T (m :: ms) U) := by
          intro es ms U hne h
          have hms : ms ≠ [] := by
            rintro rfl
            cases es with
            | nil => exact hne rfl
            | cons e l =>
              obtain ⟨m, ns, -, h, -⟩ := (flips_cons t1.valid).1 h
              cases h
          rw [Enc.mul_eq (h.enc_legal hms) sl rfl]
          rw [trim_plain (by
            intro m' hm'
            rcases List.mem_append.1 hm' with hm' | hm'
            · exact h.plain t1.valid m' (List.mem_reverse.1 hm')
            · rw [List.mem_singleton.1 hm']; exact mi)]
          unfold enc Enc.mulKind
          dsimp only
          have a1 : (if T' = U then EncKind.mappingClass else .mapping).isMapping = true := by split_ifs <;> rfl
          have a2 : (if T = T' then EncKind.mappingClass else .mapping).isMapping = true := by split_ifs <;> rfl
          rw [a1, a2]
          by_cases hTU : T = U
          · subst hTU; simp
          · have hTU' : ¬ U = T := fun h => hTU h.symm
            simp [hTU, hTU']
        have tot : ∀ g ∈ gs, ∃ k, g.mul ⟨if T = T' then .mappingClass else .mapping, [m], T, T'⟩ = .ok k ∧
            ∃ es ms U, es.length ≤ n ∧ (∀ e ∈ es, 0 ≤ e) ∧ Flips T' es ms U ∧ k = enc T (m :: ms) U ∧
              (es = [] ∧ T'.idEncoding = .ok g ∨ es ≠ [] ∧ g = enc T' ms U) := by
          intro g hg
          rcases (g3 g).1 hg with h | ⟨es, ms, U, e1, e2, e3, e4, rfl⟩
          · rw [j1] at h
            cases h
            exact ⟨_, p1, [], [], T', by simp, by simp, (flips_nil t1.valid).2 ⟨rfl, rfl⟩, rfl, .inl ⟨rfl, j1⟩⟩
          · exact ⟨_, p2 es ms U e1 e4, es, ms, U, e2, e3, e4, rfl, .inr ⟨e1, rfl⟩⟩
        choose! F f1 f2 using tot
        have fm := mapM_ok f1
        refine ⟨gs.map F, ?_, ?_, ?_⟩
        · rw [(hT.comp.isFlippable_iff hl).2 hf, py_bind_ok, if_pos rfl, t2, py_bind_ok, hstep, py_bind_ok]
          dsimp only
          rw [g1, py_bind_ok]
          exact fm
        · refine List.Nodup.map_on ?_ g2
          intro x hx y hy hxy
          obtain ⟨es, ms, U, e1, e2, e3, e4, e5⟩ := f2 x hx
          obtain ⟨es', ms', U', e1', e2', e3', e4', e5'⟩ := f2 y hy
          rw [e4, e4'] at hxy
          unfold enc at hxy
          injection hxy with _ q1 _ q2
          have q1 := List.reverse_injective q1
          injection q1 with _ q1
          subst q1 q2
          obtain ⟨rfl, -⟩ := e3.unique t1.valid e3'
          rcases e5 with ⟨a, b⟩ | ⟨a, b⟩ <;> rcases e5' with ⟨a', b'⟩ | ⟨a', b'⟩
          · rw [b] at b'; injection b'
          · exact absurd a a'
          · exact absurd a' a
          · rw [b, b']
        · intro E
          rw [List.mem_map]
          constructor
          · rintro ⟨g, hg, rfl⟩
            obtain ⟨es, ms, U, e1, e2, e3, e4, e5⟩ := f2 g hg
            exact ⟨es, m :: ms, U, e1, e2, (flips_cons hT).2 ⟨m, ms, t2, rfl, by rw [mt]; exact e3⟩, e4⟩
          · rintro ⟨es, ms, U, e1, e2, e3, rfl⟩
            obtain ⟨m', ns, q1, rfl, q2⟩ := (flips_cons hT).1 e3
            rw [t2] at q1
            cases q1
            rw [mt] at q2
            by_cases hes : es = []
            · subst hes
              obtain ⟨rfl, rfl⟩ := (flips_nil t1.valid).1 q2
              have hg := (g3 _).2 (.inl j1)
              refine ⟨_, hg, ?_⟩
              have := f1 _ hg
              rw [p1] at this
              injection this with this
              exact this.symm
            · have hg := (g3 _).2 (.inr ⟨es, ns, U, hes, e1, e2, q2, rfl⟩)
              refine ⟨_, hg, ?_⟩
              have := f1 _ hg
              rw [p2 es ns U hes q2] at this
              injection this with this
              exact this.symm
      · refine ⟨[], ?_, List.nodup_nil, fun E => ?_⟩
        · have : T.isFlippable edge = .ok false := by
            rw [hT.comp.isFlippable_eq hl]
            rw [← hT.comp.isFlippable_iff hl, hT.comp.isFlippable_eq hl] at hf
            simpa using hf
          rw [this, py_bind_ok]; rfl
        · constructor
          · intro h; cases h
          · rintro ⟨es, ms, U, e1, e2, e3, rfl⟩
            obtain ⟨m', ns, q1, rfl, q2⟩ := (flips_cons hT).1 e3
            obtain ⟨T', t1, -⟩ := hT.encodeFlip_ok_iff.1 q1
            exact absurd t1 hf
    choose! G k1 k2 k3 using each
    refine ⟨⟨.mappingClass, [i], T, T⟩ :: (T.indices.map G).flatten, ?_, ?_, ?_⟩
    · unfold allEncodings
      rw [h1, py_bind_ok, mapM_ok k1]; rfl
    · have hd : ∀ e ∈ T.indices, ∀ E ∈ G e, ∃ m ns, T.encodeFlip e = .ok m ∧ E.sequence = (m :: ns).reverse := by
        intro e he E hE
        obtain ⟨es, ms, U, -, -, h, rfl⟩ := (k3 e he E).1 hE
        obtain ⟨m, ns, q1, rfl, -⟩ := (flips_cons hT).1 h
        exact ⟨m, ns, q1, rfl⟩
      rw [List.nodup_cons, ← List.flatMap_def, List.nodup_flatMap]
      refine ⟨?_, fun e he => k2 e he, ?_⟩
      · intro h
        obtain ⟨e, he, h⟩ := List.mem_flatMap.1 h
        obtain ⟨m, ns, q1, q2⟩ := hd e he _ h
        obtain ⟨T', -, t1, rfl⟩ := hT.encodeFlip_ok_iff.1 q1
        have := congrArg List.getLast? q2
        simp only [List.reverse_cons, List.getLast?_singleton, List.getLast?_append, Option.some_or, Option.some.injEq] at this
        rw [this] at h5
        cases h5
      · have nd : T.indices.Nodup := by
          unfold indices
          exact List.Nodup.map (fun a b h => Int.ofNat.inj h) List.nodup_range
        refine nd.imp_of_mem ?_
        intro e f he hf hne E hE hF
        obtain ⟨m, ns, q1, q2⟩ := hd e he _ hE
        obtain ⟨m', ns', q1', q2'⟩ := hd f hf _ hF
        rw [q2] at q2'
        have q := List.reverse_injective q2'
        obtain ⟨rfl, -⟩ := List.cons.inj q
        obtain ⟨T', -, t1, rfl⟩ := hT.encodeFlip_ok_iff.1 q1
        obtain ⟨T'', -, t2, e⟩ := hT.encodeFlip_ok_iff.1 q1'
        injection e with e _
        injection e with e
        injection e with _ _ e _
        exact hne e
    · intro E
      rw [List.mem_cons, ← List.flatMap_def, List.mem_flatMap, h1]
      constructor
      · rintro (rfl | ⟨e, he, hE⟩)
        · exact .inl rfl
        · obtain ⟨es, ms, U, a, b, c, rfl⟩ := (k3 e he E).1 hE
          refine .inr ⟨e :: es, ms, U, by simp, by simpa using a, ?_, c, rfl⟩
          intro x hx
          rcases List.mem_cons.1 hx with rfl | hx
          · unfold indices at he
            obtain ⟨j, -, rfl⟩ := List.mem_map.1 he
            simp
          · exact b x hx
      · rintro (h | ⟨es, ms, U, a, b, c, d, rfl⟩)
        · injection h with h; exact .inl h.symm
        · cases es with
          | nil => exact absurd rfl a
          | cons e es =>
            refine .inr ⟨e, ?_, ?_⟩
            · obtain ⟨m, ns, q1, -, -⟩ := (flips_cons hT).1 d
              obtain ⟨T', q, -⟩ := hT.encodeFlip_ok_iff.1 q1
              have h0 := c e List.mem_cons_self
              have := q.1.2
              unfold indices
              exact List.mem_map.2 ⟨e.toNat, List.mem_range.2 (by omega), by simpa using h0⟩
            · exact (k3 e (by
                obtain ⟨m, ns, q1, -, -⟩ := (flips_cons hT).1 d
                obtain ⟨T', q, -⟩ := hT.encodeFlip_ok_iff.1 q1
                have h0 := c e List.mem_cons_self
                have := q.1.2
                unfold indices
                exact List.mem_map.2 ⟨e.toNat, List.mem_range.2 (by omega), by simpa using h0⟩) _).2
                ⟨es, ms, U, by simpa using b, fun x hx => c x (List.mem_cons_of_mem _ hx), d, rfl⟩

end AllEnc
end Curver
