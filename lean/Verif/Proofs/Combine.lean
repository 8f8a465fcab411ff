import Verif.Proofs.Conjugate

namespace Curver
open Triangulation

theorem EncItem.AllStandFor.append {S T U : Triangulation} {is js : List EncItem} {ms ns : List LMove} (h : AllStandFor S is ms T)
    (h' : AllStandFor T js ns U) : AllStandFor S (is ++ js) (ms ++ ns) U := by
  induction h with
  | nil T hT => exact h'
  | cons T U V item items ms ns hT h hs ih =>
    rw [List.cons_append, List.append_assoc]
    exact .cons _ _ _ _ _ _ _ hT h (ih h')

theorem EncItem.AllStandFor.single {S T : Triangulation} {i : EncItem} {ms : List LMove} (hS : S.Valid) (hT : T.Valid)
    (h : i.StandsFor S ms T) : AllStandFor S [i] ms T := by
  have := EncItem.AllStandFor.cons S T T i [] ms [] hS h (.nil T hT)
  rwa [List.append_nil] at this

namespace Enc

/-- one step of `combine_isometries`; `π` takes the current triangulation to the one reached by the new moves -/
theorem combineStep_ok {m : LMove} (hm : m.Legal) {U : Triangulation} {π : Int → Int} {d : PyDict Int Int} (hU : U.Valid)
    (hd : d.IsFun m.move.source π) (hπ : m.move.source.IsIsometry U π) (enc : List EncItem) (edges : List Int)
    (he : edges = m.move.source.labels) :
    ∃ items ns d' π' U', combineStep edges (enc, d) m.move = .ok (enc ++ items, d') ∧ EncItem.AllStandFor U items ns U' ∧
      d'.IsFun m.move.target π' ∧ m.move.target.IsIsometry U' π' ∧ (∀ n ∈ ns, n.isIsometry = false) ∧
      ns.length = (if m.isIsometry then 0 else 1) ∧
      (∀ (R : Type) [CommRing R] [LinearOrder R] [IsStrictOrderedRing R] [Halvable R] (L L' M : Lam R), L.Consistent → M.Consistent →
        L.tri = m.move.source → M.tri = U → L.MapsTo π M → m.move.applyLam L = .ok L' →
        ∃ M', performLam ns M = .ok M' ∧ L'.MapsTo π' M') ∧
      (∀ x x' y : Hom, x.WellFormed → y.WellFormed → x.tri = m.move.source → y.tri = U → x.Rel π y → m.move.applyHom x = .ok x' →
        ∃ y', performHom ns y = .ok y' ∧ x'.Rel π' y') := by
  cases hm.shape with
  | flip S T e hS hf hmf =>
    replace hd : d.IsFun S π := hd
    replace hπ : S.IsIsometry U π := hπ
    have hds := disjoint_singleton.2 hf
    obtain ⟨U', h1, h2, h3⟩ := hmf.conj hds hS hU hπ
    have hdu := hds.conj hS.comp hU.comp hπ
    have hfu : U.Flippable (setSign (π e) (sign e)) := disjoint_singleton.1 hdu
    have henc := hU.encodeFlip_ok_iff.2 ⟨U', hfu, h2, rfl⟩
    refine ⟨[.flip (setSign (π e) (sign e))], [_], d, π, U', ?_, .single hU h1 (.flip _ _ henc), ?_, h3, ?_, rfl, ?_, ?_⟩
    · simp only [combineStep, PyDict.get_eq_ok_iff.2 (hd.get? hf.1), py_bind_ok]; rfl
    · refine ⟨hd.1, fun a b => ?_⟩
      rw [hd.2]; simp only [Move.target, hmf.isLabel_iff]
    · simp [LMove.isIsometry]
    · intro R _ _ _ _ L L' M hL hM tL tM hLM hLL
      replace tL : L.tri = S := tL
      subst tL tM
      obtain ⟨rfl, k2⟩ := (ef_applyLam_iff hL.1 hf).1 hLL
      obtain ⟨M', l1, l2⟩ := hM.flipsTo hdu U'
      refine ⟨M', ?_, k2.conj hL.1 hM.1 hds hπ hLM l2 hmf.zeta⟩
      simp only [performLam, Move.applyLam, (ef_applyLam_iff hM.1 hfu).2 ⟨l1, l2⟩, py_bind_ok]
    · intro x x' y hx hy tx ty hr hxx
      replace tx : x.tri = S := tx
      subst tx ty
      obtain ⟨x'', k1, k2, _, k3⟩ := ef_applyHom hx hf hmf
      cases hxx.symm.trans k1
      obtain ⟨y', l1, l2, _, l3⟩ := ef_applyHom hy hfu h2
      refine ⟨y', ?_, k3.conj hx hy hds hπ (k2 ▸ hmf) hr l3⟩
      simp only [performHom, Move.applyHom, l1, py_bind_ok]
  | multiflip S T es hS hds hmf =>
    replace hd : d.IsFun S π := hd
    replace hπ : S.IsIsometry U π := hπ
    obtain ⟨U', h1, h2, h3⟩ := hmf.conj hds hS hU hπ
    have hdu := hds.conj hS.comp hU.comp hπ
    have hn : (conj π es).dedup = conj π es := (hdu.nodup hU.comp).dedup
    have henc := hU.encodeMultiflip_ok_iff.2 ⟨U', by rw [hn]; exact hdu, by rw [hn]; exact h2, rfl⟩
    rw [hn] at henc
    refine ⟨[.multiflip (conj π es)], [_], d, π, U', ?_, .single hU h1 (.multiflip _ _ henc), ?_, h3, ?_, rfl, ?_, ?_⟩
    · have : (es.mapM (fun edge => do
          let e ← d.get edge
          return setSign e (sign edge)) : Py (List Int)) = .ok (conj π es) := by
        unfold conj
        apply mapM_ok
        intro e he
        rw [PyDict.get_eq_ok_iff.2 (hd.get? (hds.1 e he))]; rfl
      simp only [combineStep, mf]
      rw [this, py_bind_ok, hn]; rfl
    · refine ⟨hd.1, fun a b => ?_⟩
      rw [hd.2]; simp only [Move.target, mf, hmf.isLabel_iff]
    · simp [LMove.isIsometry]
    · intro R _ _ _ _ L L' M hL hM tL tM hLM hLL
      replace tL : L.tri = S := tL
      subst tL tM
      obtain ⟨rfl, k2⟩ := (mf_applyLam_iff hL.1 hds).1 hLL
      obtain ⟨M', l1, l2⟩ := hM.flipsTo hdu U'
      refine ⟨M', ?_, k2.conj hL.1 hM.1 hds hπ hLM l2 hmf.zeta⟩
      simp only [performLam, Move.applyLam, (mf_applyLam_iff hM.1 hdu).2 ⟨l1, l2⟩, py_bind_ok]
    · intro x x' y hx hy tx ty hr hxx
      replace tx : x.tri = S := tx
      subst tx ty
      obtain ⟨x'', k1, k2, _, k3⟩ := mf_applyHom hx hds hmf
      cases hxx.symm.trans k1
      obtain ⟨y', l1, l2, _, l3⟩ := mf_applyHom hy hdu h2
      refine ⟨y', ?_, k3.conj hx hy hds hπ (k2 ▸ hmf) hr l3⟩
      simp only [performHom, Move.applyHom, l1, py_bind_ok]
  | isometry S T f g i i' hS hT hf hg hi hi' hgf hfg =>
    simp only [Move.source, Move.target, hi.source, hi.target] at hd hπ he ⊢
    have hlab : edges = T.labels := by rw [he]; unfold Triangulation.labels; rw [hf.zeta]
    have hπ' : T.IsIsometry U (fun e => π (g e)) := hg.comp hπ
    have hmap : (edges.mapM (fun j => do
        let k ← i.inverseLabelMap.get j
        let v ← d.get k
        return (j, v)) : Py (List (Int × Int))) = .ok (edges.map (fun j => (j, π (g j)))) := by
      apply mapM_ok
      intro j hj
      have lj : T.IsLabel j := by rw [hlab] at hj; exact mem_labels.1 hj
      have := hi.invLabel (g j) (hg.maps j lj)
      rw [hfg j lj] at this
      rw [PyDict.get_eq_ok_iff.2 this, py_bind_ok, PyDict.get_eq_ok_iff.2 (hd.get? (hg.maps j lj))]; rfl
    have hnd : ((edges.map (fun j => (j, π (g j)))).map Prod.fst).Nodup := by
      rw [List.map_map, hlab]; simpa [Function.comp_def] using nodup_labels
    refine ⟨[], [], edges.map (fun j => (j, π (g j))), fun e => π (g e), U, ?_, .nil U hU, ⟨hnd, ?_⟩, hπ', by simp, rfl, ?_, ?_⟩
    · simp only [combineStep]
      rw [hmap, py_bind_ok, PyDict.ofList_of_nodup _ hnd, List.append_nil]; rfl
    · intro e v
      rw [List.mem_map]
      constructor
      · rintro ⟨j, hj, h⟩; cases h; rw [hlab] at hj; exact ⟨mem_labels.1 hj, rfl⟩
      · rintro ⟨h, rfl⟩; exact ⟨e, by rw [hlab]; exact mem_labels.2 h, rfl⟩
    · intro R _ _ _ _ L L' M hL hM tL tM hLM hLL
      subst tL tM
      obtain ⟨rfl, k2⟩ := (hi.applyLam_iff hf hL.1 rfl).1 hLL
      refine ⟨M, rfl, by rw [hLM.1, k2.1], by rw [hLM.2.1, k2.2.1], ?_⟩
      intro e he
      rw [hLM.2.2 _ (hg.maps e he), ← k2.2.2 _ (hg.maps e he), hfg e he]
    · intro x x' y hx hy tx ty hr hxx
      subst tx ty
      obtain ⟨x'', k1, k2, k3⟩ := hi.applyHom hf hx rfl
      cases hxx.symm.trans k1
      refine ⟨y, rfl, ?_⟩
      unfold Hom.Rel
      rw [k2]
      refine hf.null hx.1.comp hT.comp ?_ hr
      intro e he
      simp only [hgf e he, k3.2 e he]

/-- the loop of `combine_isometries` -/
theorem combine_loop {T V : Triangulation} {ms : List LMove} (hp : Path T ms V) : ∀ {U : Triangulation} {π : Int → Int} {d : PyDict Int Int},
    U.Valid → d.IsFun T π → T.IsIsometry U π → ∀ (enc : List EncItem) (edges : List Int), edges = T.labels →
    ∃ items ns d' π' U', (ms.foldlM (fun st m => combineStep edges st m.move) (enc, d) : Py _) = .ok (enc ++ items, d') ∧
      EncItem.AllStandFor U items ns U' ∧ d'.IsFun V π' ∧ V.IsIsometry U' π' ∧ (∀ n ∈ ns, n.isIsometry = false) ∧
      ns.length = ms.countP (fun m => !m.isIsometry) ∧
      (∀ (R : Type) [CommRing R] [LinearOrder R] [IsStrictOrderedRing R] [Halvable R] (L L' M : Lam R), L.Consistent → M.Consistent →
        L.tri = T → M.tri = U → L.MapsTo π M → performLam ms L = .ok L' →
        ∃ M', performLam ns M = .ok M' ∧ L'.MapsTo π' M') ∧
      (∀ x x' y : Hom, x.WellFormed → y.WellFormed → x.tri = T → y.tri = U → x.Rel π y → performHom ms x = .ok x' →
        ∃ y', performHom ns y = .ok y' ∧ x'.Rel π' y') := by
  induction hp with
  | nil T hT =>
    intro U π d hU hd hπ enc edges he
    refine ⟨[], [], d, π, U, by rw [List.append_nil]; rfl, .nil U hU, hd, hπ, by simp, rfl, ?_, ?_⟩
    · intro R _ _ _ _ L L' M _ _ _ _ h1 h2; cases h2; exact ⟨M, rfl, h1⟩
    · intro x x' y _ _ _ _ h1 h2; cases h2; exact ⟨y, rfl, h1⟩
  | cons m ms V hm hs ih =>
    intro U π d hU hd hπ enc edges he
    obtain ⟨is, ns, d', π', U', a1, a2, a3, a4, a5, a6, a7, a8⟩ := combineStep_ok hm hU hd hπ enc edges he
    have hU' := a2.path.valid_target
    obtain ⟨is', ns', d'', π'', U'', b1, b2, b3, b4, b5, b6, b7, b8⟩ := ih hU' a3 a4 (enc ++ is) edges
      (by rw [he]; unfold Triangulation.labels; rw [hm.valid.2.2.1])
    refine ⟨is ++ is', ns ++ ns', d'', π'', U'', ?_, a2.append b2, b3, b4, ?_, ?_, ?_, ?_⟩
    · rw [List.foldlM_cons, a1]
      show (ms.foldlM (fun st m => combineStep edges st m.move) (enc ++ is, d') : Py _) = _
      rw [b1, List.append_assoc]
    · intro n hn
      rcases List.mem_append.1 hn with h | h
      · exact a5 n h
      · exact b5 n h
    · rw [List.length_append, a6, b6, List.countP_cons]
      cases m.isIsometry <;> simp [Nat.add_comm]
    · intro R _ _ _ _ L L' M hL hM tL tM hLM hLL
      simp only [performLam, py_bind_eq_ok] at hLL
      obtain ⟨L₁, l1, l2⟩ := hLL
      obtain ⟨M₁, m1, m2⟩ := a7 R L L₁ M hL hM tL tM hLM l1
      obtain ⟨_, c1, c2, c3, c4⟩ := hm.applyLam_total hL tL
      cases l1.symm.trans c1
      obtain ⟨_, e1, e2, e3, e4⟩ := a2.path.performLam_total hM tM
      cases m1.symm.trans e1
      obtain ⟨M', m3, m4⟩ := b7 R L₁ L' M₁ c3 e3 c2 e2 m2 l2
      exact ⟨M', by rw [performLam_append, m1, py_bind_ok, m3], m4⟩
    · intro x x' y hx hy tx ty hr hxx
      simp only [performHom, py_bind_eq_ok] at hxx
      obtain ⟨x₁, l1, l2⟩ := hxx
      obtain ⟨y₁, m1, m2⟩ := a8 x x₁ y hx hy tx ty hr l1
      obtain ⟨_, c1, c2, c3⟩ := hm.applyHom hx tx
      cases l1.symm.trans c1
      obtain ⟨_, e1, e2, e3⟩ := a2.path.performHom hy ty
      cases m1.symm.trans e1
      obtain ⟨y', m3, m4⟩ := b8 x₁ x' y₁ c3 e3 c2 e2 m2 l2
      exact ⟨y', by rw [performHom_append, m1, py_bind_ok, m3], m4⟩

end Enc
end Curver
