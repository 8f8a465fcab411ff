import Verif.Proofs.Polygon

/-!
# The curves around a multiarc
-/

namespace Curver
open Triangulation

namespace Triangulation
variable {T : Triangulation} {U V : List Int}

/-- edges are used in both directions -/
def Sym (U : List Int) : Prop := ∀ x, x ∈ U ↔ inv x ∈ U

/-- no triangle has exactly two sides that are used -/
def Full (T : Triangulation) (U : List Int) : Prop := ∀ a b c, T.Glues a b c → a ∈ U → b ∈ U → c ∈ U

theorem usedSides_eq {t : Tri} : usedSides U t = (if t.x ∈ U then 1 else 0) + (if t.y ∈ U then 1 else 0) + (if t.z ∈ U then 1 else 0) := by
  unfold usedSides Tri.labels
  by_cases h1 : t.x ∈ U <;> by_cases h2 : t.y ∈ U <;> by_cases h3 : t.z ∈ U <;> simp [List.filter_cons, h1, h2, h3]

theorem closeUsed_spec (hT : T.Valid) : ∀ (fuel : Nat) (toCheck : List Tri) (U : List Int), (∀ t ∈ toCheck, t ∈ T.triangles ∧ 2 ≤ usedSides U t) → Sym U → (∀ x ∈ U, T.IsLabel x) →
    (∀ t ∈ T.triangles, usedSides U t = 2 → t ∈ toCheck) → (T.labels.toFinset \ U.toFinset).card + toCheck.length ≤ fuel →
    ∃ V, T.closeUsed fuel toCheck U = .ok V ∧ (∀ x ∈ U, x ∈ V) ∧ Sym V ∧ (∀ x ∈ V, T.IsLabel x) ∧ T.Full V ∧
      ∀ Q : Int → Prop, (∀ x, Q x → Q (inv x)) → (∀ a b c, T.Glues a b c → Q a → Q b → Q c) → (∀ x ∈ U, Q x) → ∀ x ∈ V, Q x := by
  have hc := hT.comp
  intro fuel
  induction fuel with
  | zero =>
    intro toCheck U h1 h2 h3 h4 h5
    have : toCheck = [] := List.eq_nil_of_length_eq_zero (by omega)
    subst this
    refine ⟨U, by unfold closeUsed; rfl, fun _ h => h, h2, h3, ?_, fun Q _ _ h => h⟩
    intro a b c hg ha hb
    by_contra hcU
    have key : ∀ t ∈ T.triangles, usedSides U t ≠ 2 := fun t ht h => by simpa using h4 t ht h
    rcases hg with hg | hg | hg <;> · have := key _ hg; rw [usedSides_eq] at this; simp [ha, hb, hcU] at this
  | succ fuel ih =>
    intro toCheck U h1 h2 h3 h4 h5
    cases toCheck with
    | nil =>
      refine ⟨U, by unfold closeUsed; rfl, fun _ h => h, h2, h3, ?_, fun Q _ _ h => h⟩
      intro a b c hg ha hb
      by_contra hcU
      have key : ∀ t ∈ T.triangles, usedSides U t ≠ 2 := fun t ht h => by simpa using h4 t ht h
      rcases hg with hg | hg | hg <;> · have := key _ hg; rw [usedSides_eq] at this; simp [ha, hb, hcU] at this
    | cons t toCheck =>
      unfold closeUsed
      obtain ⟨ht, ht2⟩ := h1 t (by simp)
      cases hf : t.labels.find? (fun e => decide (e ∉ U)) with
      | none =>
        rw [List.find?_eq_none] at hf
        have hall : ∀ e ∈ t.labels, e ∈ U := fun e he => by simpa using hf e he
        refine ih toCheck U (fun t' ht' => h1 t' (by simp [ht'])) h2 h3 (fun t' ht' hu => ?_) (by simp only [List.length_cons] at h5; omega)
        rcases List.mem_cons.1 (h4 t' ht' hu) with rfl | h
        · exfalso
          rw [usedSides_eq, if_pos (hall _ (by simp [Tri.labels])), if_pos (hall _ (by simp [Tri.labels])), if_pos (hall _ (by simp [Tri.labels]))] at hu
          omega
        · exact h
      | some e =>
        have he : e ∈ t.labels := List.mem_of_find?_eq_some hf
        have heU : e ∉ U := by simpa using List.find?_some hf
        have le := hc.mem_labels_of_mem ht he
        have le' := isLabel_inv.2 le
        have heU' : inv e ∉ U := fun h => heU ((h2 e).2 h)
        have hne : e ≠ inv e := by unfold inv; omega
        dsimp only
        rw [hc.triangle_eq le', py_bind_ok]
        obtain ⟨n1, n2⟩ := hc.triOf_mem le'
        -- the new set
        have m2 : ∀ x, x ∈ inv e :: e :: U ↔ x = inv e ∨ x = e ∨ x ∈ U := by intro x; simp
        have s2 : Sym (inv e :: e :: U) := by
          intro x
          rw [m2, m2, ← h2 x]
          have : x = inv e ↔ inv x = e := by unfold inv; omega
          have : x = e ↔ inv x = inv e := by unfold inv; omega
          tauto
        have s3 : ∀ x ∈ inv e :: e :: U, T.IsLabel x := by
          intro x hx
          rcases (m2 x).1 hx with rfl | rfl | h
          · exact le'
          · exact le
          · exact h3 x h
        have mono : ∀ t', usedSides U t' ≤ usedSides (inv e :: e :: U) t' := by
          intro t'
          rw [usedSides_eq, usedSides_eq]
          have : ∀ x, (if x ∈ U then 1 else 0) ≤ (if x ∈ inv e :: e :: U then 1 else 0 : Nat) := by
            intro x
            by_cases q : x ∈ U
            · rw [if_pos q, if_pos ((m2 x).2 (.inr (.inr q)))]
            · rw [if_neg q]; exact Nat.zero_le _
          have a1 := this t'.x
          have a2 := this t'.y
          have a3 := this t'.z
          omega
        have same : ∀ t' ∈ T.triangles, e ∉ t'.labels → inv e ∉ t'.labels → usedSides (inv e :: e :: U) t' = usedSides U t' := by
          intro t' _ q1 q2
          rw [usedSides_eq, usedSides_eq]
          have : ∀ x ∈ t'.labels, (if x ∈ inv e :: e :: U then 1 else 0 : Nat) = (if x ∈ U then 1 else 0) := by
            intro x hx
            have : x ∈ inv e :: e :: U ↔ x ∈ U := by
              rw [m2]
              constructor
              · rintro (rfl | rfl | h)
                · exact absurd hx q2
                · exact absurd hx q1
                · exact h
              · exact fun h => .inr (.inr h)
            simp only [this]
          rw [this _ (by simp [Tri.labels]), this _ (by simp [Tri.labels]), this _ (by simp [Tri.labels])]
        -- all sides of t are used now
        have tfull : ∀ x ∈ t.labels, x ≠ e → x ∈ U := by
          intro x hx hxe
          rw [usedSides_eq] at ht2
          simp only [Tri.labels, List.mem_cons, List.not_mem_nil, or_false] at hx he
          by_contra q
          rcases he with rfl | rfl | rfl <;> rcases hx with rfl | rfl | rfl <;> first | exact hxe rfl | (rw [if_neg heU, if_neg q] at ht2; split_ifs at ht2 <;> omega) | (rw [if_neg q, if_neg heU] at ht2; split_ifs at ht2 <;> omega) | skip
          all_goals
            simp only [if_neg heU, if_neg q] at ht2
            split_ifs at ht2 <;> omega
        have t3 : usedSides (inv e :: e :: U) t = 3 := by
          have : ∀ x ∈ t.labels, x ∈ inv e :: e :: U := by
            intro x hx
            by_cases q : x = e
            · exact (m2 x).2 (.inr (.inl q))
            · exact (m2 x).2 (.inr (.inr (tfull x hx q)))
          rw [usedSides_eq, if_pos (this _ (by simp [Tri.labels])), if_pos (this _ (by simp [Tri.labels])), if_pos (this _ (by simp [Tri.labels]))]
        have hcheck : ∀ t' ∈ T.triangles, usedSides (inv e :: e :: U) t' = 2 → t' = T.triOf (inv e) ∨ t' ∈ toCheck := by
          intro t' ht' hu
          by_cases q1 : e ∈ t'.labels
          · exfalso
            have : t' = t := (hc.triOf_eq ht' q1).symm.trans (hc.triOf_eq ht he)
            subst this
            omega
          · by_cases q2 : inv e ∈ t'.labels
            · exact .inl (hc.triOf_eq ht' q2).symm
            · rw [same t' ht' q1 q2] at hu
              rcases List.mem_cons.1 (h4 t' ht' hu) with rfl | h
              · exact absurd he q1
              · exact .inr h
        have hcard : (T.labels.toFinset \ (inv e :: e :: U).toFinset).card + 1 ≤ (T.labels.toFinset \ U.toFinset).card := by
          refine Finset.card_lt_card ⟨?_, ?_⟩
          · intro x hx
            simp only [Finset.mem_sdiff, List.mem_toFinset] at hx ⊢
            exact ⟨hx.1, fun h => hx.2 ((m2 x).2 (.inr (.inr h)))⟩
          · intro hsub
            have : e ∈ T.labels.toFinset \ U.toFinset := by
              simp only [Finset.mem_sdiff, List.mem_toFinset]
              exact ⟨mem_labels.2 le, heU⟩
            have := hsub this
            simp only [Finset.mem_sdiff, List.mem_toFinset] at this
            exact this.2 ((m2 e).2 (.inr (.inl rfl)))
        have hQ : ∀ Q : Int → Prop, (∀ x, Q x → Q (inv x)) → (∀ a b c, T.Glues a b c → Q a → Q b → Q c) → (∀ x ∈ U, Q x) → ∀ x ∈ inv e :: e :: U, Q x := by
          intro Q q1 q2 q3
          have qe : Q e := by
            have hg := hc.glues_nxt le
            have n := hc.glues_ne hg
            obtain ⟨t', t1, t2, k3, k4, -⟩ := hg.exists_tri
            have : t' = t := (hc.triOf_eq t1 t2).symm.trans (hc.triOf_eq ht he)
            subst this
            exact q2 _ _ _ hg.rot (q3 _ (tfull _ k3 n.1.symm)) (q3 _ (tfull _ k4 n.2.2))
          intro x hx
          rcases (m2 x).1 hx with rfl | rfl | h
          · exact q1 _ qe
          · exact qe
          · exact q3 x h
        simp only [List.length_cons] at h5
        have sub : ∀ x ∈ U, x ∈ inv e :: e :: U := fun x hx => (m2 x).2 (.inr (.inr hx))
        split
        · rename_i hn
          obtain ⟨V, v1, v2, v3, v4, v5, v6⟩ := ih (T.triOf (inv e) :: toCheck) (inv e :: e :: U) (by
            intro t' ht'
            rcases List.mem_cons.1 ht' with rfl | h
            · exact ⟨n1, by omega⟩
            · have := h1 t' (by simp [h])
              exact ⟨this.1, le_trans this.2 (mono t')⟩) s2 s3 (fun t' ht' hu => List.mem_cons.2 (hcheck t' ht' hu)) (by simp only [List.length_cons]; omega)
          exact ⟨V, v1, fun x hx => v2 x (sub x hx), v3, v4, v5, fun Q q1 q2 q3 => v6 Q q1 q2 (hQ Q q1 q2 q3)⟩
        · rename_i hn
          obtain ⟨V, v1, v2, v3, v4, v5, v6⟩ := ih toCheck (inv e :: e :: U) (by
            intro t' ht'
            have := h1 t' (by simp [ht'])
            exact ⟨this.1, le_trans this.2 (mono t')⟩) s2 s3 (fun t' ht' hu => by
              rcases hcheck t' ht' hu with rfl | h
              · exact absurd hu hn
              · exact h) (by omega)
          exact ⟨V, v1, fun x hx => v2 x (sub x hx), v3, v4, v5, fun Q q1 q2 q3 => v6 Q q1 q2 (hQ Q q1 q2 q3)⟩

theorem neighbourhood_spec (hT : T.Valid) (h2 : Sym U) (h3 : ∀ x ∈ U, T.IsLabel x) :
    ∃ V, T.neighbourhood U = .ok V ∧ (∀ x ∈ U, x ∈ V) ∧ Sym V ∧ (∀ x ∈ V, T.IsLabel x) ∧ T.Full V ∧
      ∀ Q : Int → Prop, (∀ x, Q x → Q (inv x)) → (∀ a b c, T.Glues a b c → Q a → Q b → Q c) → (∀ x ∈ U, Q x) → ∀ x ∈ V, Q x := by
  refine closeUsed_spec hT _ _ U ?_ h2 h3 ?_ ?_
  · intro t ht
    simp only [List.mem_reverse, List.mem_filter, decide_eq_true_eq] at ht
    exact ⟨ht.1, by omega⟩
  · intro t ht hu
    simp only [List.mem_reverse, List.mem_filter, decide_eq_true_eq]
    exact ⟨ht, hu⟩
  · have a : (T.labels.toFinset \ U.toFinset).card ≤ 2 * T.zeta := by
      rw [← length_labels (T := T)]
      exact (Finset.card_le_card Finset.sdiff_subset).trans (List.toFinset_card_le _)
    have b : (T.triangles.filter (fun t => decide (usedSides U t = 2))).reverse.length ≤ T.triangles.length := by
      rw [List.length_reverse]; exact List.length_filter_le _ _
    omega

/-! ## Walking around the used edges -/

/-- the next edge that a walk crosses -/
def around1 (T : Triangulation) (U : List Int) (e : Int) : Int := if inv (T.nxt (T.nxt e)) ∉ U then inv (T.nxt (T.nxt e)) else inv (T.nxt e)

/-- what is known about the edges passed so far -/
structure Passed (T : Triangulation) (U : List Int) (geometric passed : List Int) : Prop where
  length : geometric.length = T.zeta
  nodup : passed.Nodup
  label : ∀ x ∈ passed, T.IsLabel x
  free : ∀ x ∈ passed, x ∉ U
  count : ∀ i : Nat, i < T.zeta → geometric[i]? = some ((if (i : Int) ∈ passed then 1 else 0) + (if inv (i : Int) ∈ passed then 1 else 0))

theorem around1_spec (hT : T.Valid) (hU : Sym U) (hF : T.Full U) {e : Int} (le : T.IsLabel e) (he : e ∉ U) : T.IsLabel (T.around1 U e) ∧ T.around1 U e ∉ U := by
  have hc := hT.comp
  have hg := hc.glues_nxt le
  have l := hc.label_of_glues hg
  unfold around1
  split
  · rename_i h; exact ⟨isLabel_inv.2 l.2.2, h⟩
  · rename_i h
    rw [not_not, ← hU] at h
    refine ⟨isLabel_inv.2 l.2.1, ?_⟩
    rw [← hU]
    exact fun h' => he (hF _ _ _ hg.rot h' h)

theorem Passed.step (hT : T.Valid) {g p : List Int} (h : T.Passed U g p) {e : Int} (le : T.IsLabel e) (he : e ∉ U) (hp : e ∉ p) :
    ∃ x, pyGet g (norm e).toNat = .ok x ∧ T.Passed U (g.set (norm e).toNat (x + 1)) (e :: p) := by
  have hlt := idx_lt le
  have hget := h.count _ hlt
  refine ⟨_, pyGet_ok_iff.2 hget, ?_⟩
  refine ⟨by rw [List.length_set, h.length], List.nodup_cons.2 ⟨hp, h.nodup⟩, ?_, ?_, ?_⟩
  · intro x hx
    rcases List.mem_cons.1 hx with rfl | hx
    · exact le
    · exact h.label x hx
  · intro x hx
    rcases List.mem_cons.1 hx with rfl | hx
    · exact he
    · exact h.free x hx
  · intro i hi
    rw [List.getElem?_set]
    have hn : (0 : Int) ≤ norm e := by unfold norm inv; omega
    split
    · rename_i q
      rw [if_pos (by rw [h.length]; exact hlt)]
      congr 1
      rw [show (((norm e).toNat : Nat) : Int) = norm e by omega, ← q, show (((norm e).toNat : Nat) : Int) = norm e by omega]
      have ne : e ≠ inv e := by unfold inv; omega
      by_cases q0 : 0 ≤ e
      · have e1 : norm e = e := by unfold norm inv; omega
        rw [e1]
        simp [hp, ne.symm]
        omega
      · have e1 : norm e = inv e := by unfold norm inv; omega
        rw [e1, Curver.inv_inv]
        simp [hp, ne.symm]
    · rename_i q
      rw [h.count i hi]
      have q1 : (i : Int) ≠ e := by rintro rfl; apply q; unfold norm inv; omega
      have q2 : inv (i : Int) ≠ e := by rintro rfl; apply q; unfold norm inv; omega
      simp [q1, q2]

theorem walk_spec (hT : T.Valid) (hU : Sym U) (hF : T.Full U) : ∀ (fuel : Nat) (g p : List Int) (e : Int), T.Passed U g p → T.IsLabel e → e ∉ U →
    (∀ x ∈ p, T.around1 U x ∈ p ∨ T.around1 U x = e) → 2 * T.zeta ≤ p.length + fuel →
    ∃ g' p', T.walk U fuel (g, p) e = .ok (g', p') ∧ T.Passed U g' p' ∧ e ∈ p' ∧ (∀ x ∈ p, x ∈ p') ∧ (∀ x ∈ p', T.around1 U x ∈ p') ∧
      ∀ Q : Int → Prop, (∀ x, T.IsLabel x → x ∉ U → Q x → Q (T.around1 U x)) → (∀ x ∈ p, Q x) → Q e → ∀ x ∈ p', Q x := by
  have hc := hT.comp
  intro fuel
  induction fuel with
  | zero =>
    intro g p e h le he hp hl
    have hep : e ∈ p := by
      by_contra q
      have : (e :: p).Nodup := List.nodup_cons.2 ⟨q, h.nodup⟩
      have := (this.subperm (l₂ := T.labels) (by
        intro x hx
        rw [mem_labels]
        rcases List.mem_cons.1 hx with rfl | hx
        · exact le
        · exact h.label x hx)).length_le
      rw [length_labels, List.length_cons] at this
      omega
    refine ⟨g, p, by unfold walk; rw [if_pos hep], h, hep, fun _ h => h, fun x hx => ?_, fun Q _ h _ => h⟩
    rcases hp x hx with h | h
    · exact h
    · rw [h]; exact hep
  | succ fuel ih =>
    intro g p e h le he hp hl
    by_cases hep : e ∈ p
    · refine ⟨g, p, by unfold walk; rw [if_pos hep], h, hep, fun _ h => h, fun x hx => ?_, fun Q _ h _ => h⟩
      rcases hp x hx with h | h
      · exact h
      · rw [h]; exact hep
    · obtain ⟨y, y1, y2⟩ := h.step hT le he hep
      have ha := around1_spec hT hU hF le he
      obtain ⟨g', p', r1, r2, r3, r4, r5, r6⟩ := ih _ _ _ y2 ha.1 ha.2 (by
        intro x hx
        rcases List.mem_cons.1 hx with rfl | hx
        · exact .inr rfl
        · rcases hp x hx with h | h
          · exact .inl (by simp [h])
          · exact .inl (by simp [h])) (by simp only [List.length_cons]; omega)
      refine ⟨g', p', ?_, r2, r4 e (by simp), fun x hx => r4 x (by simp [hx]), r5, fun Q q1 q2 q3 => r6 Q q1 (fun x hx => ?_) (q1 e le he q3)⟩
      swap
      · rcases List.mem_cons.1 hx with rfl | hx
        · exact q3
        · exact q2 x hx
      unfold walk
      rw [if_neg hep]
      dsimp only
      rw [y1, py_bind_ok, hc.corner_eq (hc.glues_nxt le), py_bind_ok]
      exact r1

theorem boundaryWeights_spec (hT : T.Valid) (hU : Sym U) (hF : T.Full U) : ∃ g p, T.boundaryWeights U = .ok g ∧ T.Passed U g p ∧ (∀ x ∈ p, T.around1 U x ∈ p) ∧
    (∀ x, T.IsLabel x → x ∉ U → T.nxt (T.nxt x) ∈ U → x ∈ p) ∧
    ∀ Q : Int → Prop, (∀ x, T.IsLabel x → x ∉ U → Q x → Q (T.around1 U x)) → (∀ x, T.IsLabel x → x ∉ U → T.nxt (T.nxt x) ∈ U → Q x) → ∀ x ∈ p, Q x := by
  have hc := hT.comp
  have key : ∀ (l : List Int) (g p : List Int), (∀ x ∈ l, T.IsLabel x) → T.Passed U g p → (∀ x ∈ p, T.around1 U x ∈ p) →
      ∃ g' p', l.foldlM (fun (st : List Int × List Int) edge => do
        let c ← T.corner edge
        if edge ∉ st.2 ∧ edge ∉ U ∧ c.z ∈ U then T.walk U (2 * T.zeta) st edge
        else return st) (g, p) = .ok (g', p') ∧ T.Passed U g' p' ∧ (∀ x ∈ p', T.around1 U x ∈ p') ∧ (∀ x ∈ p, x ∈ p') ∧ (∀ x ∈ l, x ∉ U → T.nxt (T.nxt x) ∈ U → x ∈ p') ∧
      ∀ Q : Int → Prop, (∀ x, T.IsLabel x → x ∉ U → Q x → Q (T.around1 U x)) → (∀ x, T.IsLabel x → x ∉ U → T.nxt (T.nxt x) ∈ U → Q x) → (∀ x ∈ p, Q x) → ∀ x ∈ p', Q x := by
    intro l
    induction l with
    | nil => exact fun g p _ h1 h2 => ⟨g, p, rfl, h1, h2, fun _ h => h, by simp, fun Q _ _ h => h⟩
    | cons e l ih =>
      intro g p hl h1 h2
      have le := hl e (by simp)
      rw [List.foldlM_cons, hc.corner_eq (hc.glues_nxt le), py_bind_ok]
      dsimp only
      by_cases q : e ∉ p ∧ e ∉ U ∧ T.nxt (T.nxt e) ∈ U
      · rw [if_pos q]
        obtain ⟨g1, p1, r1, r2, r3, r4, r5, r6⟩ := walk_spec hT hU hF (2 * T.zeta) g p e h1 le q.2.1 (fun x hx => .inl (h2 x hx)) (by omega)
        rw [r1, py_bind_ok]
        obtain ⟨g', p', k1, k2, k3, k4, k5, k6⟩ := ih g1 p1 (fun x hx => hl x (by simp [hx])) r2 r5
        refine ⟨g', p', k1, k2, k3, fun x hx => k4 x (r4 x hx), fun x hx => ?_, fun Q q1 q2 q3 => k6 Q q1 q2 (r6 Q q1 q3 (q2 e le q.2.1 q.2.2))⟩
        rcases List.mem_cons.1 hx with rfl | hx
        · exact fun _ _ => k4 _ r3
        · exact k5 x hx
      · rw [if_neg q]
        obtain ⟨g', p', k1, k2, k3, k4, k5, k6⟩ := ih g p (fun x hx => hl x (by simp [hx])) h1 h2
        refine ⟨g', p', k1, k2, k3, k4, fun x hx => ?_, k6⟩
        rcases List.mem_cons.1 hx with rfl | hx
        · intro a b
          by_contra c
          exact q ⟨fun h => c (k4 _ h), a, b⟩
        · exact k5 x hx
  obtain ⟨g, p, h1, h2, h3, -, h5, h6⟩ := key T.labels (List.replicate T.zeta 0) [] (fun x hx => mem_labels.1 hx) ⟨by simp, by simp, by simp, by simp, fun i hi => by simp [hi]⟩ (by simp)
  refine ⟨g, p, ?_, h2, h3, fun x hx => h5 x (mem_labels.2 hx), fun Q q1 q2 => h6 Q q1 q2 (by simp)⟩
  unfold boundaryWeights
  rw [h1]
  rfl

/-- all edges before a passed one were passed: the walks close up -/
theorem around1_surj (hT : T.Valid) (hU : Sym U) {p : List Int} (hl : ∀ x ∈ p, T.IsLabel x) (hf : ∀ x ∈ p, x ∉ U) (hp : ∀ x ∈ p, T.around1 U x ∈ p) : ∀ y ∈ p, ∃ x ∈ p, T.around1 U x = y := by
  classical
  have hc := hT.comp
  have inj : ∀ x ∈ p, ∀ y ∈ p, T.around1 U x = T.around1 U y → x = y := by
    have back : ∀ x ∈ p, x = if T.nxt (inv (T.around1 U x)) ∉ U then T.nxt (inv (T.around1 U x)) else T.nxt (T.nxt (inv (T.around1 U x))) := by
      intro x hx
      have l := hl x hx
      unfold around1
      by_cases q : inv (T.nxt (T.nxt x)) ∉ U
      · rw [if_pos q, Curver.inv_inv, hc.nxt3, if_pos (hf x hx)]
      · rw [if_neg q, Curver.inv_inv]
        rw [not_not, ← hU] at q
        rw [if_neg (by rw [not_not]; exact q), hc.nxt3]
    intro x hx y hy e
    rw [back x hx, back y hy, e]
  intro y hy
  have hs : Finset.image (T.around1 U) p.toFinset = p.toFinset := by
    refine Finset.eq_of_subset_of_card_le ?_ ?_
    · intro z hz
      simp only [Finset.mem_image, List.mem_toFinset] at hz ⊢
      obtain ⟨x, hx, rfl⟩ := hz
      exact hp x hx
    · rw [Finset.card_image_of_injOn]
      intro x hx y hy e
      simp at hx hy
      exact inj x hx y hy e
  have : y ∈ Finset.image (T.around1 U) p.toFinset := by rw [hs]; simpa using hy
  simp only [Finset.mem_image, List.mem_toFinset] at this
  exact this

/-- in a triangle without used sides -/
theorem passed_none (hT : T.Valid) (hU : Sym U) {p : List Int} (hl : ∀ x ∈ p, T.IsLabel x) (hf : ∀ x ∈ p, x ∉ U) (hp : ∀ x ∈ p, T.around1 U x ∈ p) {a b c : Int} (hg : T.Glues a b c)
    (ha : a ∉ U) (hcU : c ∉ U) : a ∈ p ↔ inv c ∈ p := by
  have hc := hT.comp
  have e1 := hc.nxt_of_glues hg
  have e2 := hc.nxt_of_glues hg.rot
  have e3 := hc.nxt_of_glues hg.rot.rot
  have h0 : T.around1 U a = inv c := by
    unfold around1
    rw [e1, e2, if_pos]
    rw [← hU]
    exact hcU
  constructor
  · intro h; rw [← h0]; exact hp a h
  · intro h
    obtain ⟨x, hx, e⟩ := around1_surj hT hU hl hf hp _ h
    have lx := hl x hx
    unfold around1 at e
    split at e
    · have : T.nxt (T.nxt x) = c := by unfold inv at e; omega
      have := congrArg T.nxt this
      rw [hc.nxt3, e3] at this
      rw [← this]; exact hx
    · rename_i q
      have : T.nxt x = c := by unfold inv at e; omega
      rw [this, e3, not_not, ← hU] at q
      exact absurd q ha

/-- in a triangle with one used side -/
theorem passed_one (hT : T.Valid) (hU : Sym U) {p : List Int} (hl : ∀ x ∈ p, T.IsLabel x) (hf : ∀ x ∈ p, x ∉ U) (hp : ∀ x ∈ p, T.around1 U x ∈ p) {a b c : Int} (hg : T.Glues a b c)
    (ha : a ∉ U) (hb : b ∉ U) (hcU : c ∈ U) : (a ∈ p ↔ inv b ∈ p) ∧ (b ∈ p ↔ inv a ∈ p) := by
  have hc := hT.comp
  have e1 := hc.nxt_of_glues hg
  have e2 := hc.nxt_of_glues hg.rot
  have e3 := hc.nxt_of_glues hg.rot.rot
  refine ⟨?_, passed_none hT hU hl hf hp hg.rot hb ha⟩
  have h0 : T.around1 U a = inv b := by
    unfold around1
    rw [e1, e2, if_neg]
    rw [not_not, ← hU]
    exact hcU
  constructor
  · intro h; rw [← h0]; exact hp a h
  · intro h
    obtain ⟨x, hx, e⟩ := around1_surj hT hU hl hf hp _ h
    unfold around1 at e
    split at e
    · have : T.nxt (T.nxt x) = b := by unfold inv at e; omega
      have := congrArg T.nxt this
      rw [hc.nxt3, e2] at this
      exact absurd hcU (this ▸ hf x hx)
    · have : T.nxt x = b := by unfold inv at e; omega
      have := congrArg (fun y => T.nxt (T.nxt y)) this
      rw [hc.nxt3, e2, e3] at this
      rw [← this]; exact hx

end Triangulation
end Curver
