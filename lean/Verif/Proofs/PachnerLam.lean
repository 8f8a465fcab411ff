import Verif.Proofs.Pachner
import Verif.Proofs.PLMoves2

namespace Curver
open Triangulation
variable {R : Type} [CommRing R] [LinearOrder R] [IsStrictOrderedRing R] [Halvable R] [IntTest R]

namespace Lam

theorem isIntegral_ok {L : Lam R} (h : L.Consistent) : ∃ b, L.isIntegral = .ok b := by
  unfold isIntegral
  split
  · have : ∀ l : List Int, (∀ e ∈ l, L.tri.IsLabel e) → ∃ b, pyAllM (fun e => do
        let d ← L.dualWeight e
        return IntTest.isInt d) l = .ok b := by
      intro l
      induction l with
      | nil => intro _; exact ⟨true, rfl⟩
      | cons e l ih =>
        intro hl
        obtain ⟨d, hd⟩ := h.2 e (hl e (by simp))
        unfold pyAllM
        rw [hd]
        simp only [py_bind_ok, py_pure]
        split
        · exact ih (fun x hx => hl x (by simp [hx]))
        · exact ⟨false, rfl⟩
    exact this _ (fun e he => mem_labels.1 he)
  · exact ⟨false, rfl⟩

end Lam

theorem lamination_total {P : Lam R → Py LamClass} (hP : ∀ L, ∃ c, P L = .ok c) {T : Triangulation} {ws : List R}
    (h : (⟨T, ws, .lamination⟩ : Lam R).Consistent) : ∃ L, T.lamination P ws = .ok L ∧ L.tri = T ∧ L.geometric = ws := by
  obtain ⟨b, hb⟩ := Lam.isIntegral_ok h
  have hl : ws.length = T.zeta := h.1.2
  unfold Triangulation.lamination Lam.promote
  rw [hl, hb]
  simp only [beq_self_eq_true, pyAssert, if_true, py_bind_ok]
  cases b
  · exact ⟨_, rfl, rfl, rfl⟩
  · obtain ⟨c, hc⟩ := hP ⟨T, ws, .integral⟩
    refine ⟨⟨T, ws, c⟩, ?_, rfl, rfl⟩
    simp [hc]

namespace HMat

omit [LinearOrder R] [IsStrictOrderedRing R] [IntTest R] in
theorem dotRow_int {row : List Int} {x : List R} : dotRow (row.map HEntry.int) x = .ok (Mat.dot row x) := by
  unfold dotRow
  rw [mapM_ok (g := fun p => match p.1 with | .int k => (k : R) * p.2 | .half => 0)]
  · simp only [py_bind_ok, Mat.dot]
    congr 1
    induction row generalizing x with
    | nil => simp
    | cons a row ih => cases x with
      | nil => simp
      | cons b x => simpa using ih
  · rintro ⟨e, y⟩ h
    have := List.of_mem_zip h
    obtain ⟨k, _, rfl⟩ := List.mem_map.1 this.1
    rfl

omit [LinearOrder R] [IsStrictOrderedRing R] [IntTest R] in
theorem dotVec_int {A : Mat} {m n : Nat} (h : A.HasShape m n) {x : List R} (hx : x.length = n) :
    dotVec (A.map (fun row => row.map HEntry.int)) x = .ok (A.image x) := by
  unfold dotVec
  rw [if_neg]
  · rw [mapM_ok_iff]
    have : ∀ B : Mat, List.Forall₂ (fun a b => dotRow a x = .ok b) (B.map (fun row => row.map HEntry.int)) (B.image x) := by
      intro B
      induction B with
      | nil => exact .nil
      | cons r B ih => exact .cons dotRow_int ih
    exact this A
  · rw [List.any_map, hx]
    have := h.any_ne
    simp only [Function.comp_def, List.length_map]
    rw [this]; simp

omit [LinearOrder R] [IsStrictOrderedRing R] [IntTest R] in
theorem dotRow_diag {v : HEntry} {n j : Nat} (hj : j < n) {x : List R} (hx : x.length = n) {y : R} (hv : v.mul (x.getD j 0) = .ok y) :
    dotRow ((List.range n).map (fun i => if i = j then v else .int 0)) x = .ok y := by
  unfold dotRow
  have h1 : (List.zip ((List.range n).map (fun i => if i = j then v else .int 0)) x).mapM (fun p => p.1.mul p.2)
      = .ok ((List.range n).map (fun i => if i = j then y else 0)) := by
    rw [mapM_ok_iff, List.forall₂_iff_get]
    refine ⟨by simp [hx], ?_⟩
    intro i hi hi'
    simp only [List.get_eq_getElem, List.getElem_zip, List.getElem_map, List.getElem_range]
    by_cases h : i = j
    · subst h
      simp only [if_true]
      have hxi : i < x.length := by omega
      rw [List.getD, List.getElem?_eq_getElem hxi, Option.getD_some] at hv
      exact hv
    · simp [h, HEntry.mul]
  rw [h1]
  simp only [py_bind_ok]
  congr 1
  have : ∀ n, j < n → ((List.range n).map (fun i => if i = j then y else 0)).sum = y := by
    intro n
    induction n with
    | zero => intro h; omega
    | succ n ih =>
      intro h
      rw [List.range_succ, List.map_append, List.sum_append]
      by_cases hjn : j = n
      · subst hjn
        have : (List.range j).map (fun i => if i = j then y else 0) = List.replicate j 0 := by
          rw [List.eq_replicate_iff]
          refine ⟨by simp, ?_⟩
          intro b hb
          obtain ⟨i, hi, rfl⟩ := List.mem_map.1 hb
          rw [List.mem_range] at hi
          rw [if_neg (by omega)]
        rw [this]
        simp
      · rw [ih (by omega)]
        simp [Ne.symm hjn]
  exact this n hj

omit [LinearOrder R] [IsStrictOrderedRing R] [IntTest R] in
theorem dotVec_diag {v : HEntry} {m n : Nat} (hm : m ≤ n) {x y : List R} (hx : x.length = n) (hy : y.length = m)
    (hv : ∀ j < m, v.mul (x.getD j 0) = .ok (y.getD j 0)) : dotVec (diagonal v m n) x = .ok y := by
  unfold dotVec diagonal
  rw [if_neg]
  · rw [mapM_ok_iff, List.forall₂_iff_get]
    refine ⟨by simp [hy], ?_⟩
    intro i hi hi'
    simp only [List.get_eq_getElem, List.getElem_map, List.getElem_range]
    simp only [List.length_map, List.length_range] at hi
    have := dotRow_diag (v := v) (j := i) (by omega) hx (hv i hi)
    rw [this]
    rw [List.getD, List.getElem?_eq_getElem hi', Option.getD_some]
  · simp [hx]

theorem hasShape_diag (v : HEntry) {m : Nat} (hm : 0 < m) (n : Nat) : HMat.hasShape (diagonal v m n) m n = true := by
  unfold hasShape diagonal
  simp only [List.length_map, List.length_range, beq_self_eq_true, Bool.true_and, List.all_map, Function.comp_def, List.all_eq_true,
    implies_true, and_true, Bool.and_eq_true, Bool.not_eq_eq_eq_not, Bool.not_true, List.isEmpty_eq_false_iff]
  intro h
  have := congrArg List.length h
  simp at this
  omega

end HMat

/-- the weights after the subdivision, from the dual weights `δ` -/
def splitWeights (ch : List Tri) (L : Lam R) (δ : Int → R) : List R :=
  L.geometric ++ (L.tri.triangles.filter (· ∈ ch)).flatMap (fun t => [δ t.x, δ t.y, δ t.z])

omit [CommRing R] [LinearOrder R] [IsStrictOrderedRing R] [Halvable R] [IntTest R] in
theorem flatMap3_length {α : Type} (f g h : α → R) (l : List α) : (l.flatMap (fun t => [f t, g t, h t])).length = 3 * l.length := by
  induction l with
  | nil => rfl
  | cons a l ih => rw [List.flatMap_cons, List.length_append, ih]; simp; omega

omit [CommRing R] [LinearOrder R] [IsStrictOrderedRing R] [Halvable R] [IntTest R] in
theorem flatMap3_get {α : Type} (f g h : α → R) : ∀ (l : List α) (i : Nat) (t : α), l[i]? = some t →
    (l.flatMap (fun t => [f t, g t, h t]))[3 * i]? = some (f t) ∧ (l.flatMap (fun t => [f t, g t, h t]))[3 * i + 1]? = some (g t) ∧
    (l.flatMap (fun t => [f t, g t, h t]))[3 * i + 2]? = some (h t) := by
  intro l
  induction l with
  | nil => intro i t h; simp at h
  | cons a l ih =>
    intro i t hi
    rcases i with _ | i
    · simp only [List.getElem?_cons_zero, Option.some.injEq] at hi
      subst hi
      simp
    · rw [List.getElem?_cons_succ] at hi
      obtain ⟨h1, h2, h3⟩ := ih i t hi
      rw [List.flatMap_cons]
      refine ⟨?_, ?_, ?_⟩
      · rw [List.getElem?_append_right (by simp; try omega)]; simpa [show 3 * (i + 1) - 3 = 3 * i by omega] using h1
      · rw [List.getElem?_append_right (by simp; omega)]; simpa [show 3 * (i + 1) + 1 - 3 = 3 * i + 1 by omega] using h2
      · rw [List.getElem?_append_right (by simp; omega)]; simpa [show 3 * (i + 1) + 2 - 3 = 3 * i + 2 by omega] using h3

section
variable {L : Lam R} {ch : List Tri} {δ : Int → R} {T' : Triangulation}

omit [IsStrictOrderedRing R] [Halvable R] [IntTest R] in
theorem splitWeights_length (hw : L.WellFormed) (hs : Split L.tri ch T') : (splitWeights ch L δ).length = T'.zeta := by
  unfold splitWeights
  rw [List.length_append, flatMap3_length (fun t : Tri => δ t.x) (fun t => δ t.y) (fun t => δ t.z), hw.2, hs.zeta]

omit [IsStrictOrderedRing R] [Halvable R] [IntTest R] in
theorem splitWeights_old (hw : L.WellFormed) {e : Int} (he : L.tri.IsLabel e) : ((splitWeights ch L δ)[(norm e).toNat]?).getD 0 = L.w e := by
  unfold splitWeights Lam.w
  rw [List.getElem?_append_left]
  rw [hw.2]
  unfold IsLabel at he
  unfold norm inv
  omega

omit [IsStrictOrderedRing R] [Halvable R] [IntTest R] in
theorem splitWeights_new (hw : L.WellFormed) {i : Nat} {t : Tri} (hi : (L.tri.triangles.filter (· ∈ ch))[i]? = some t) :
    ((splitWeights ch L δ)[(norm ((L.tri.zeta : Int) + 3 * i)).toNat]?).getD 0 = δ t.x ∧
    ((splitWeights ch L δ)[(norm ((L.tri.zeta : Int) + 3 * i + 1)).toNat]?).getD 0 = δ t.y ∧
    ((splitWeights ch L δ)[(norm ((L.tri.zeta : Int) + 3 * i + 2)).toNat]?).getD 0 = δ t.z := by
  obtain ⟨h1, h2, h3⟩ := flatMap3_get (fun t : Tri => δ t.x) (fun t => δ t.y) (fun t => δ t.z) _ _ _ hi
  unfold splitWeights
  rw [norm_of_nonneg (by omega), norm_of_nonneg (by omega), norm_of_nonneg (by omega),
    show ((L.tri.zeta : Int) + 3 * i).toNat = L.tri.zeta + 3 * i by omega, show ((L.tri.zeta : Int) + 3 * i + 1).toNat = L.tri.zeta + (3 * i + 1) by omega,
    show ((L.tri.zeta : Int) + 3 * i + 2).toNat = L.tri.zeta + (3 * i + 2) by omega, ← hw.2]
  simp only [List.getElem?_append_right (Nat.le_add_right _ _), Nat.add_sub_cancel_left]
  rw [h1, h2, h3]
  simp

/-- the dual weights of a lamination without arcs -/
theorem exists_duals (h : L.NoArcs) : ∃ δ : Int → R, ∀ a b c, L.tri.Glues a b c → L.dualWeight a = .ok (δ a) ∧ 0 ≤ δ a ∧ L.w a = δ b + δ c := by
  have h' : ∀ e, ∃ x, L.tri.IsLabel e → 0 ≤ x ∧ L.dualWeight e = .ok x := by
    intro e
    by_cases he : L.tri.IsLabel e
    · obtain ⟨x, h1, h2⟩ := (h.2 e he).2; exact ⟨x, fun _ => ⟨h1, h2⟩⟩
    · exact ⟨0, fun h => absurd h he⟩
  choose δ hδ using h'
  refine ⟨δ, fun a b c hg => ?_⟩
  obtain ⟨la, lb, lc⟩ := h.1.1.comp.label_of_glues hg
  have := (Lam.duals_iff h.1 hg).1 ⟨(hδ a la).2, (hδ b lb).2, (hδ c lc).2⟩
  have da := (hδ a la).1
  have db := (hδ b lb).1
  have dc := (hδ c lc).1
  refine ⟨(hδ a la).2, da, ?_⟩
  rw [max_eq_left (h.2 a la).1, max_eq_left (h.2 b lb).1, max_eq_left (h.2 c lc).1] at this
  rcases this with t | t | t | t
  · exact t.2.2.2.1
  · exact absurd t.1 (not_lt.2 da)
  · exact absurd t.1 (not_lt.2 db)
  · exact absurd t.1 (not_lt.2 dc)

theorem triEven_add {a b c x y z : R} (hx : 0 ≤ x) (hy : 0 ≤ y) (hz : 0 ≤ z) (h1 : a = y + z) (h2 : b = z + x) (h3 : c = x + y) : TriEven a b c := by
  intro _ _ _
  rw [max_eq_left (by rw [h1]; positivity), max_eq_left (by rw [h2]; positivity), max_eq_left (by rw [h3]; positivity), h1, h2, h3]
  exact ⟨x + y + z, by ring⟩

theorem noArcs_of_duals {M : Lam R} (hw : M.WellFormed) (h : ∀ a b c, M.tri.Glues a b c → ∃ x y z : R, 0 ≤ x ∧ 0 ≤ y ∧ 0 ≤ z ∧ M.w a = y + z ∧ M.w b = z + x ∧ M.w c = x + y) :
    M.NoArcs := by
  rw [Lam.noArcs_iff, Lam.consistent_iff]
  refine ⟨⟨hw, fun a b c hg => ?_⟩, fun a b c hg => ?_⟩
  · obtain ⟨x, y, z, hx, hy, hz, h1, h2, h3⟩ := h a b c hg
    exact triEven_add hx hy hz h1 h2 h3
  · obtain ⟨x, y, z, hx, hy, hz, h1, h2, h3⟩ := h a b c hg
    rw [h1, h2, h3]
    exact ⟨by positivity, by linarith⟩

theorem split_noArcs (h : L.NoArcs) (hs : Split L.tri ch T') (hδ : ∀ a b c, L.tri.Glues a b c → L.dualWeight a = .ok (δ a) ∧ 0 ≤ δ a ∧ L.w a = δ b + δ c)
    {M : Lam R} (hM : M.tri = T') {k : R} (hk : 0 ≤ k) (hg : M.geometric = (splitWeights ch L δ).map (k * ·)) : M.NoArcs := by
  subst hM
  have hlen : M.geometric.length = M.tri.zeta := by rw [hg, List.length_map, splitWeights_length h.1 hs]
  have hw : ∀ e, M.w e = k * ((splitWeights ch L δ)[(norm e).toNat]?).getD 0 := by
    intro e
    unfold Lam.w
    rw [hg, List.getElem?_map]
    cases (splitWeights ch L δ)[(norm e).toNat]? <;> simp
  have wi : ∀ e, M.w (inv e) = M.w e := by intro e; unfold Lam.w; rw [norm_inv]
  refine noArcs_of_duals ⟨hs.valid, hlen⟩ ?_
  refine hs.only _ ?_ ?_ ?_
  · rintro a b c ⟨x, y, z, hx, hy, hz, h1, h2, h3⟩
    exact ⟨y, z, x, hy, hz, hx, h2, h3, h1⟩
  · intro t ht hc
    have hgl := glues_of_mem ht
    obtain ⟨la, lb, lc⟩ := h.1.1.comp.label_of_glues hgl
    obtain ⟨_, d1, e1⟩ := hδ _ _ _ hgl
    obtain ⟨_, d2, e2⟩ := hδ _ _ _ hgl.rot
    obtain ⟨_, d3, e3⟩ := hδ _ _ _ hgl.rot.rot
    refine ⟨k * δ t.x, k * δ t.y, k * δ t.z, mul_nonneg hk d1, mul_nonneg hk d2, mul_nonneg hk d3, ?_, ?_, ?_⟩
    · rw [hw, splitWeights_old h.1 la, e1]; ring
    · rw [hw, splitWeights_old h.1 lb, e2]; ring
    · rw [hw, splitWeights_old h.1 lc, e3]; ring
  · intro i t hi
    have ht : t ∈ L.tri.triangles := (List.mem_filter.1 (List.mem_of_getElem? hi)).1
    have hgl := glues_of_mem ht
    obtain ⟨la, lb, lc⟩ := h.1.1.comp.label_of_glues hgl
    obtain ⟨_, d1, e1⟩ := hδ _ _ _ hgl
    obtain ⟨_, d2, e2⟩ := hδ _ _ _ hgl.rot
    obtain ⟨_, d3, e3⟩ := hδ _ _ _ hgl.rot.rot
    obtain ⟨n1, n2, n3⟩ := splitWeights_new (δ := δ) h.1 hi
    rw [wi, wi, wi, hw t.x, hw t.y, hw t.z, hw ((L.tri.zeta : Int) + 3 * i), hw ((L.tri.zeta : Int) + 3 * i + 1), hw ((L.tri.zeta : Int) + 3 * i + 2), n1, n2, n3,
      splitWeights_old h.1 la, splitWeights_old h.1 lb, splitWeights_old h.1 lc, e1, e2, e3]
    have m1 := mul_nonneg hk d1
    have m2 := mul_nonneg hk d2
    have m3 := mul_nonneg hk d3
    exact ⟨⟨0, k * δ t.y, k * δ t.z, le_refl _, m2, m3, by ring, by ring, by ring⟩, ⟨0, k * δ t.z, k * δ t.x, le_refl _, m3, m1, by ring, by ring, by ring⟩,
      ⟨0, k * δ t.x, k * δ t.y, le_refl _, m1, m2, by ring, by ring, by ring⟩⟩

omit [IsStrictOrderedRing R] [Halvable R] [IntTest R] in
theorem image_rows (hw : L.WellFormed) (hδ : ∀ a b c, L.tri.Glues a b c → L.w a = δ b + δ c) :
    Mat.image ((List.range L.tri.zeta).map (fun i => (Mat.V L.tri.zeta i).map (2 * ·)) ++ (L.tri.triangles.filter (· ∈ ch)).flatMap (rows3 L.tri.zeta)) L.geometric =
      (splitWeights ch L δ).map (2 * ·) := by
  have hE : ∀ e, L.tri.IsLabel e → Mat.dot (Mat.V L.tri.zeta (norm e).toNat) L.geometric = L.w e := by
    intro e he
    rw [Mat.dot_V (by unfold IsLabel at he; unfold norm inv; omega) hw.2]
    rfl
  unfold splitWeights
  rw [Mat.image_eq, List.map_append, List.map_append]
  congr 1
  · apply List.ext_getElem
    · simp [hw.2]
    · intro i h1 h2
      simp only [List.length_map, List.length_range] at h1
      simp only [List.getElem_map, List.getElem_range]
      rw [Mat.dot_smul, Mat.dot_V h1 hw.2]
      rw [List.getD, List.getElem?_eq_getElem (by rw [hw.2]; exact h1)]
      simp
  · have : ∀ ts : List Tri, (∀ t ∈ ts, t ∈ L.tri.triangles) → (ts.flatMap (rows3 L.tri.zeta)).map (fun row => Mat.dot row L.geometric) =
        (ts.flatMap (fun t => [δ t.x, δ t.y, δ t.z])).map (2 * ·) := by
      intro ts
      induction ts with
      | nil => intro _; rfl
      | cons t ts ih =>
        intro hts
        rw [List.flatMap_cons, List.flatMap_cons, List.map_append, List.map_append, ih (fun x hx => hts x (by simp [hx]))]
        congr 1
        have hgl := glues_of_mem (hts t (by simp))
        obtain ⟨la, lb, lc⟩ := hw.1.comp.label_of_glues hgl
        have e1 := hδ _ _ _ hgl
        have e2 := hδ _ _ _ hgl.rot
        have e3 := hδ _ _ _ hgl.rot.rot
        have key : ∀ x y z, L.tri.IsLabel x → L.tri.IsLabel y → L.tri.IsLabel z →
            Mat.dot (List.zipWith (fun x y : Int => x - y) (List.zipWith (fun x y : Int => x + y) (Mat.V L.tri.zeta (norm x).toNat) (Mat.V L.tri.zeta (norm y).toNat))
              (Mat.V L.tri.zeta (norm z).toNat)) L.geometric = L.w x + L.w y - L.w z := by
          intro x y z hx hy hz
          rw [Mat.dot_sub (n := L.tri.zeta) (by simp [Mat.length_V]) (Mat.length_V _ _) hw.2, Mat.dot_add (Mat.length_V _ _) (Mat.length_V _ _) hw.2, hE x hx, hE y hy, hE z hz]
        simp only [rows3, List.map_cons, List.map_nil]
        rw [key _ _ _ lb lc la, key _ _ _ lc la lb, key _ _ _ la lb lc, e1, e2, e3]
        simp only [List.cons.injEq, and_true]
        exact ⟨by ring, by ring, by ring⟩
    exact this _ (fun t ht => (List.mem_filter.1 ht).1)

end
end Curver
