import Verif.Proofs.PachnerLam
import Verif.Proofs.Surface

namespace Curver
open Triangulation

section
variable {T T' : Triangulation} {ch : List Tri}

/-- the moves of the encoding -/
def pachnerMoves (T T' : Triangulation) (ch : List Tri) : List LinMove :=
  [⟨⟨T', T', diagonal .half T'.zeta T'.zeta⟩, ⟨T', T', diagonal (.int 2) T'.zeta T'.zeta⟩⟩,
   ⟨⟨T, T', ((List.range T.zeta).map (fun i => (Mat.V T.zeta i).map (2 * ·)) ++ (T.triangles.filter (· ∈ ch)).flatMap (rows3 T.zeta)).map (fun row => List.map HEntry.int row)⟩,
    ⟨T', T, diagonal .half T.zeta T'.zeta⟩⟩]

theorem shape_rows : ∀ ts : List Tri, (ts.flatMap (rows3 T.zeta)).length = 3 * ts.length ∧ ∀ row ∈ ts.flatMap (rows3 T.zeta), row.length = T.zeta := by
  intro ts
  induction ts with
  | nil => simp
  | cons t ts ih =>
    rw [List.flatMap_cons]
    refine ⟨by rw [List.length_append, ih.1]; simp [rows3]; omega, ?_⟩
    intro row h
    rcases List.mem_append.1 h with h | h
    · simp only [rows3, List.mem_cons, List.not_mem_nil, or_false] at h
      rcases h with rfl | rfl | rfl <;> simp [Mat.length_V]
    · exact ih.2 row h

theorem shape_matrix (hz : 0 < T.zeta) (hs : Split T ch T') :
    Mat.HasShape ((List.range T.zeta).map (fun i => (Mat.V T.zeta i).map (2 * ·)) ++ (T.triangles.filter (· ∈ ch)).flatMap (rows3 T.zeta)) T'.zeta T.zeta := by
  refine ⟨?_, by rw [hs.zeta]; omega, ?_⟩
  · rw [List.length_append, (shape_rows _).1, hs.zeta]; simp
  · intro row h
    rcases List.mem_append.1 h with h | h
    · obtain ⟨i, _, rfl⟩ := List.mem_map.1 h; simp [Mat.length_V]
    · exact (shape_rows _).2 row h

theorem pachner_eq (hT : T.Valid) (hne : T.triangles ≠ []) (tr : Option (List Tri)) : ∃ T', Split T (tr.getD T.triangles) T' ∧
    T.encodePachner13 tr = .ok ⟨pachnerMoves T T' (tr.getD T.triangles), T, T'⟩ := by
  have hz : 0 < T.zeta := by
    have := hT.comp.three_length
    have : 0 < T.triangles.length := List.length_pos_iff.2 hne
    omega
  obtain ⟨T', h1, hs⟩ := create_split hT (tr.getD T.triangles)
  refine ⟨T', hs, ?_⟩
  have hz' : 0 < T'.zeta := by rw [hs.zeta]; omega
  have hm := shape_matrix hz hs
  have hm' : HMat.hasShape (((List.range T.zeta).map (fun i => (Mat.V T.zeta i).map (2 * ·)) ++
      (T.triangles.filter (· ∈ tr.getD T.triangles)).flatMap (rows3 T.zeta)).map (fun row => List.map HEntry.int row)) T'.zeta T.zeta = true := by
    unfold HMat.hasShape
    have e1 := hm.not_empty
    have e2 := hm.any_ne
    rw [List.length_map, hm.1, List.isEmpty_map, e1]
    simp only [beq_self_eq_true, Bool.not_false, Bool.and_true, List.all_map, Function.comp_def, List.length_map, Bool.true_and]
    rw [List.all_eq_true]
    intro row hr
    simpa using hm.2.2 row hr
  unfold encodePachner13
  dsimp only
  rw [fold_pachner]
  simp only [List.nil_append, h1, py_bind_ok, ← hs.zeta]
  simp only [LinMove.create, LinTrans.create, HMat.hasShape_diag _ hz', HMat.hasShape_diag _ hz, hm', pyAssert, if_true, py_bind_ok, LinEnc.create]
  rfl

end

section
variable {R : Type} [CommRing R] [LinearOrder R] [IsStrictOrderedRing R] [Halvable R] [IntTest R]
variable {T' : Triangulation} {ch : List Tri} {L : Lam R} {P : Lam R → Py LamClass}

omit [IsStrictOrderedRing R] [Halvable R] [IntTest R] in
theorem double_getD (x : List R) (j : Nat) : (x.map (2 * ·)).getD j 0 = 2 * x.getD j 0 := by
  simp only [List.getD, List.getElem?_map]
  cases x[j]? <;> simp

omit [IntTest R] in
theorem half_double (x : R) : HEntry.mul .half (2 * x) = .ok x := by
  simp only [HEntry.mul]
  rw [half_ok_iff]; ring

theorem pachner_apply (hP : ∀ L, ∃ c, P L = .ok c) (hne : L.tri.triangles ≠ []) (h : L.NoArcs) (hs : Split L.tri ch T') :
    ∃ (δ : Int → R) (L' : Lam R), (∀ a b c, L.tri.Glues a b c → L.dualWeight a = .ok (δ a) ∧ 0 ≤ δ a ∧ L.w a = δ b + δ c) ∧
      LinEnc.applyLam P ⟨pachnerMoves L.tri T' ch, L.tri, T'⟩ L = .ok L' ∧ L'.tri = T' ∧ L'.geometric = splitWeights ch L δ ∧ L'.NoArcs := by
  obtain ⟨δ, hδ⟩ := exists_duals h
  have hz : 0 < L.tri.zeta := by
    have := h.1.1.comp.three_length
    have : 0 < L.tri.triangles.length := List.length_pos_iff.2 hne
    omega
  have hlen := splitWeights_length (δ := δ) h.1 hs
  have hA : (⟨T', (splitWeights ch L δ).map (2 * ·), .lamination⟩ : Lam R).NoArcs := split_noArcs h hs hδ rfl (k := 2) (by norm_num) rfl
  have hB : (⟨T', splitWeights ch L δ, .lamination⟩ : Lam R).NoArcs := split_noArcs h hs hδ rfl (k := 1) (by norm_num) (by simp)
  obtain ⟨L1, a1, a2, a3⟩ := lamination_total hP (Lam.noArcs_iff.1 hA).1
  obtain ⟨L2, b1, b2, b3⟩ := lamination_total hP (Lam.noArcs_iff.1 hB).1
  refine ⟨δ, L2, hδ, ?_, b2, b3, ?_⟩
  · unfold LinEnc.applyLam pachnerMoves
    have he : L.tri.eq L.tri = true := by simp [Triangulation.eq]
    simp only [he, Bool.not_true, Bool.false_eq_true, if_false, List.reverse_cons, List.reverse_nil, List.nil_append, List.cons_append, List.foldlM_cons, List.foldlM_nil]
    have s1 : LinTrans.applyLam P ⟨L.tri, T', ((List.range L.tri.zeta).map (fun i => (Mat.V L.tri.zeta i).map (2 * ·)) ++
        (L.tri.triangles.filter (· ∈ ch)).flatMap (rows3 L.tri.zeta)).map (fun row => List.map HEntry.int row)⟩ L = .ok L1 := by
      unfold LinTrans.applyLam
      rw [HMat.dotVec_int (shape_matrix hz hs) h.1.2, image_rows h.1 (fun a b c hg => (hδ a b c hg).2.2), py_bind_ok]
      exact a1
    have s2 : LinTrans.applyLam P ⟨T', T', diagonal .half T'.zeta T'.zeta⟩ L1 = .ok L2 := by
      unfold LinTrans.applyLam
      rw [HMat.dotVec_diag (le_refl _) (y := splitWeights ch L δ) (by rw [a3, List.length_map, hlen]) hlen, py_bind_ok]
      · exact b1
      · intro j _
        rw [a3, double_getD, half_double]
    rw [s1, py_bind_ok, s2]
    rfl
  · exact split_noArcs h hs hδ b2 (k := 1) (by norm_num) (by rw [b3]; simp)

theorem pachner_inverse_eq : LinEnc.inverse ⟨pachnerMoves L.tri T' ch, L.tri, T'⟩ =
    .ok ⟨[⟨⟨T', L.tri, diagonal .half L.tri.zeta T'.zeta⟩, ⟨L.tri, T', ((List.range L.tri.zeta).map (fun i => (Mat.V L.tri.zeta i).map (2 * ·)) ++
        (L.tri.triangles.filter (· ∈ ch)).flatMap (rows3 L.tri.zeta)).map (fun row => List.map HEntry.int row)⟩⟩,
      ⟨⟨T', T', diagonal (.int 2) T'.zeta T'.zeta⟩, ⟨T', T', diagonal .half T'.zeta T'.zeta⟩⟩], T', L.tri⟩ := rfl

theorem pachner_back (hP : ∀ L, ∃ c, P L = .ok c) (h : L.NoArcs) (hs : Split L.tri ch T') {δ : Int → R}
    (hδ : ∀ a b c, L.tri.Glues a b c → L.dualWeight a = .ok (δ a) ∧ 0 ≤ δ a ∧ L.w a = δ b + δ c) {L' : Lam R} (h1 : L'.tri = T')
    (h2 : L'.geometric = splitWeights ch L δ) : ∃ h' L'', LinEnc.inverse ⟨pachnerMoves L.tri T' ch, L.tri, T'⟩ = .ok h' ∧ LinEnc.applyLam P h' L' = .ok L'' ∧
      L''.tri = L.tri ∧ L''.geometric = L.geometric := by
  have hlen := splitWeights_length (δ := δ) h.1 hs
  have hA : (⟨T', (splitWeights ch L δ).map (2 * ·), .lamination⟩ : Lam R).NoArcs := split_noArcs h hs hδ rfl (k := 2) (by norm_num) rfl
  have hB : (⟨L.tri, L.geometric, .lamination⟩ : Lam R).Consistent := by
    have := (Lam.noArcs_iff.1 h).1
    rw [Lam.consistent_iff] at this ⊢
    exact this
  obtain ⟨L1, a1, a2, a3⟩ := lamination_total hP (Lam.noArcs_iff.1 hA).1
  obtain ⟨L2, b1, b2, b3⟩ := lamination_total hP hB
  refine ⟨_, L2, pachner_inverse_eq, ?_, b2, b3⟩
  unfold LinEnc.applyLam
  have he : T'.eq L'.tri = true := by rw [h1]; simp [Triangulation.eq]
  simp only [he, Bool.not_true, Bool.false_eq_true, if_false, List.reverse_cons, List.reverse_nil, List.nil_append, List.cons_append, List.foldlM_cons, List.foldlM_nil]
  have s1 : LinTrans.applyLam P ⟨T', T', diagonal (.int 2) T'.zeta T'.zeta⟩ L' = .ok L1 := by
    unfold LinTrans.applyLam
    rw [HMat.dotVec_diag (le_refl _) (y := (splitWeights ch L δ).map (2 * ·)) (by rw [h2, hlen]) (by rw [List.length_map, hlen]), py_bind_ok]
    · exact a1
    · intro j _
      rw [h2, double_getD]
      simp [HEntry.mul]
  have s2 : LinTrans.applyLam P ⟨T', L.tri, diagonal .half L.tri.zeta T'.zeta⟩ L1 = .ok L2 := by
    unfold LinTrans.applyLam
    rw [HMat.dotVec_diag (by rw [hs.zeta]; omega) (y := L.geometric) (by rw [a3, List.length_map, hlen]) h.1.2, py_bind_ok]
    · exact b1
    · intro j hj
      rw [a3, double_getD, half_double]
      unfold splitWeights
      simp only [List.getD]
      rw [List.getElem?_append_left (by rw [h.1.2]; exact hj)]
  rw [s1, py_bind_ok, s2]
  rfl

end
end Curver
