import Verif.Spec.MultiArc
import Verif.Model.MultiArc
import Verif.Props.LamParts
import Verif.Proofs.TermSub

namespace Curver
open Triangulation
namespace Lam
variable {L K s X Y S : Lam Int} {h g : Enc}

theorem negativeOn_ok (hL : L.WellFormed) {l : List Int} (hl : ∀ x ∈ l, L.tri.IsLabel x) : L.negativeOn l = .ok (l.filter (fun x => decide (L.w x < 0))) := by
  unfold negativeOn
  rw [mapM_ok (g := fun x => L.w x) (fun x hx => wt_eq hL.2 (hl x hx)), py_bind_ok]
  congr 1
  clear hl
  induction l with
  | nil => rfl
  | cons x l ih =>
    rw [List.map_cons, List.zip_cons_cons, List.filter_cons, List.filter_cons]
    dsimp only
    by_cases q : L.w x < 0
    · simp only [q, decide_true, if_true, List.map_cons]; rw [ih]
    · simp only [q, decide_false, Bool.false_eq_true, if_false]; exact ih

theorem DisjointFrom.symm (h : X.DisjointFrom Y) : Y.DisjointFrom X := by
  obtain ⟨S, h1, h2⟩ := h
  exact ⟨S, h1, h2.symm⟩

theorem DisjointFrom.enc (hd : X.DisjointFrom Y) (hh : h.Legal) (ht : Y.tri = h.source) {Y' : Lam Int} (ha : h.applyLam Y = .ok Y') : ∃ X', h.applyLam X = .ok X' ∧ X'.DisjointFrom Y' := by
  obtain ⟨S, h1, h2⟩ := hd
  obtain ⟨⟨K, k1⟩, k2⟩ := hh.applyLam_total ⟨S, h1, by rw [← h2.wf.2.2.2]; exact ht⟩
  dsimp only at k2
  obtain ⟨X', Y'', a1, a2, a3⟩ := h2.enc h1 hh k2
  rw [ha] at a2
  cases a2
  exact ⟨X', a1, K, k1.1, a3⟩

theorem DisjointFrom.same (hd : X.DisjointFrom Y) {X' Y' : Lam Int} (e1 : Same X X') (e2 : Same Y Y') : X'.DisjointFrom Y' := by
  obtain ⟨S, h1, h2⟩ := hd
  exact ⟨S, h1, h2.same h2.wf.1 h2.wf.2.1 ⟨rfl, rfl⟩ e1 e2⟩

theorem OnlyHasArcs.enc (hA : L.OnlyHasArcs) (hL : L.Consistent) (hh : h.Legal) (ha : h.applyLam L = .ok K) : K.OnlyHasArcs := by
  intro X hX hn
  have u := hh.undo hL.1 ha
  obtain ⟨X', a1, a2⟩ := hX.enc (hL.enc hh ha) hh.inv' u.2.2.2
  exact hA X' a2 (hh.inv'.noArcs hn a1)

theorem OnlyHasArcs.same (hA : L.OnlyHasArcs) (hL : L.WellFormed) (e : Same L K) : K.OnlyHasArcs := by
  rintro X ⟨h1, N, hN⟩
  exact hA X ⟨h1, N, hN.same hN.wf.1 hN.wf.2.1 e.symm ⟨rfl, rfl⟩ ⟨rfl, rfl⟩⟩

/-- the short form of a multiarc runs along edges -/
theorem OnlyHasArcs.short {P : Lam Int → Py LamClass} {dflt slow : Int → Int → Bool} {n : Nat} (hA : L.OnlyHasArcs) (hL : L.Consistent) (hs : L.shortenAll P dflt n slow = .ok (s, g)) :
    ∀ x, s.tri.IsLabel x → s.w x ≤ 0 := by
  obtain ⟨d1, d2⟩ := C68_shorten P dflt slow n L hL.1 s g hs
  obtain ⟨-, k⟩ := C58_short P dflt slow n L hL.1 s g hs
  obtain ⟨H, -, -⟩ := Lam.shortenAll_spec hL.1 hs
  obtain ⟨D, u1, u2⟩ := exists_unions hL
  have hpart : ∀ X ∈ D, L.HasPart X := fun X hX => ⟨u2 X hX, u1.pull hL hX⟩
  have hne : ¬ L.Blank → ∃ X, L.HasPart X := by
    intro hb
    cases D with
    | nil => cases u1; exact absurd ‹_› hb
    | cons X D => exact ⟨X, hpart X (by simp)⟩
  have arcs : s.isShortArc = true → ∀ x, s.tri.IsLabel x → s.w x ≤ 0 := by
    intro h x hx
    unfold isShortArc at h
    rw [List.all_eq_true] at h
    unfold Lam.w
    cases q : s.geometric[(norm x).toNat]? with
    | none => simp
    | some y =>
      have := h y (List.mem_of_getElem? q)
      simpa using this
  cases hc : s.cls with
  | lamination => rw [hc] at d2; exact d2.elim
  | integral =>
    rw [hc] at d2
    rcases d2 with hb | ⟨⟨X, x1, x2⟩, -⟩
    · obtain ⟨K, k1, k2, k3⟩ := H.acts
      have : K.Blank := hb.enc H.legal hL.1 k1
      have : s.Blank := Same.blank ⟨k2, k3⟩ this
      exact fun x hx => (this x hx).le
    · exact absurd x2 (hA X x1)
  | multicurve =>
    rw [hc] at d2
    obtain ⟨X, hX⟩ := hne d2.1
    exact absurd (d2.2.2 X hX) (hA X hX)
  | curve =>
    rw [hc] at d2
    obtain ⟨X, hX⟩ := hne d2.1.1
    obtain ⟨N, hN⟩ := hX.2
    exact absurd (by
      rcases d2.1.2 X N hN with q | q
      · exact absurd q hX.1.1
      · have w := hN.wf
        have : Same L X := same_of_w hL.1 w.1 w.2.2.1.symm (fun x hx => by
          have := hN.sum hL.1 hx
          rw [q x (by rw [w.2.2.2]; exact hx)] at this
          omega)
        exact this.noArcs d2.2) (hA X hX)
  | multiarc =>
    unfold isShort at k
    rw [hc] at k
    injection k with k
    exact arcs k
  | arc =>
    unfold isShort at k
    rw [hc] at k
    injection k with k
    exact arcs k

/-! ## Laminations that run along edges -/

theorem Connected.of_neg (hX : X.Connected) (hw : X.WellFormed) {f : Int} (hf : X.tri.IsLabel f) (hn : X.w f < 0) : X.geometric = (X.tri.edgeArcOf f : Lam Int).geometric := by
  obtain ⟨N, hN⟩ := arc_union hw hn
  rcases hX.2 _ _ hN with q | q
  · have := q f hf
    rw [arc_w hf, if_pos (.inl rfl)] at this
    omega
  · exact (same_of_w hw (arc_wf hw.1 f) rfl (fun x hx => by
      have := hN.sum hw hx
      rw [q x (by rw [hN.wf.2.2.2]; exact hx)] at this
      omega)).2

theorem isLabel_index {T : Triangulation} {i : Int} (h : i ∈ T.indices) : T.IsLabel i := by
  unfold indices at h
  obtain ⟨j, hj, rfl⟩ := List.mem_map.1 h
  rw [List.mem_range] at hj
  exact ⟨by simp, by simpa using hj⟩

theorem index_norm {T : Triangulation} {x : Int} (h : T.IsLabel x) : norm x ∈ T.indices := by
  have h1 := h.1
  have h2 := h.2
  unfold indices
  refine List.mem_map.2 ⟨(norm x).toNat, List.mem_range.2 ?_, ?_⟩
  · unfold norm inv; omega
  · have : 0 ≤ norm x := by unfold norm inv; omega
    simpa using this

theorem arc_norm {T : Triangulation} (x : Int) : (T.edgeArcOf x : Lam Int) = T.edgeArcOf (norm x) := by
  have : norm (norm x) = norm x := by unfold norm inv; omega
  unfold edgeArcOf
  rw [this]

/-- a connected part of a lamination that runs along edges is an edge -/
theorem nonpos_part (hs : s.Consistent) (hw : ∀ x, s.tri.IsLabel x → s.w x ≤ 0) (hX : s.HasPart X) : ∃ i ∈ s.tri.indices, s.w i < 0 ∧ X.geometric = (s.tri.edgeArcOf i : Lam Int).geometric := by
  obtain ⟨hc, N, hN⟩ := hX
  have w := hN.wf
  have : ∃ x, s.tri.IsLabel x ∧ X.w x ≠ 0 := by
    by_contra q
    push Not at q
    exact hc.1 (fun x hx => q x (by rw [← w.2.2.1]; exact hx))
  obtain ⟨x, hx, hx0⟩ := this
  obtain ⟨red, c1, c2, c3⟩ := hN
  have h1 : X.w x ≤ 0 := by
    rw [c2.2.2 x hx]
    have : (s.w x).sign ≤ 0 := Int.sign_nonpos_iff.2 (hw x hx)
    exact mul_nonpos_of_nonpos_of_nonneg this (Int.natCast_nonneg _)
  refine ⟨norm x, index_norm hx, ?_, ?_⟩
  · have : s.w (norm x) = s.w x := by
      unfold Lam.w
      have : norm (norm x) = norm x := by unfold norm inv; omega
      rw [this]
    rw [this]
    by_contra q
    have := c2.2.2 x hx
    rw [show s.w x = 0 from le_antisymm (hw x hx) (not_lt.1 q)] at this
    simp at this
    exact hx0 this
  · rw [← arc_norm, hc.of_neg w.1 (by rw [w.2.2.1]; exact hx) (by omega), w.2.2.1]

theorem arcs_nodup {T : Triangulation} : (T.indices.map (fun i => (T.edgeArcOf i : Lam Int).geometric)).Nodup := by
  have nd : T.indices.Nodup := by
    unfold indices
    exact List.Nodup.map (fun a b h => Int.ofNat.inj h) List.nodup_range
  refine nd.map_on ?_
  intro i hi j hj e
  have li := isLabel_index hi
  have h1 : (T.edgeArcOf i : Lam Int).w i = -1 := by rw [arc_w li, if_pos (.inl rfl)]
  have h2 : (T.edgeArcOf j : Lam Int).w i = -1 := by
    rw [← h1]
    unfold Lam.w
    rw [e]
  rw [arc_w li] at h2
  split_ifs at h2 with q
  · rcases q with q | q
    · exact q
    · unfold indices at hi hj
      obtain ⟨a, -, rfl⟩ := List.mem_map.1 hi
      obtain ⟨b, -, rfl⟩ := List.mem_map.1 hj
      unfold Curver.inv at q
      simp only [Int.ofNat_eq_natCast] at q
      omega

theorem indices_length {T : Triangulation} : T.indices.length = T.zeta := by unfold indices; simp

theorem index_of_label {T : Triangulation} {x : Int} (L : Lam Int) (P : Int → Prop) (h : ∀ i ∈ T.indices, P (L.w i)) (hx : T.IsLabel x) : P (L.w x) := by
  have : L.w x = L.w (norm x) := by
    unfold Lam.w
    have : norm (norm x) = norm x := by unfold norm inv; omega
    rw [this]
  rw [this]
  exact h _ (index_norm hx)

/-! ## Triangulations -/

theorem isTriangulation_of_edges (hs : s.Consistent) (hw : ∀ x, s.tri.IsLabel x → s.w x = -1) : s.IsTriangulation := by
  obtain ⟨D, u1, u2⟩ := exists_unions hs
  have hle : ∀ x, s.tri.IsLabel x → s.w x ≤ 0 := fun x hx => by rw [hw x hx]; decide
  have part : ∀ X ∈ D, ∃ i ∈ s.tri.indices, s.w i < 0 ∧ X.geometric = (s.tri.edgeArcOf i : Lam Int).geometric :=
    fun X hX => nonpos_part hs hle ⟨u2 X hX, u1.pull hs hX⟩
  have cnt : ∀ i ∈ s.tri.indices, (D.map Lam.geometric).count (s.tri.edgeArcOf i : Lam Int).geometric = 1 := by
    intro i hi
    have := arc_count hs (isLabel_index hi) (hle i (isLabel_index hi)) u1 u2
    rw [hw i (isLabel_index hi)] at this
    omega
  have nd : (D.map Lam.geometric).Nodup := by
    rw [List.nodup_iff_count_le_one]
    intro a
    by_cases ha : a ∈ D.map Lam.geometric
    · obtain ⟨X, hX, rfl⟩ := List.mem_map.1 ha
      obtain ⟨i, hi, -, e⟩ := part X hX
      rw [e, cnt i hi]
    · rw [List.count_eq_zero.2 ha]; omega
  have perm : (D.map Lam.geometric).Perm (s.tri.indices.map (fun i => (s.tri.edgeArcOf i : Lam Int).geometric)) := by
    rw [List.perm_ext_iff_of_nodup nd arcs_nodup]
    intro a
    constructor
    · intro ha
      obtain ⟨X, hX, rfl⟩ := List.mem_map.1 ha
      obtain ⟨i, hi, -, e⟩ := part X hX
      exact List.mem_map.2 ⟨i, hi, e.symm⟩
    · intro ha
      obtain ⟨i, hi, rfl⟩ := List.mem_map.1 ha
      rw [← List.count_pos_iff, cnt i hi]; omega
  refine ⟨D, u1, ?_, ?_, ?_⟩
  · intro X hX
    refine ⟨u2 X hX, fun hn => ?_⟩
    obtain ⟨i, hi, -, e⟩ := part X hX
    have hc := u1.consistent hs X hX
    rw [noArcs_iff] at hn
    have li := isLabel_index hi
    obtain ⟨b, c, hg⟩ := hs.1.1.comp.exists_glues li
    have := (hn.2 i b c (by rw [hc.2]; exact hg)).1
    have : X.w i = -1 := by
      unfold Lam.w
      rw [e]
      have := arc_w (T := s.tri) (f := i) li
      rw [if_pos (.inl rfl)] at this
      exact this
    omega
  · have := List.pairwise_map.1 nd
    refine this.imp ?_
    intro X Y hne
    unfold eqv
    rw [Bool.and_eq_false_iff]
    exact .inr (by simpa using hne)
  · have := perm.length_eq
    rw [List.length_map, List.length_map, indices_length] at this
    exact this

theorem edges_of_isTriangulation (hs : s.Consistent) (hw : ∀ x, s.tri.IsLabel x → s.w x ≤ 0) (h : s.IsTriangulation) : ∀ x, s.tri.IsLabel x → s.w x = -1 := by
  obtain ⟨D, u1, u2, u3, u4⟩ := h
  have u2' : ∀ X ∈ D, X.Connected := fun X hX => (u2 X hX).1
  have part : ∀ X ∈ D, ∃ i ∈ s.tri.indices, s.w i < 0 ∧ X.geometric = (s.tri.edgeArcOf i : Lam Int).geometric :=
    fun X hX => nonpos_part hs hw ⟨u2' X hX, u1.pull hs hX⟩
  have nd : (D.map Lam.geometric).Nodup := by
    refine List.pairwise_map.2 (u3.imp_of_mem ?_)
    intro X Y hX hY hne e
    have : X.eqv Y = true := eqv_spec.2 ⟨by rw [(u1.consistent hs X hX).2, (u1.consistent hs Y hY).2], e⟩
    rw [hne] at this
    cases this
  have sub : D.map Lam.geometric ⊆ s.tri.indices.map (fun i => (s.tri.edgeArcOf i : Lam Int).geometric) := by
    intro a ha
    obtain ⟨X, hX, rfl⟩ := List.mem_map.1 ha
    obtain ⟨i, hi, -, e⟩ := part X hX
    exact List.mem_map.2 ⟨i, hi, e.symm⟩
  have perm := (nd.subperm sub).perm_of_length_le (by rw [List.length_map, List.length_map, indices_length, u4])
  intro x hx
  refine index_of_label s (fun y => y = -1) (fun i hi => ?_) hx
  have := arc_count hs (isLabel_index hi) (hw i (isLabel_index hi)) u1 u2'
  rw [perm.count_eq, List.count_eq_one_of_mem arcs_nodup (List.mem_map.2 ⟨i, hi, rfl⟩)] at this
  omega

theorem IsTriangulation.enc (ht : L.IsTriangulation) (hL : L.Consistent) (hh : h.Legal) (ha : h.applyLam L = .ok K) : K.IsTriangulation := by
  obtain ⟨D, u1, u2, u3, u4⟩ := ht
  obtain ⟨D', d1, d2, d3⟩ := C65_mapping h hh L hL D u1 (fun X hX => (u2 X hX).1) K ha
  have F := mapM_ok_iff.1 d1
  refine ⟨D', d2, ?_, ?_, ?_⟩
  · intro Y hY
    refine ⟨d3 Y hY, fun hn => ?_⟩
    obtain ⟨X, x1, x2⟩ := mapM_mem_right d1 hY
    exact (u2 X x1).2 (hh.inv'.noArcs hn (hh.undo (u1.consistent hL X x1).1.1 x2).2.2.2)
  · have wf : ∀ X ∈ D, X.WellFormed := fun X hX => (u1.consistent hL X hX).1.1
    clear d1 d2 d3 u1 u4 u2
    induction F with
    | nil => exact List.Pairwise.nil
    | cons hXY F ih =>
      rename_i X Y D D'
      rw [List.pairwise_cons] at u3 ⊢
      refine ⟨?_, ih u3.2 (fun X hX => wf X (List.mem_cons_of_mem _ hX))⟩
      intro Y' hY'
      obtain ⟨X', x1, x2⟩ : ∃ X' ∈ D, h.applyLam X' = .ok Y' := by
        exact mapM_mem_right (mapM_ok_iff.2 F) hY'
      have hne := u3.1 X' x1
      by_contra q
      rw [Bool.not_eq_false] at q
      have q := (eqv_spec.1 q).2
      have := (same_enc hh (wf X List.mem_cons_self) (wf X' (List.mem_cons_of_mem _ x1)) hXY x2).2 q
      have : X.eqv X' = true := eqv_spec.2 ⟨(Enc.applyLam_source hXY).symm.trans (Enc.applyLam_source x2), this⟩
      rw [hne] at this
      cases this
  · rw [← F.length_eq, u4]
    have := (hh.undo hL.1 ha).2.1
    rw [this, hh.path.zeta, Enc.applyLam_source ha]

theorem IsTriangulation.onlyArcs (ht : L.IsTriangulation) (hL : L.Consistent) : L.OnlyHasArcs := by
  obtain ⟨D, u1, u2, -⟩ := ht
  intro X hX hn
  obtain ⟨Y, y1, y2⟩ := (u1.hasPart_iff hL (fun Y hY => (u2 Y hY).1)).1 hX
  exact (u2 Y y1).2 (y2.symm.noArcs hn)

theorem IsTriangulation.same (h : L.IsTriangulation) (e : Same L K) : K.IsTriangulation := by
  obtain ⟨D, u1, u2, u3, u4⟩ := h
  exact ⟨D, u1.same e, u2, u3, by rw [u4, e.1]⟩

/-- what `shorten` does, in the form used here -/
theorem shorten_same {P : Lam Int → Py LamClass} {dflt slow : Int → Int → Bool} {n : Nat} (hL : L.Consistent) (hs : L.shortenAll P dflt n slow = .ok (s, g)) :
    g.Legal ∧ g.source = L.tri ∧ g.target = s.tri ∧ s.Consistent ∧ ∃ K, g.applyLam L = .ok K ∧ K.Consistent ∧ Same K s ∧ g.inv'.applyLam K = .ok L := by
  obtain ⟨H, -, -, -⟩ := Lam.shortenAll_spec hL.1 hs
  obtain ⟨K, k1, k2, k3⟩ := H.acts
  have hK := hL.enc H.legal k1
  exact ⟨H.legal, H.source, H.target, hK.same k2.symm k3.symm, K, k1, hK, ⟨k2, k3⟩, (H.legal.undo hL.1 k1).2.2.2⟩

/-- the weights of the list are those of the edges -/
theorem mem_geometric (hs : s.WellFormed) {w : Int} : w ∈ s.geometric ↔ ∃ i ∈ s.tri.indices, s.w i = w := by
  constructor
  · intro hw
    obtain ⟨i, hi, e⟩ := List.getElem_of_mem hw
    refine ⟨(i : Int), mem_indices.2 ⟨by omega, by rw [← hs.2]; omega⟩, ?_⟩
    have : (norm (i : Int)).toNat = i := by unfold norm inv; omega
    unfold Lam.w
    rw [this, List.getElem?_eq_getElem hi, e]
    rfl
  · rintro ⟨i, hi, rfl⟩
    have h0 := mem_indices.1 hi
    have : (norm i).toNat = i.toNat := by unfold norm inv; omega
    have hl : i.toNat < s.geometric.length := by rw [hs.2]; omega
    unfold Lam.w
    rw [this, List.getElem?_eq_getElem hl]
    exact List.getElem_mem hl

theorem isTriangulation_iff (hs : s.Consistent) (hw : ∀ x, s.tri.IsLabel x → s.w x ≤ 0) : s.IsTriangulation ↔ ∀ x, s.tri.IsLabel x → s.w x = -1 :=
  ⟨edges_of_isTriangulation hs hw, isTriangulation_of_edges hs⟩

end Lam
end Curver
