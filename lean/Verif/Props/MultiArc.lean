import Verif.Proofs.AllEncodings
import Verif.Proofs.MultiArc
import Verif.Proofs.Polygon
import Verif.Props.Termination

/-!
# C77 - C79: `all_encodings`, `is_triangulation`, `is_polygonalisation`
-/

namespace Curver
open Triangulation

/-! ## C77: `all_encodings` -/

/-- C77: `T.all_encodings(n)` yields the identity and each encoding that performs at most `n` flips and at least one, and each of them once.  (Flips are performed from right to left; the edges are
given by their indices.) -/
theorem C77_exact (n : Nat) (T : Triangulation) (hT : T.Valid) : ∃ gs, allEncodings n T = .ok gs ∧ gs.Nodup ∧
    ∀ E, E ∈ gs ↔ T.idEncoding = .ok E ∨ ∃ es : List Int, es ≠ [] ∧ es.length ≤ n ∧ (∀ e ∈ es, 0 ≤ e) ∧ T.encode (es.map .flip) = .ok E := by
  obtain ⟨gs, h1, h2, h3⟩ := AllEnc.allEncodings_spec n hT
  refine ⟨gs, h1, h2, fun E => (h3 E).trans (or_congr Iff.rfl ?_)⟩
  constructor
  · rintro ⟨es, ms, U, e1, e2, e3, e4, e5⟩
    have hne : es.reverse ≠ [] := by simpa using e1
    exact ⟨es.reverse, hne, by simpa using e2, fun e he => e3 e (by simpa using he), (AllEnc.encode_iff hT hne).2 ⟨ms, U, by rw [List.reverse_reverse]; exact e4, e5⟩⟩
  · rintro ⟨es, e1, e2, e3, e4⟩
    obtain ⟨ms, U, u1, u2⟩ := (AllEnc.encode_iff hT e1).1 e4
    exact ⟨es.reverse, ms, U, by simpa using e1, by simpa using e2, fun e he => e3 e (by simpa using he), u1, u2⟩

/-- C77: all of them are mappings that start at the triangulation, and their number only grows with `n`. -/
theorem C77_legal (n : Nat) (T : Triangulation) (hT : T.Valid) (gs : List Enc) (h : allEncodings n T = .ok gs) : (∀ E ∈ gs, E.Legal ∧ E.source = T) ∧
    ∀ m gs', n ≤ m → allEncodings m T = .ok gs' → gs ⊆ gs' := by
  obtain ⟨gs0, h1, h2, h3⟩ := C77_exact n T hT
  rw [h] at h1
  injection h1 with h1
  subst h1
  constructor
  · intro E hE
    rcases (h3 E).1 hE with h0 | ⟨es, e1, e2, e3, e4⟩
    · obtain ⟨i, i1, i2, i3, i4, i5⟩ := hT.idEncoding
      rw [i1] at h0
      injection h0 with h0
      subst h0
      obtain ⟨p, p1, p2, -, p4, -⟩ := hT.idEncoding_spec
      rw [i1] at p1
      injection p1 with p1
      subst p1
      exact ⟨p2, p4⟩
    · obtain ⟨ms, U, u1, u2⟩ := (AllEnc.encode_iff hT e1).1 e4
      have hm : ms ≠ [] := by
        rintro rfl
        cases hr : es.reverse with
        | nil => exact e1 (by simpa using hr)
        | cons e es' =>
          rw [hr] at u1
          obtain ⟨m, ns, -, h, -⟩ := (AllEnc.flips_cons hT).1 u1
          cases h
      exact ⟨u2 ▸ u1.enc_legal hm, by rw [u2]; rfl⟩
  · intro m gs' hm h' E hE
    obtain ⟨gs0, k1, k2, k3⟩ := C77_exact m T hT
    rw [h'] at k1
    injection k1 with k1
    subst k1
    rcases (h3 E).1 hE with h0 | ⟨es, e1, e2, e3, e4⟩
    · exact (k3 E).2 (.inl h0)
    · exact (k3 E).2 (.inr ⟨es, e1, by omega, e3, e4⟩)

/-- C77 on the torus: three encodings of one flip and nine of two -/
example : (allEncodings 2 torus).toOption.map List.length = some 13 := by decide +kernel

/-! ## C78: `is_triangulation` -/

section
variable (P P' : Lam Int → Py LamClass) (dflt dflt' : Int → Int → Bool) (fuel fuel' : Nat) (L : Lam Int) (hL : L.Consistent)
include hL

/-- C78: `L.is_triangulation()` says that the components of the multiarc are the edges of a triangulation: there are as many as `L.zeta`, and no two are parallel. -/
theorem C78_is_triangulation (b : Bool) (h : L.isTriangulation P dflt fuel = .ok b) : b = true ↔ L.IsTriangulation := by
  unfold Lam.isTriangulation at h
  rw [py_bind_eq_ok] at h
  obtain ⟨⟨s, g⟩, h1, h2⟩ := h
  injection h2 with h2
  obtain ⟨l, -, -, hs, K, k1, hK, k2, k3⟩ := Lam.shorten_same hL h1
  rw [← h2, List.all_eq_true]
  constructor
  · intro h0
    have : s.IsTriangulation := by
      refine Lam.isTriangulation_of_edges hs (fun x hx => Lam.index_of_label s (fun y => y = -1) (fun i hi => ?_) hx)
      simpa using h0 _ ((Lam.mem_geometric hs.1).2 ⟨i, hi, rfl⟩)
    exact (this.same k2.symm).enc hK l.inv' k3
  · intro h0 w hw
    have := Lam.edges_of_isTriangulation hs ((h0.onlyArcs hL).short hL h1) ((h0.enc hL l k1).same k2)
    obtain ⟨i, hi, rfl⟩ := (Lam.mem_geometric hs.1).1 hw
    simpa using this i (Lam.isLabel_index hi)

/-- C78: these are the multiarcs that some mapping takes to the edges of its target: `h(L) == h.target_triangulation.as_lamination()`. -/
theorem C78_edges (b : Bool) (h : L.isTriangulation P dflt fuel = .ok b) :
    b = true ↔ ∃ (g : Enc) (K : Lam Int), g.Legal ∧ g.applyLam L = .ok K ∧ K.eqv g.target.asLamination = true := by
  have h0 := C78_is_triangulation P dflt fuel L hL b h
  unfold Lam.isTriangulation at h
  rw [py_bind_eq_ok] at h
  obtain ⟨⟨s, g⟩, h1, h2⟩ := h
  injection h2 with h2
  obtain ⟨l, -, t, hs, K, k1, hK, k2, k3⟩ := Lam.shorten_same hL h1
  constructor
  · intro hb
    refine ⟨g, K, l, k1, Lam.eqv_spec.2 ⟨by rw [k2.1]; exact t.symm, ?_⟩⟩
    rw [k2.2]
    unfold asLamination
    rw [t, ← hs.1.2]
    refine List.eq_replicate_iff.2 ⟨rfl, fun w hw => ?_⟩
    rw [hb, List.all_eq_true] at h2
    simpa using h2 w hw
  · rintro ⟨g', K', l', k1', e⟩
    rw [h0]
    have e := Lam.eqv_spec.1 e
    have hK' := hL.enc l' k1'
    have : K'.IsTriangulation := by
      refine Lam.isTriangulation_of_edges hK' (fun x hx => ?_)
      unfold Lam.w
      rw [e.2]
      have hx := idx_lt hx
      rw [e.1] at hx
      unfold asLamination
      dsimp only
      rw [List.getElem?_replicate, if_pos (by exact hx)]
      rfl
    exact this.enc hK' l'.inv' (l'.undo hL.1 k1').2.2.2

/-- C78: it is a topological invariant, as its decorator says: `h(L).is_triangulation() == L.is_triangulation()` for every mapping `h`. -/
theorem C78_mapping (h : Enc) (hh : h.Legal) (L' : Lam Int) (ha : h.applyLam L = .ok L') (b b' : Bool) (h1 : L.isTriangulation P dflt fuel = .ok b) (h2 : L'.isTriangulation P' dflt' fuel' = .ok b') :
    b = b' := by
  rw [Bool.eq_iff_iff, C78_is_triangulation P dflt fuel L hL b h1, C78_is_triangulation P' dflt' fuel' L' (hL.enc hh ha) b' h2]
  exact ⟨fun h0 => h0.enc hL hh ha, fun h0 => h0.enc (hL.enc hh ha) hh.inv' (hh.undo hL.1 ha).2.2.2⟩

/-- C78: without acceleration, `is_triangulation()` returns. -/
theorem C78_returns (hd : ∀ w w', dflt w w' = false) : ∃ b, Returns (fun n => L.isTriangulation P dflt n) b ∧ (b = true ↔ L.IsTriangulation) := by
  obtain ⟨⟨s, g⟩, N, hN⟩ := Lam.shorten_returns (P := P) (dflt := dflt) hL hd
  have : ∀ n, N ≤ n → L.isTriangulation P dflt n = .ok (s.geometric.all (fun weight => decide (weight = -1))) := by
    intro n hn
    unfold Lam.isTriangulation
    rw [hN n hn]
    rfl
  exact ⟨_, ⟨N, this⟩, C78_is_triangulation P dflt N L hL _ (this N le_rfl)⟩

end

/-- C78 on the torus: the three edges after a flip are a triangulation, three arcs of which two are parallel are none -/
example : (⟨torus, [-1, 1, -1], .multiarc⟩ : Lam Int).isTriangulation anyClass neverSlow 20 = .ok true ∧
    (⟨torus, [-2, 0, -1], .multiarc⟩ : Lam Int).isTriangulation anyClass neverSlow 20 = .ok false ∧ torus.asLamination.isTriangulation anyClass neverSlow 20 = .ok true := by decide +kernel

example : (⟨torus, [-1, 1, -1], .multiarc⟩ : Lam Int).Consistent := by
  rw [Lam.consistent_iff]
  refine ⟨⟨torus_valid, by decide⟩, ?_⟩
  intro a b c h
  rcases h with h | h | h <;> simp [torus] at h <;> rcases h with ⟨rfl, rfl, rfl⟩ | ⟨rfl, rfl, rfl⟩ <;> intro _ _ _ <;> simp_all [Lam.w, norm, inv]

/-! ## C79: `is_polygonalisation` -/

section
variable (P P' : Lam Int → Py LamClass) (dflt dflt' : Int → Int → Bool) (fuel fuel' : Nat) (L : Lam Int) (hL : L.Consistent) (hc : L.ClassRight)
include hL hc

/-- C79: `L.is_polygonalisation()` says that the lamination cuts the surface into polygons: the only lamination of closed curves, peripheral ones included, that can be drawn without crossing `L` is
the empty one. -/
theorem C79_is_polygonalisation (b : Bool) (h : L.isPolygonalisation P dflt fuel = .ok b) : b = true ↔ L.CutsIntoPolygons := by
  unfold Lam.isPolygonalisation at h
  rw [py_bind_eq_ok] at h
  obtain ⟨cs, h1, h2⟩ := h
  have H := Lam.componentsAll_spec hL hc h1
  split at h2
  · rename_i hany
    injection h2 with h2
    rw [List.any_eq_true] at hany
    obtain ⟨p, p1, p2⟩ := hany
    have p2 : p.1.cls = .curve := by simpa using p2
    have hn : p.1.NoArcs := by
      rcases H.cls p p1 with q | q
      · exact q.2
      · rw [p2] at q; cases q.1
    have := Lam.not_cuts hL ((H.hasPart_iff hL).2 ⟨p, p1, .refl⟩) hn
    subst h2
    simp [this]
  · rename_i hany
    simp only [py_bind_eq_ok] at h2
    obtain ⟨⟨s, g⟩, k1, h2⟩ := h2
    simp only [py_bind_eq_ok] at h2
    obtain ⟨avoid, k2, tree, k3, h2⟩ := h2
    injection h2 with h2
    have hA : L.OnlyHasArcs := by
      intro X hX hn
      obtain ⟨p, p1, p2⟩ := (H.hasPart_iff hL).1 hX
      rcases H.cls p p1 with q | q
      · refine hany (List.any_eq_true.2 ⟨p, p1, by simp [q.1]⟩)
      · exact q.2 (p2.symm.noArcs hn)
    have hle := hA.short hL k1
    obtain ⟨l, -, -, hs, K, a1, hK, a2, a3⟩ := Lam.shorten_same hL k1
    rw [Lam.negativeOn_ok hs.1 (fun x hx => Lam.isLabel_index hx)] at k2
    injection k2 with k2
    subst k2
    have hiff := Lam.cuts_iff hs hle k3
    have hLs : L.CutsIntoPolygons ↔ s.CutsIntoPolygons := ⟨fun h => (h.enc hL l a1).same a2, fun h => (h.same a2.symm).enc hK l.inv' a3⟩
    rw [hLs, hiff, ← h2, Bool.and_eq_true, List.all_eq_true, List.all_eq_true]
    obtain ⟨tree', t1, -, t3, -⟩ := C34_forest s.tri hs.1.1 (s.tri.indices.filter (fun x => decide (s.w x < 0)))
    rw [k3] at t1
    injection t1 with t1
    subst t1
    constructor
    · rintro ⟨-, h⟩ i hi
      have := h i hi
      simp only [List.mem_filter, decide_eq_true_eq] at this
      exact this.imp id And.right
    · intro h
      refine ⟨fun i hi => ?_, fun i hi => ?_⟩
      · rcases List.mem_append.1 hi with hi | hi
        · simpa using (t3 i hi).1
        · simpa using (List.mem_filter.1 hi).1
      · simp only [List.mem_filter, decide_eq_true_eq]
        exact (h i hi).imp id (fun h => ⟨hi, h⟩)

/-- C79: it is a topological invariant, as its decorator says. -/
theorem C79_mapping (h : Enc) (hh : h.Legal) (L' : Lam Int) (ha : h.applyLam L = .ok L') (b b' : Bool) (h1 : L.isPolygonalisation P dflt fuel = .ok b)
    (h2 : L'.isPolygonalisation P' dflt' fuel' = .ok b') : b = b' := by
  rw [Bool.eq_iff_iff, C79_is_polygonalisation P dflt fuel L hL hc b h1, C79_is_polygonalisation P' dflt' fuel' L' (hL.enc hh ha) (hc.enc hL hh ha) b' h2]
  exact ⟨fun h0 => h0.enc hL hh ha, fun h0 => h0.enc (hL.enc hh ha) hh.inv' (hh.undo hL.1 ha).2.2.2⟩

/-- C79: without acceleration, `is_polygonalisation()` returns. -/
theorem C79_returns (hd : ∀ w w', dflt w w' = false) : ∃ b, Returns (fun n => L.isPolygonalisation P dflt n) b ∧ (b = true ↔ L.CutsIntoPolygons) := by
  obtain ⟨⟨s, g⟩, N, hN⟩ := Lam.shorten_returns (P := P) (dflt := dflt) hL hd
  obtain ⟨cs, -, N', hN'⟩ := Lam.componentsAll_returns P dflt hd L hL hc
  dsimp only at hN'
  have hs := (Lam.shorten_same hL (hN N le_rfl)).2.2.2.1
  obtain ⟨tree, t1, -⟩ := C34_forest s.tri hs.1.1 (s.tri.indices.filter (fun x => decide (s.w x < 0)))
  obtain ⟨b, hb⟩ : ∃ b, ∀ n, max N N' ≤ n → L.isPolygonalisation P dflt n = .ok b := by
    unfold Lam.isPolygonalisation
    by_cases q : cs.any (fun p => p.1.cls == .curve)
    · refine ⟨false, fun n hn => ?_⟩
      rw [hN' n (by omega), py_bind_ok, if_pos q]
      rfl
    · refine ⟨(tree ++ s.tri.indices.filter (fun x => decide (s.w x < 0))).all (fun i => decide (i ∈ s.tri.indices)) &&
        s.tri.indices.all (fun i => decide (i ∈ tree ∨ i ∈ s.tri.indices.filter (fun x => decide (s.w x < 0)))), fun n hn => ?_⟩
      rw [hN' n (by omega), py_bind_ok, if_neg q, hN n (by omega), py_bind_ok]
      dsimp only
      rw [Lam.negativeOn_ok hs.1 (fun x hx => Lam.isLabel_index hx), py_bind_ok, t1, py_bind_ok]
      rfl
  exact ⟨b, ⟨_, hb⟩, C79_is_polygonalisation P dflt _ L hL hc b (hb _ le_rfl)⟩

omit hc in
/-- C79: every triangulation is a polygonalisation. -/
theorem C79_triangulation (h : L.IsTriangulation) : L.CutsIntoPolygons := by
  obtain ⟨⟨s, g⟩, N', hN'⟩ := Lam.shorten_returns (P := anyClass) (dflt := neverSlow) hL neverSlow_never
  have k1 := hN' N' le_rfl
  obtain ⟨l, -, -, hs, K, a1, hK, a2, a3⟩ := Lam.shorten_same hL k1
  have hle := (h.onlyArcs hL).short hL k1
  have := Lam.edges_of_isTriangulation hs hle ((h.enc hL l a1).same a2)
  obtain ⟨tree, t1, -⟩ := C34_forest s.tri hs.1.1 (s.tri.indices.filter (fun x => decide (s.w x < 0)))
  have : s.CutsIntoPolygons := (Lam.cuts_iff hs hle t1).2 (fun i hi => .inr (by rw [this i (Lam.isLabel_index hi)]; decide))
  exact (this.same a2.symm).enc hK l.inv' a3

end

/-- C79 on the torus: two edges cut it into a square, one does not; on the sphere with three punctures, the two edges at a vertex do -/
example : (⟨torus, [-1, -1, 0], .multiarc⟩ : Lam Int).isPolygonalisation anyClass neverSlow 20 = .ok true ∧
    (⟨torus, [-1, 1, 1], .integral⟩ : Lam Int).isPolygonalisation anyClass neverSlow 20 = .ok false ∧
    (⟨torus, [-1, 0, 0], .arc⟩ : Lam Int).isPolygonalisation anyClass neverSlow 20 = .ok false ∧
    (⟨threePunctures, [-1, -1, 0], .multiarc⟩ : Lam Int).isPolygonalisation anyClass neverSlow 20 = .ok true := by decide +kernel

end Curver
