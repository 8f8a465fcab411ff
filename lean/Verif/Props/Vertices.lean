import Verif.Proofs.Vertices3
import Verif.Props.Termination
import Verif.Props.HalfTwist

/-!
# C82: the vertices that a multiarc ends at, and `has_distinct_endpoints`

`Lam.Reaches` (`Verif/Spec/Vertices.lean`) says that a strand of the lamination ends at the vertex: the curve round the vertex cannot be drawn disjoint from it.
-/

namespace Curver
open Triangulation

/-- C82: `L.vertices()` returns the vertices at which some component of `L` ends, each once. -/
theorem C82_vertices (L : Lam Int) (hL : L.Consistent) :
    ∃ vs l, L.tri.vertices = .ok vs ∧ L.arcVertices = .ok l ∧ l.Nodup ∧ ∀ v, v ∈ l ↔ v ∈ vs ∧ L.Reaches v :=
  Lam.arcVertices_spec hL

/-- C82: the arc along an edge ends at the two ends of the edge. -/
theorem C82_edge (T : Triangulation) (hT : T.Valid) (a : Int) (arc : Lam Int) (h : arc.IsEdgeArc T a) (v u : List Int) (hv : T.vertexOf a = .ok v) (hu : T.vertexOf (inv a) = .ok u) :
    ∃ l, arc.arcVertices = .ok l ∧ ∀ x, x ∈ l ↔ x = v ∨ x = u := by
  obtain ⟨l, h1, -, h2⟩ := h.arcVertices hT hv hu
  exact ⟨l, h1, h2⟩

/-- C82: nothing ends anywhere if there are no arcs. -/
theorem C82_closed (L : Lam Int) (hL : L.NoArcs) : L.arcVertices = .ok [] := by
  obtain ⟨vs, l, h1, h2, -, h3⟩ := C82_vertices L (Lam.noArcs_iff.1 hL).1
  have : l = [] := List.eq_nil_iff_forall_not_mem.2 fun v hv =>
    hL.reaches (Lam.star_of_mem hL.1.1 h1 ((h3 v).1 hv).1) ((h3 v).1 hv).2
  rw [h2, this]

/-- C82: an arc ends at one vertex or at two. -/
theorem C82_arc (X : Lam Int) (hX : X.Connected) (hc : X.Consistent) (hn : ¬ X.NoArcs) (l : List (List Int)) (h : X.arcVertices = .ok l) : l.length = 1 ∨ l.length = 2 := by
  obtain ⟨vs, l', h1, h2, h3, h4⟩ := C82_vertices X hc
  rw [h] at h2; cases h2
  obtain ⟨v, hv, u, hu, hr⟩ := Lam.arc_ends hX hc hn h1
  have := Lam.ends_le hX hc h1 l h3 (fun v hv => (h4 v).1 hv)
  have h5 : v ∈ l := (h4 v).2 ⟨hv, (hr v hv).2 (.inl rfl)⟩
  have := List.length_pos_of_mem h5
  omega

/-- C82: a disjoint union ends where one of its parts does. -/
theorem C82_union (L X Y : Lam Int) (hL : L.Consistent) (hu : L.IsUnion X Y) (l m n : List (List Int)) (h : L.arcVertices = .ok l) (h1 : X.arcVertices = .ok m) (h2 : Y.arcVertices = .ok n) (v : List Int) :
    v ∈ l ↔ v ∈ m ∨ v ∈ n := by
  have c := hu.consistent hL
  have w := hu.wf
  obtain ⟨vs, l', a1, a2, -, a3⟩ := C82_vertices L hL
  obtain ⟨vs', m', b1, b2, -, b3⟩ := C82_vertices X c.1
  obtain ⟨vs'', n', d1, d2, -, d3⟩ := C82_vertices Y c.2
  rw [h] at a2; cases a2
  rw [h1] at b2; cases b2
  rw [h2] at d2; cases d2
  rw [w.2.2.1, a1] at b1; cases b1
  rw [w.2.2.2, a1] at d1; cases d1
  rw [a3, b3, d3]
  by_cases hv : v ∈ vs
  · rw [hu.reaches hL (Lam.star_of_mem hL.1.1 a1 hv)]; tauto
  · tauto

/-- C82: mappings carry the vertices at which a lamination ends to those at which its image ends. -/
theorem C82_mapping (h : Enc) (hh : h.Legal) (L L' : Lam Int) (hL : L.Consistent) (ha : h.applyLam L = .ok L') (l l' : List (List Int)) (h1 : L.arcVertices = .ok l) (h2 : L'.arcVertices = .ok l')
    (vm : PyDict (List Int) (List Int)) (hm : h.vertexMap = .ok vm) (v w : List Int) (hvw : (v, w) ∈ vm) : w ∈ l' ↔ v ∈ l := by
  obtain ⟨vs, k, a1, a2, -, a3⟩ := C82_vertices L hL
  obtain ⟨ws, k', b1, b2, -, b3⟩ := C82_vertices L' (hL.enc hh ha)
  rw [h1] at a2; cases a2
  rw [h2] at b2; cases b2
  obtain ⟨vm', vs', ws', m1, m2, m3, m4, m5, m6, m7⟩ := C43_vertex_map h hh
  rw [hm] at m1; cases m1
  have ht := Enc.applyLam_source ha
  rw [← ht, m2] at a1; cases a1
  rw [(hh.undo hL.1 ha).2.1, m3] at b1; cases b1
  rw [a3, b3, Lam.reaches_enc hL hh ha (m7 v w hvw)]
  have hv : v ∈ vs := by rw [← m4]; exact List.mem_map_of_mem (f := Prod.fst) hvw
  have hw : w ∈ ws := m5.mem_iff.1 (List.mem_map_of_mem (f := Prod.snd) hvw)
  tauto

section
variable (P : Lam Int → Py LamClass) (dflt : Int → Int → Bool) (fuel : Nat) (L : Lam Int) (hL : L.Consistent) (hc : L.ClassRight)
include hL hc

/-- C82: `has_distinct_endpoints()` says that every component runs between two different vertices and no two of them have an end in common. -/
theorem C82_distinct (b : Bool) (h : L.hasDistinctEndpoints P dflt fuel = .ok b) : b = true ↔ L.DistinctEnds := by
  unfold Lam.hasDistinctEndpoints at h
  simp only [py_bind_eq_ok] at h
  obtain ⟨l, h1, n, h2, h3⟩ := h
  injection h3 with h3
  subst h3
  obtain ⟨vs, l', a1, a2, a3, a4⟩ := C82_vertices L hL
  rw [h1] at a2; cases a2
  rw [decide_eq_true_iff]
  have key : ∀ D, L.Unions D → (∀ X ∈ D, X.Connected) → ((l.length : Int) = 2 * n ↔ (∀ X ∈ D, X.TwoEnds) ∧ D.Pairwise Lam.EndApart) := by
    intro D hD cD
    rw [← Lam.distinct_iff hL a1 a3 a4 hD cD, C69_number P dflt fuel L hL hc n h2 D hD cD]
    omega
  constructor
  · intro q
    obtain ⟨D, d1, d2⟩ := Lam.exists_unions hL
    obtain ⟨e1, e2⟩ := (key D d1 d2).1 q
    exact ⟨D, d1, fun X hX => ⟨d2 X hX, e1 X hX⟩, e2⟩
  · rintro ⟨D, d1, d2, d3⟩
    exact (key D d1 (fun X hX => (d2 X hX).1)).2 ⟨fun X hX => (d2 X hX).2, d3⟩

/-- C82: `has_distinct_endpoints` is a topological invariant. -/
theorem C82_distinct_mapping (P' : Lam Int → Py LamClass) (dflt' : Int → Int → Bool) (fuel' : Nat) (h : Enc) (hh : h.Legal) (L' : Lam Int) (ha : h.applyLam L = .ok L') (b b' : Bool)
    (h1 : L.hasDistinctEndpoints P dflt fuel = .ok b) (h2 : L'.hasDistinctEndpoints P' dflt' fuel' = .ok b') : b = b' := by
  rw [Bool.eq_iff_iff, C82_distinct P dflt fuel L hL hc b h1, C82_distinct P' dflt' fuel' L' (hL.enc hh ha) (hc.enc hL hh ha) b' h2]
  exact ⟨fun h0 => h0.enc hL hh ha, fun h0 => h0.enc (hL.enc hh ha) hh.inv' (hh.undo hL.1 ha).2.2.2⟩

/-- C82: without acceleration, `has_distinct_endpoints()` returns. -/
theorem C82_distinct_returns (hd : ∀ w w', dflt w w' = false) : ∃ b, Returns (fun n => L.hasDistinctEndpoints P dflt n) b ∧ (b = true ↔ L.DistinctEnds) := by
  obtain ⟨cs, -, -, ⟨N, hN⟩, -⟩ := C74_components P dflt hd L hL hc
  dsimp only at hN
  obtain ⟨vs, l, a1, a2, -⟩ := C82_vertices L hL
  have h0 : ∀ n, N ≤ n → L.hasDistinctEndpoints P dflt n = .ok (decide ((l.length : Int) = 2 * (cs.map Prod.snd).sum)) := by
    intro n hn
    unfold Lam.hasDistinctEndpoints
    rw [a2, py_bind_ok, hN n hn]
    rfl
  exact ⟨_, ⟨N, h0⟩, C82_distinct P dflt N L hL hc _ (h0 N le_rfl)⟩

end

/-! ## Non-vacuity -/

/-- two opposite edges of the tetrahedron -/
def sphereTwoArcs : Lam Int := ⟨sphere4, [-1, 0, 0, 0, 0, -1], .multiarc⟩

theorem sphereTwoArcs_consistent : sphereTwoArcs.Consistent := by
  rw [Lam.consistent_iff]
  refine ⟨⟨sphere4_valid, by decide⟩, ?_⟩
  intro a b c h
  rcases h with h | h | h <;> simp [sphereTwoArcs, sphere4] at h <;> rcases h with ⟨rfl, rfl, rfl⟩ | ⟨rfl, rfl, rfl⟩ | ⟨rfl, rfl, rfl⟩ | ⟨rfl, rfl, rfl⟩ <;> first | decide | (unfold TriEven; decide)

theorem sphereTwoArcs_class : sphereTwoArcs.ClassRight := ⟨fun h => by (cases h), fun h => by (cases h)⟩

theorem sphereTwoArcs_distinct : sphereTwoArcs.hasDistinctEndpoints anyClass neverSlow 20 = .ok true := by decide +kernel

theorem torusMixed_indistinct : torusMixed.hasDistinctEndpoints anyClass neverSlow 20 = .ok false := by decide +kernel

example : sphereTwoArcs.DistinctEnds := (C82_distinct anyClass neverSlow 20 _ sphereTwoArcs_consistent sphereTwoArcs_class _ sphereTwoArcs_distinct).1 rfl

example : ∃ l, sphereArc.arcVertices = .ok l ∧ l.length = 2 := ⟨_, rfl, by decide +kernel⟩

example : torusCurve.arcVertices = .ok [] := by decide +kernel

example : ∃ b, Returns (fun n => sphereTwoArcs.hasDistinctEndpoints anyClass neverSlow n) b ∧ (b = true ↔ sphereTwoArcs.DistinctEnds) :=
  C82_distinct_returns anyClass neverSlow sphereTwoArcs sphereTwoArcs_consistent sphereTwoArcs_class neverSlow_never

end Curver
