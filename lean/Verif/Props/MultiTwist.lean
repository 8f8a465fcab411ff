import Verif.Proofs.TwistDisjoint

/-!
# C83: Dehn twists about multicurves

Nothing is assumed about the number of components of `c`, their multiplicities or their weights.
-/

namespace Curver
open Triangulation

section
variable (P : Lam Int → Py LamClass) (dflt : Int → Int → Bool) (fuel : Nat) (c : Lam Int) (hc : c.NoArcs) (power : Int) (h : Enc) (hh : c.encodeTwist P dflt fuel power = .ok h)
include hc hh

/-- C83: `c.encode_twist(power)` fixes every lamination without arcs that can be drawn disjoint from `c`. -/
theorem C83_fixes_disjoint (M : Lam Int) (hM : M.NoArcs) (hd : c.DisjointFrom M) : h.applyLam M = .ok M :=
  Lam.encodeTwist_beside hc hh hM hd.tri.symm (fun _ hX => by obtain ⟨-, N, hN⟩ := hX; exact .inl (hd.right hN))

/-- C83: `c.encode_twist(power)` fixes the multicurve `c`. -/
theorem C83_fixes_self : h.applyLam c = .ok c :=
  Lam.encodeTwist_beside hc hh hc rfl (fun _ hX => by obtain ⟨-, N, hN⟩ := hX; exact .inr ⟨N, hN⟩)

/-- C83: `c.encode_twist(power)` fixes each component of `c`. -/
theorem C83_fixes_components (X : Lam Int) (hX : c.HasPart X) : h.applyLam X = .ok X := by
  have hC := (Lam.noArcs_iff.1 hc).1
  obtain ⟨cX, N, hN⟩ := hX
  have hXn : X.NoArcs := hN.closed hc
  exact Lam.encodeTwist_beside hc hh hXn hN.wf.2.2.1 (fun Y hY => Lam.parts_beside hC hY ⟨cX, N, hN⟩)

/-- C83: `c.encode_twist(power)` does not move the vertices. -/
theorem C83_vertex_map (vm : PyDict (List Int) (List Int)) (hm : h.vertexMap = .ok vm) (v w : List Int) (hvw : (v, w) ∈ vm) : w = v := by
  obtain ⟨h1, h2, h3, h4, -⟩ := C60_mapping_class P dflt fuel c hc power h hh
  obtain ⟨vm', vs, ws, m1, m2, m3, m4, m5, m6, m7⟩ := C43_vertex_map h h1
  rw [hm] at m1; cases m1
  have hv : v ∈ vs := by rw [← m4]; exact List.mem_map_of_mem (f := Prod.fst) hvw
  have hst : c.tri.Star v := Lam.star_of_mem hc.1.1 (h3 ▸ m2) hv
  have hd := ((Lam.disjoint_link_iff (Lam.noArcs_iff.1 hc).1 hst).2 (fun x hx => by
    have lx := hst.basic.2.1 x hx
    obtain ⟨y, z, hg⟩ := hc.1.1.comp.exists_glues lx
    exact ⟨hc.nonneg lx, (hc.lf_spec hg).2.2⟩)).symm
  have hf := C83_fixes_disjoint P dflt fuel c hc power h hh _ (by
    obtain ⟨x, hx⟩ := List.exists_mem_of_ne_nil _ ((hc.1.1.comp.vertices_mem (h3 ▸ m2)).2.1 v hv).1.ne
    have lx := hst.basic.2.1 x hx
    refine Lam.link_noArcs hc.1.1 ⟨x, lx, ?_⟩
    obtain ⟨z', vs', r1, r2, r3, r4, _⟩ := hc.1.1.comp.vertexOf_ok lx
    rw [h3] at m2
    rw [m2] at r2; cases r2
    rw [r1, (hc.1.1.comp.vertices_mem m2).2.2.1 z' r3 v hv x r4 hx]) hd
  rw [h3] at m2
  rw [h4] at m3
  rw [m2] at m3; cases m3
  obtain ⟨c1, c2, c3⟩ := (C43_characterised h h1 vm vs vs hm (by rw [h3]; exact m2) (by rw [h4]; exact m2) v w).1 hvw
  rw [h3, h4, hf] at c3
  injection c3 with c3
  exact (hc.1.1.comp.link_inj (R := Int) m2 hv c2 (by unfold curveFromCutSequence at c3; injection c3)).symm

omit hh in
/-- C83: without acceleration, `c.encode_twist(power)` returns a mapping that fixes the multicurve, its components, the vertices and everything closed and disjoint. -/
theorem C83_returns (hd : ∀ w w', dflt w w' = false) : ∃ k, Returns (fun n => c.encodeTwist P dflt n power) k ∧ k.Legal ∧ k.applyLam c = .ok c ∧ (∀ X, c.HasPart X → k.applyLam X = .ok X) ∧
    ∀ M : Lam Int, M.NoArcs → c.DisjointFrom M → k.applyLam M = .ok M := by
  obtain ⟨k, ⟨N, hN⟩, h1, -⟩ := C76_twist P dflt hd c hc power
  have h0 := hN N le_rfl
  dsimp only at h0
  exact ⟨k, ⟨N, hN⟩, h1, C83_fixes_self P dflt N c hc power k h0, C83_fixes_components P dflt N c hc power k h0, C83_fixes_disjoint P dflt N c hc power k h0⟩

end

/-! ## Non-vacuity -/

/-- two parallel copies of a long curve on the torus -/
def torusPair : Lam Int := ⟨torus, [4, 14, 18], .multicurve⟩

theorem torusPair_noArcs : torusPair.NoArcs := by
  rw [Lam.noArcs_iff, Lam.consistent_iff]
  refine ⟨⟨⟨torus_valid, by decide⟩, ?_⟩, ?_⟩
  · intro a b c h
    rcases h with h | h | h <;> simp [torusPair, torus] at h <;>
      rcases h with ⟨rfl, rfl, rfl⟩ | ⟨rfl, rfl, rfl⟩ <;> first | decide | (unfold TriEven; decide)
  · intro a b c h
    rcases h with h | h | h <;> simp [torusPair, torus] at h <;>
      rcases h with ⟨rfl, rfl, rfl⟩ | ⟨rfl, rfl, rfl⟩ <;> decide

/-- the twist is not trivial -/
theorem torusPair_twist : ∃ h, torusPair.encodeTwist anyClass neverSlow 20 1 = .ok h ∧ h.sequence.length = 14 := by
  obtain ⟨h, h3, h4⟩ := Py.of_toOption (x := torusPair.encodeTwist anyClass neverSlow 20 1) (f := fun h => h.sequence.length) (v := 14) (by decide +kernel)
  exact ⟨h, h3, h4⟩

example : ∃ h, torusPair.encodeTwist anyClass neverSlow 20 1 = .ok h ∧ h.applyLam torusPair = .ok torusPair := by
  obtain ⟨h, h1, -⟩ := torusPair_twist
  exact ⟨h, h1, C83_fixes_self anyClass neverSlow 20 torusPair torusPair_noArcs 1 h h1⟩

example : ∃ k, Returns (fun n => torusPair.encodeTwist anyClass neverSlow n 5) k ∧ k.applyLam torusPair = .ok torusPair := by
  obtain ⟨k, h1, -, h2, -⟩ := C83_returns anyClass neverSlow torusPair torusPair_noArcs 5 neverSlow_never
  exact ⟨k, h1, h2⟩

end Curver
