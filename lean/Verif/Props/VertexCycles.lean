import Verif.Proofs.CycleWalk
import Verif.Props.LamClass
import Verif.Props.PL
import Verif.Props.Flips

/-!
# C95: vertex cycles
-/

namespace Curver
open Triangulation

/-- some function lists the simple cycles -/
theorem exists_listsCycles : ∃ cycles, ListsCycles cycles := by
  classical
  refine ⟨fun edges => (((edges.map Prod.fst).dedup.sublists).flatMap List.permutations).filter (fun c => decide (SimpleCycle edges c)), fun edges => ⟨fun c hc => ?_, fun c hc => ⟨c, ?_, List.IsRotated.refl c⟩⟩⟩
  · exact of_decide_eq_true (List.mem_filter.1 hc).2
  · refine List.mem_filter.2 ⟨List.mem_flatMap.2 ⟨(edges.map Prod.fst).dedup.filter (fun x => decide (x ∈ c)), List.mem_sublists.2 List.filter_sublist, ?_⟩, decide_eq_true hc⟩
    rw [List.mem_permutations, List.perm_ext_iff_of_nodup hc.2.1 ((List.nodup_dedup _).filter _)]
    intro x
    rw [List.mem_filter, List.mem_dedup, decide_eq_true_iff]
    refine ⟨fun hx => ⟨?_, hx⟩, fun h => h.2⟩
    obtain ⟨⟨q, -, q2⟩, -⟩ := Lam.cycle_next hx
    exact List.mem_map.2 ⟨_, hc.2.2 _ q2, rfl⟩

namespace Lam
variable {L K : Lam Int}

/-- simple cycles of the graph -/
theorem simple_iff (hL : L.NoArcs) {edges : List (Int × Int)} (h : L.cycleGraph = .ok edges) (cyc : List Int) : SimpleCycle edges cyc ↔ cyc ≠ [] ∧ cyc.Nodup ∧ ∀ p ∈ cyc.zip (cyc.rotate 1), L.Onward p.1 p.2 := by
  obtain ⟨e, h1, h2⟩ := cycleGraph_ok hL
  rw [h] at h1
  injection h1 with h1
  subst h1
  unfold SimpleCycle
  simp only [← h2]

theorem uses_iff (hK : K.NoArcs) (hL : L.NoArcs) : K.UsesArcsOf L ↔ K.tri = L.tri ∧ ∀ x, L.tri.IsLabel x → K.lf x ≠ 0 → L.lf x ≠ 0 := by
  unfold UsesArcsOf
  refine and_congr_right fun ht => forall₂_congr fun x hx => ?_
  have k := (hK.left (by rw [ht]; exact hx)).1
  have l := (hL.left hx).1
  constructor
  · intro h q
    obtain ⟨l', a, b⟩ := h _ k q
    rwa [lf_eq a]
  · intro h w hw hq
    exact ⟨_, l, h (by rwa [lf_eq hw])⟩

/-- the weights along a rotated cycle -/
theorem cut_rotated {T : Triangulation} {c d : List Int} (h : c.IsRotated d) : (T.cutSequenceIntersections c : List Int) = T.cutSequenceIntersections d := by
  unfold cutSequenceIntersections
  simp only [h.perm.count_eq]

/-- what a curve of a simple cycle is -/
theorem simple_vertexCycle (hL : L.NoArcs) {cyc : List Int} (h2 : cyc.Nodup) (h3 : ∀ p ∈ cyc.zip (cyc.rotate 1), L.Onward p.1 p.2) (ht : K.tri = L.tri) (hg : K.geometric = L.tri.cutSequenceIntersections cyc)
    (hK : K.Connected) : K.IsVertexCycle L := by
  obtain ⟨na, sup⟩ := cycle_lam hL h3
  have same : Same (L.tri.curveFromCutSequence cyc : Lam Int) K := ⟨ht.symm, hg.symm⟩
  have nK : K.NoArcs := same.noArcs na
  refine ⟨hK, nK, (uses_iff nK hL).2 ⟨ht, fun x hx h0 => sup x hx ?_⟩, fun x hx => ?_⟩
  · have e : (L.tri.curveFromCutSequence cyc : Lam Int).lf x = K.lf x := by obtain ⟨T, g, k⟩ := K; dsimp only at ht hg; subst ht hg; rfl
    rwa [e]
  · have e : K.w x = (L.tri.curveFromCutSequence cyc : Lam Int).w x := by simp only [w, hg, curveFromCutSequence]
    rw [e, link_w cyc hx]
    have a := List.nodup_iff_count_le_one.1 h2 x
    have b := List.nodup_iff_count_le_one.1 h2 (inv x)
    push_cast
    omega

end Lam

section
variable (cycles : List (Int × Int) → List (List Int)) (hcy : ListsCycles cycles) (dflt : Int → Int → Bool) (fuel : Nat) (L : Lam Int) (hL : L.NoArcs)
include hcy hL

/-- C95: everything that `L.vertex_cycles()` yields is a vertex cycle of the multicurve `L`: a curve that only uses the normal arcs of `L` and passes through each edge at most twice. -/
theorem C95_sound (r : List (Lam Int)) (h : L.vertexCycles cycles (Lam.classAll dflt fuel) = .ok r) : ∀ K ∈ r, K.cls = .curve ∧ K.IsVertexCycle L := by
  unfold Lam.vertexCycles at h
  simp only [py_bind_eq_ok] at h
  obtain ⟨edges, h1, curves, h2, h3⟩ := h
  injection h3 with h3
  subst h3
  intro K hK
  obtain ⟨k1, k2⟩ := List.mem_filter.1 hK
  have k2 : K.cls = .curve := by simpa using k2
  obtain ⟨c, c1, c2⟩ := mapM_mem_right h2 k1
  obtain ⟨t, g, -, d, -⟩ := C68_lamination dflt fuel L.tri hL.1.1 _ K c2
  rw [k2] at d
  obtain ⟨-, s2, s3⟩ := (Lam.simple_iff hL h1 c).1 ((hcy edges).1 c c1)
  exact ⟨k2, Lam.simple_vertexCycle hL s2 s3 t g d.1⟩

/-- C95: conversely, `L.vertex_cycles()` yields every curve that only uses the normal arcs of `L` and passes through each edge at most once. -/
theorem C95_complete (r : List (Lam Int)) (h : L.vertexCycles cycles (Lam.classAll dflt fuel) = .ok r) (K : Lam Int) (hK : K.NoArcs) (hc : K.Connected) (hu : K.UsesArcsOf L)
    (h1 : ∀ x, L.tri.IsLabel x → K.w x ≤ 1) : ∃ Y ∈ r, Y.eqv K = true := by
  obtain ⟨ht, hs⟩ := (Lam.uses_iff hK hL).1 hu
  obtain ⟨cyc, a1, a2, a3, a4⟩ := Lam.cycle_of_light hK hc (by rw [ht]; exact h1)
  unfold Lam.vertexCycles at h
  simp only [py_bind_eq_ok] at h
  obtain ⟨edges, e1, curves, e2, e3⟩ := h
  injection e3 with e3
  subst e3
  obtain ⟨d, d1, d2⟩ := (hcy edges).2 cyc ((Lam.simple_iff hL e1 cyc).2 ⟨a1, a2, fun p hp => (a3 p hp).mono hK hL ht hs⟩)
  obtain ⟨Y, y1, y2⟩ := mapM_mem_left e2 d1
  obtain ⟨t, g, cY, dY, -⟩ := C68_lamination dflt fuel L.tri hL.1.1 _ Y y2
  have same : Lam.Same K Y := by
    refine ⟨ht.trans t.symm, ?_⟩
    have : Lam.Same K (K.tri.curveFromCutSequence cyc : Lam Int) := Lam.same_of_w hK.1 (Lam.cycle_lam hK a3).1.1 rfl (fun x hx => (a4 x hx).symm)
    rw [g, ← Lam.cut_rotated d2, ← ht]
    exact this.2
  have cl : Y.cls = .curve := Lam.Describes.unique cY dY (show Y.Connected ∧ Y.NoArcs from ⟨hc.same same, same.noArcs hK⟩)
  exact ⟨Y, List.mem_filter.2 ⟨y1, by rw [cl]; rfl⟩, Lam.eqv_spec.2 same.symm⟩

end

section
variable (cycles : List (Int × Int) → List (List Int)) (hcy : ListsCycles cycles) (dflt : Int → Int → Bool) (hd : ∀ w w', dflt w w' = false) (L : Lam Int) (hL : L.NoArcs)
include hcy hd hL

/-- the laminations of simple cycles can be made -/
theorem cut_returns {edges : List (Int × Int)} (h : L.cycleGraph = .ok edges) {c : List Int} (hc : c ∈ cycles edges) : ∃ K, Returns (fun n => L.tri.laminationFromCutSequence (Lam.classAll dflt n) c) K ∧
    K.tri = L.tri ∧ K.geometric = L.tri.cutSequenceIntersections c ∧ K.Describes K.cls := by
  obtain ⟨-, s2, s3⟩ := (Lam.simple_iff hL h c).1 ((hcy edges).1 c hc)
  have na := (Lam.cycle_lam hL s3).1
  obtain ⟨k, hk⟩ := Lam.exists_describes (Lam.noArcs_iff.1 na).1
  have hC : (⟨L.tri, L.tri.cutSequenceIntersections c, .lamination⟩ : Lam Int).Consistent := (Lam.noArcs_iff.1 na).1
  refine ⟨⟨L.tri, L.tri.cutSequenceIntersections c, k⟩, (C75_lamination dflt hd L.tri hL.1.1 _ (by simp [cut_length]) k).2 ⟨hC, hk.same (M := ⟨L.tri, L.tri.cutSequenceIntersections c, .lamination⟩) (Lam.noArcs_iff.1 na).1 ⟨rfl, rfl⟩⟩, rfl, rfl, hk.same (M := ⟨L.tri, L.tri.cutSequenceIntersections c, k⟩) (Lam.noArcs_iff.1 na).1 ⟨rfl, rfl⟩⟩

/-- C95: without acceleration, `vertex_cycles` comes to its end; and `vertex_cycle` finds a curve, if the multicurve is not empty. -/
theorem C95_returns : (∃ r, Returns (fun n => L.vertexCycles cycles (Lam.classAll dflt n)) r) ∧
    (¬ L.Blank → ∃ K, Returns (fun n => L.vertexCycle cycles (Lam.classAll dflt n)) K ∧ K.cls = .curve ∧ K.IsVertexCycle L) := by
  obtain ⟨edges, he, -⟩ := Lam.cycleGraph_ok hL
  have each := fun c hc => cut_returns cycles hcy dflt hd L hL he (c := c) hc
  constructor
  · have all : ∀ l : List (List Int), (∀ c ∈ l, c ∈ cycles edges) → ∃ r N, ∀ n, N ≤ n → l.mapM (fun c => L.tri.laminationFromCutSequence (Lam.classAll dflt n) c) = .ok r := by
      intro l
      induction l with
      | nil => exact fun _ => ⟨[], 0, fun n _ => rfl⟩
      | cons c l ih =>
        intro hl
        obtain ⟨r, N, h⟩ := ih (fun d hd => hl d (List.mem_cons_of_mem _ hd))
        obtain ⟨K, ⟨N', h'⟩, -⟩ := each c (hl c (by simp))
        refine ⟨K :: r, max N N', fun n hn => ?_⟩
        have e := h' n (by omega)
        dsimp only at e
        rw [List.mapM_cons, e, py_bind_ok, h n (by omega)]
        rfl
    obtain ⟨r, N, h⟩ := all (cycles edges) (fun _ h => h)
    refine ⟨r.filter (fun K => K.cls == .curve), N, fun n hn => ?_⟩
    show L.vertexCycles cycles _ = _
    unfold Lam.vertexCycles
    rw [he, py_bind_ok, h n hn, py_bind_ok]
    rfl
  · intro hb
    have search : ∀ l : List (List Int), (∀ c ∈ l, c ∈ cycles edges) → (∃ c ∈ l, (L.tri.curveFromCutSequence c : Lam Int).Connected) →
        ∃ K, (∃ N, ∀ n, N ≤ n → Lam.firstCurve (Lam.classAll dflt n) L.tri l = .ok K) ∧ K.cls = .curve ∧ K.IsVertexCycle L := by
      intro l
      induction l with
      | nil => rintro - ⟨c, hc, -⟩; cases hc
      | cons c l ih =>
        intro hl hex
        obtain ⟨K, ⟨N', h'⟩, k1, k2, k3⟩ := each c (hl c (by simp))
        dsimp only at h'
        obtain ⟨-, s2, s3⟩ := (Lam.simple_iff hL he c).1 ((hcy edges).1 c (hl c (by simp)))
        by_cases q : K.cls = .curve
        · refine ⟨K, ⟨N', fun n hn => ?_⟩, q, Lam.simple_vertexCycle hL s2 s3 k1 k2 (by rw [q] at k3; exact k3.1)⟩
          unfold Lam.firstCurve
          rw [h' n hn, py_bind_ok, q]
          rfl
        · have hex' : ∃ c ∈ l, (L.tri.curveFromCutSequence c : Lam Int).Connected := by
            obtain ⟨d, hd', con⟩ := hex
            rcases List.mem_cons.1 hd' with rfl | hd'
            · have na := (Lam.cycle_lam hL s3).1
              have same : Lam.Same (L.tri.curveFromCutSequence d : Lam Int) K := ⟨k1.symm, k2.symm⟩
              exact absurd (Lam.Describes.unique (c' := .curve) (Lam.noArcs_iff.1 (same.noArcs na)).1 k3 ⟨con.same same, same.noArcs na⟩) q
            · exact ⟨d, hd', con⟩
          obtain ⟨Y, ⟨N, h⟩, y⟩ := ih (fun d hd => hl d (List.mem_cons_of_mem _ hd)) hex'
          refine ⟨Y, ⟨max N N', fun n hn => ?_⟩, y⟩
          unfold Lam.firstCurve
          rw [h' n (by omega), py_bind_ok, if_neg (by simpa using q)]
          exact h n (by omega)
    obtain ⟨cyc, a1, a2, a3, a4⟩ := Lam.exists_cycle hL hb
    obtain ⟨d, d1, d2⟩ := (hcy edges).2 cyc ((Lam.simple_iff hL he cyc).2 ⟨a1, a2, a3⟩)
    obtain ⟨K, ⟨N, h⟩, k⟩ := search (cycles edges) (fun _ h => h) ⟨d, d1, a4.same ⟨rfl, Lam.cut_rotated d2⟩⟩
    refine ⟨K, ⟨N, fun n hn => ?_⟩, k⟩
    show L.vertexCycle cycles _ = _
    unfold Lam.vertexCycle
    rw [he, py_bind_ok]
    exact h n hn

end
/-- a function that does not change along the steps of a cycle -/
theorem Lam.cycle_constant {α : Type _} {φ : Int → α} {cyc : List Int} (h : ∀ p ∈ cyc.zip (cyc.rotate 1), φ p.1 = φ p.2) : ∀ x ∈ cyc, ∀ y ∈ cyc, φ x = φ y := by
  have key : ∀ i (hi : i < cyc.length), φ cyc[i] = φ (cyc[0]'(by omega)) := by
    intro i
    induction i with
    | zero => exact fun _ => rfl
    | succ i ih =>
      intro hi
      rw [← ih (by omega)]
      have hz : i < (cyc.zip (cyc.rotate 1)).length := by simp; omega
      have := h _ (List.getElem_mem hz)
      rw [List.getElem_zip] at this
      dsimp only at this
      rw [List.getElem_rotate] at this
      simp only [Nat.mod_eq_of_lt hi] at this
      exact this.symm
  intro x hx y hy
  obtain ⟨i, hi, rfl⟩ := List.mem_iff_getElem.1 hx
  obtain ⟨j, hj, rfl⟩ := List.mem_iff_getElem.1 hy
  rw [key i hi, key j hj]

theorem torusCurve_connected : torusCurve.Connected := by
  have h : torus.lamination (Lam.classAll neverSlow 20) [1, 1, 2] = .ok torusCurve := by decide +kernel
  exact (C68_lamination neverSlow 20 torus torus_valid _ _ h).2.2.2.1.1

/-- C95: but `L.vertex_cycles()` does not yield every curve that only uses the normal arcs of `L` and passes through each edge at most twice, as its documentation says: on the once-punctured torus
the curve with the weights 1, 1, 2 is such a curve for itself, and is never yielded.  It passes through the last edge twice in the same direction. -/
theorem C95_misses (cycles : List (Int × Int) → List (List Int)) (hcy : ListsCycles cycles) (dflt : Int → Int → Bool) (fuel : Nat) (r : List (Lam Int))
    (h : torusCurve.vertexCycles cycles (Lam.classAll dflt fuel) = .ok r) : torusCurve.IsVertexCycle torusCurve ∧ ∀ K ∈ r, K.eqv torusCurve = false := by
  refine ⟨⟨torusCurve_connected, torusCurve_noArcs, ⟨rfl, fun x _ l h1 h2 => ⟨l, h1, h2⟩⟩, ?_⟩, ?_⟩
  · intro x hx
    have h' : ∀ x ∈ torus.labels, torusCurve.w x ≤ 2 := by decide
    exact h' x (mem_labels.2 hx)
  · unfold Lam.vertexCycles at h
    simp only [py_bind_eq_ok] at h
    obtain ⟨edges, h1, curves, h2, h3⟩ := h
    injection h3 with h3
    subst h3
    intro K hK
    obtain ⟨c, c1, c2⟩ := mapM_mem_right h2 (List.mem_filter.1 hK).1
    obtain ⟨t, g, -⟩ := C68_lamination dflt fuel torusCurve.tri torus_valid _ K c2
    obtain ⟨-, s2, s3⟩ := (hcy edges).1 c c1
    have e : torusCurve.cycleGraph = .ok [(-3, 1), (-3, 0), (-2, 2), (-1, 2), (0, -3), (1, -3), (2, -2), (2, -1)] := by decide
    rw [h1] at e
    injection e with e
    rw [e] at s3
    have steps : ∀ p ∈ [(-3, 1), (-3, 0), (-2, 2), (-1, 2), (0, -3), (1, -3), (2, -2), ((2 : Int), (-1 : Int))], (fun x => decide (x ∈ [(2 : Int), -1, -2])) p.1 = (fun x => decide (x ∈ [(2 : Int), -1, -2])) p.2 := by decide
    have const := Lam.cycle_constant (φ := fun x => decide (x ∈ [(2 : Int), -1, -2])) (fun p hp => steps p (s3 p hp))
    by_contra q
    rw [Bool.not_eq_false, Lam.eqv_spec] at q
    have w2 : (torus.curveFromCutSequence c : Lam Int).w 2 = torusCurve.w 2 := by
      have : torusCurve.geometric = torus.cutSequenceIntersections c := q.2.symm.trans g
      unfold Lam.w
      rw [this]
      rfl
    rw [link_w c (by decide), show torusCurve.w 2 = 2 by decide] at w2
    have a := List.nodup_iff_count_le_one.1 s2 2
    have b := List.nodup_iff_count_le_one.1 s2 (inv 2)
    push_cast at w2
    have m1 : (2 : Int) ∈ c := List.count_pos_iff.1 (by omega)
    have m2 : inv 2 ∈ c := List.count_pos_iff.1 (by omega)
    exact absurd (const _ m1 _ m2) (by decide)

/-- C95 on the torus: with a listing of the four simple cycles, the vertex cycles of the curve with the weights 1, 1, 2 have the weights 1, 0, 1 and 0, 1, 1; and the hypotheses are met -/
example : torusCurve.NoArcs ∧ ¬ torusCurve.Blank ∧ (∃ cycles, ListsCycles cycles) ∧
    (torusCurve.vertexCycles (fun _ => [[-3, 1], [-3, 0], [-2, 2], [-1, 2]]) (Lam.classAll neverSlow 20)).toOption.map (List.map (·.geometric)) = some [[0, 1, 1], [1, 0, 1], [0, 1, 1], [1, 0, 1]] :=
  ⟨torusCurve_noArcs, fun h => absurd (h 0 (by decide)) (by decide), exists_listsCycles, by decide +kernel⟩

end Curver
