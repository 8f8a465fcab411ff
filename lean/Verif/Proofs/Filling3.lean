import Verif.Proofs.Filling2
import Verif.Props.Boundary
import Verif.Props.LamParts

/-!
# The boundary of laminations
-/

namespace Curver
open Triangulation

namespace Lam

theorem pyAnyM_spec {α : Type} {f : α → Py Bool} : ∀ {l : List α} {b : Bool}, pyAnyM f l = .ok b → (b = true ↔ ∃ x ∈ l, f x = .ok true) ∧ (b = false → ∀ x ∈ l, f x = .ok false)
  | [], b, h => by
    injection h with h
    subst h
    simp
  | x :: l, b, h => by
    unfold pyAnyM at h
    rw [py_bind_eq_ok] at h
    obtain ⟨c, h1, h2⟩ := h
    cases c
    · have h2 : pyAnyM f l = .ok b := h2
      obtain ⟨i1, i2⟩ := pyAnyM_spec h2
      refine ⟨?_, fun hb y hy => ?_⟩
      · rw [i1]
        constructor
        · rintro ⟨y, y1, y2⟩; exact ⟨y, by simp [y1], y2⟩
        · rintro ⟨y, y1, y2⟩
          rcases List.mem_cons.1 y1 with rfl | y1
          · rw [h1] at y2; cases y2
          · exact ⟨y, y1, y2⟩
      · rcases List.mem_cons.1 hy with rfl | hy
        · exact h1
        · exact i2 hb y hy
    · injection h2 with h2
      subst h2
      exact ⟨⟨fun _ => ⟨x, by simp, h1⟩, fun _ => rfl⟩, fun hb => by cases hb⟩

end Lam

namespace Triangulation
variable {S T : Triangulation}

theorem ConnectedSurface.enc {g : Enc} (hg : g.Legal) (h : g.source.ConnectedSurface) : g.target.ConnectedSurface := by
  have hp := hg.path
  have hS := hp.valid_source
  have hT := hp.valid_target
  obtain ⟨comp, c1, c2, c3⟩ := h.component hS
  obtain ⟨vs, _, a1, -⟩ := hS.surface_spec
  obtain ⟨ws, ds, b1, b2, -⟩ := hT.surface_spec
  have := (hp.samePieces vs ws _ ds a1 b1 c1 b2)
  have hl := this.length_eq
  simp only [List.map_cons, List.map_nil, List.length_cons, List.length_nil, List.length_map] at hl
  obtain ⟨d, rfl⟩ := List.length_eq_one_iff.1 hl.symm
  have hm := List.perm_singleton.1 this.symm
  simp only [List.map_cons, List.map_nil, List.cons.injEq, Prod.mk.injEq, and_true] at hm
  have hz : 0 < g.source.zeta := by
    have := hS.comp.three_length
    have : g.source.triangles.length ≠ 0 := by simpa using h.1
    omega
  obtain ⟨m1, m2, m3, m4, m5⟩ := hT.comp.components_mem b2
  refine ⟨fun e => ?_, fun e f he hf => ?_⟩
  · have h3 := hT.comp.three_length
    rw [e, List.length_nil] at h3
    obtain ⟨x, hx⟩ := List.exists_mem_of_length_pos (l := d) (by omega)
    have := (m3 d (by simp)).2.2 x hx
    unfold IsLabel at this
    omega
  · have he' := m2 e he
    have hf' := m2 f hf
    simp only [List.mem_singleton, exists_eq_left] at he' hf'
    exact (m5 d (by simp) e he' f).1 hf'

end Triangulation

namespace Lam
variable {L K s X Y S B M A C : Lam Int} {D : List (Lam Int)}

theorem Blank.noArcs (hL : L.Consistent) (h : L.Blank) : L.NoArcs := by
  rw [noArcs_iff]
  refine ⟨hL, fun a b c hg => ?_⟩
  have l := hL.1.1.comp.label_of_glues hg
  rw [h a l.1, h b l.2.1, h c l.2.2]
  simp

theorem Unions.noArcs (h : L.Unions D) : L.Consistent → (∀ X ∈ D, X.NoArcs) → L.NoArcs := by
  induction h with
  | nil hb => exact fun hL _ => hb.noArcs hL
  | cons hu _ ih =>
    intro hL hD
    exact disjoint_noArcs hL hu (hD _ (by simp)) (ih (hu.consistent hL).2 (fun X hX => hD X (by simp [hX])))

theorem noArcs_of_parts (hL : L.Consistent) (h : ∀ X, L.HasPart X → X.NoArcs) : L.NoArcs := by
  obtain ⟨D, d1, d2⟩ := exists_unions hL
  exact d1.noArcs hL (fun X hX => h X ((d1.hasPart_iff hL d2).2 ⟨X, hX, .refl⟩))

theorem Blank.peripheral (h : L.Blank) : L.Peripheral := ⟨fun _ => 0, fun _ => le_rfl, fun e _ _ he _ _ => by rw [h e he]; rfl⟩

theorem Links.add {m n : Int → Int} (h1 : X.Links m) (h2 : Y.Links n) (e1 : X.tri = L.tri) (e2 : Y.tri = L.tri) (hw : ∀ x, L.tri.IsLabel x → L.w x = X.w x + Y.w x) :
    L.Links (fun x => m x + n x) := by
  refine ⟨fun e f he hs => ?_, fun e he => ?_⟩
  · rw [h1.const e f (by rw [e1]; exact he) (by rw [e1]; exact hs), h2.const e f (by rw [e2]; exact he) (by rw [e2]; exact hs)]
  · rw [hw e he, h1.w e (by rw [e1]; exact he), h2.w e (by rw [e2]; exact he)]
    ring

theorem Links.sub {m n : Int → Int} (h1 : L.Links m) (h2 : Y.Links n) (e1 : X.tri = L.tri) (e2 : Y.tri = L.tri) (hw : ∀ x, L.tri.IsLabel x → L.w x = X.w x + Y.w x) :
    X.Links (fun x => m x - n x) := by
  refine ⟨fun e f he hs => ?_, fun e he => ?_⟩
  · rw [e1] at he hs
    rw [h1.const e f he hs, h2.const e f (by rw [e2]; exact he) (by rw [e2]; exact hs)]
  · rw [e1] at he
    have := hw e he
    rw [h1.w e he, h2.w e (by rw [e2]; exact he)] at this
    linarith

theorem Unions.peripheral (h : L.Unions D) : L.Consistent → (∀ X ∈ D, X.NoArcs ∧ X.Peripheral) → L.Peripheral := by
  induction h with
  | nil hb => exact fun _ _ => hb.peripheral
  | cons hu ht ih =>
    rename_i L X N Xs
    intro hL hD
    have hN := ih (hu.consistent hL).2 (fun X hX => hD X (by simp [hX]))
    have nN := ht.noArcs (hu.consistent hL).2 (fun X hX => (hD X (by simp [hX])).1)
    obtain ⟨x1, x2⟩ := hD X (by simp)
    obtain ⟨m, hm⟩ := (peripheral_iff x1).1 x2
    obtain ⟨n, hn⟩ := (peripheral_iff nN).1 hN
    exact (peripheral_iff (disjoint_noArcs hL hu x1 nN)).2 ⟨_, hm.add hn hu.wf.2.2.1 hu.wf.2.2.2 (fun x hx => hu.sum hL.1 hx)⟩

theorem Fills.enc (h : L.Fills) (hL : L.Consistent) {g : Enc} (hg : g.Legal) (ha : g.applyLam L = .ok K) : K.Fills := by
  intro M hM hd
  have u := hg.undo hL.1 ha
  obtain ⟨M', m1, m2⟩ := hd.enc hg.inv' u.2.1 u.2.2.2
  have hM' := hg.inv'.noArcs hM m1
  exact (h M' hM' m2).enc hM' hg (hg.undo' hM.1 m1).2.2.2

theorem Fills.same (h : L.Fills) (e : Same L K) : K.Fills := fun M hM hd => h M hM (hd.same .refl e.symm)

theorem DisjointFrom.left (h : M.DisjointFrom L) (hu : L.IsUnion A C) : M.DisjointFrom A := by
  obtain ⟨S, s1, s2⟩ := h
  obtain ⟨Z, z1, z2⟩ := s2.assoc s1 hu
  exact ⟨Z, (z1.consistent s1).1, z2⟩

/-- a multiarc fills if its boundary is peripheral -/
theorem fills_of_boundary {P : Lam Int → Py LamClass} {dflt : Int → Int → Bool} {fuel : Nat} (hL : L.Consistent) (hA : L.OnlyHasArcs) (hnb : ¬ L.Blank) (hcs : L.tri.ConnectedSurface)
    (h : L.arcBoundary P dflt fuel = .ok B) (hp : B.Peripheral) : L.Fills := by
  obtain ⟨s, g, K, K', h1, l, hs, hle, k1, k2, k3, a1, a2, a3, a4, a5, a6, a7⟩ := Lam.arcBoundary_spec hL hA h
  have hB := l.inv'.noArcs a1 a5
  have uK := l.undo hL.1 k1
  have hK := hL.enc l k1
  have e1 : s.tri.ConnectedSurface := by
    have := ConnectedSurface.enc l (by rw [a7]; exact hcs)
    rw [← k2.1, uK.2.1]
    exact this
  have e2 : ¬ s.Blank := by
    intro hb
    have hb' : K.Blank := k2.symm.blank hb
    exact hnb (hb'.enc l.inv' hK.1 k3)
  have := fills_of_outline hs hle e1 e2 a1 a2 (hp.enc hB l a6)
  exact (this.same k2.symm).enc hK l.inv' k3

/-- `disjoint_sum` of two laminations -/
theorem pair_sum {P : Lam Int → Py LamClass} {T : Triangulation} (hX : X.WellFormed) (hY : Y.WellFormed) (h : T.disjointSumList P [X, Y] = .ok B) :
    X.tri = T ∧ Y.tri = T ∧ B.tri = T ∧ B.WellFormed ∧ ((∀ x, T.IsLabel x → B.w x = X.w x + Y.w x) ∨ Same X Y ∧ ∀ x, T.IsLabel x → B.w x = X.w x) := by
  have ht : X.tri = T ∧ Y.tri = T := by
    unfold disjointSumList at h
    split at h
    · cases h
    · rename_i hne
      simp only [List.any_cons, List.any_nil, Bool.or_false, Bool.or_eq_true, bne_iff_ne, ne_eq, not_or, not_not] at hne
      exact hne
  refine ⟨ht.1, ht.2, ?_⟩
  have hT : T.Valid := by rw [← ht.1]; exact hX.1
  by_cases q : X.eqv Y = true
  · have e : dictOfIterable [X, Y] = [(X, 1)] := by simp [dictOfIterable, q]
    unfold disjointSumList at h
    split at h
    · cases h
    · rw [e] at h
      obtain ⟨-, b1, b2, b3⟩ := C40_disjoint_sum P T [(X, 1)] B (by simp [hX.2, ht.1]) h
      refine ⟨b1, ⟨by rw [b1]; exact hT, by rw [b2, b1]⟩, .inr ⟨?_, fun x hx => by rw [b3 x hx]; simp⟩⟩
      unfold Lam.eqv at q
      rw [Bool.and_eq_true, beq_iff_eq, beq_iff_eq] at q
      exact q
  · obtain ⟨b1, b2, b3⟩ := C40_sum_iterable P T [X, Y] B (by simp [hX.2, hY.2, ht.1, ht.2]) (by simp; simpa using q) (.inr h)
    exact ⟨b1, ⟨by rw [b1]; exact hT, by rw [b2, b1]⟩, .inl (fun x hx => by rw [b3 x hx]; simp)⟩

theorem noArcs_add (hX : X.NoArcs) (hY : Y.NoArcs) (e1 : X.tri = S.tri) (e2 : Y.tri = S.tri) (hS : S.WellFormed) (hw : ∀ x, S.tri.IsLabel x → S.w x = X.w x + Y.w x) : S.NoArcs := by
  have hX' := noArcs_iff.1 hX
  have hY' := noArcs_iff.1 hY
  rw [noArcs_iff, consistent_iff]
  refine ⟨⟨hS, fun a b c hg => ?_⟩, fun a b c hg => ?_⟩
  · have l := hS.1.comp.label_of_glues hg
    have hg1 : X.tri.Glues a b c := by rw [e1]; exact hg
    have hg2 : Y.tri.Glues a b c := by rw [e2]; exact hg
    rw [hw a l.1, hw b l.2.1, hw c l.2.2]
    have t1 := hX'.2 a b c hg1
    have t2 := hX'.2 b c a hg1.rot
    have t3 := hX'.2 c a b hg1.rot.rot
    have u1 := hY'.2 a b c hg2
    have u2 := hY'.2 b c a hg2.rot
    have u3 := hY'.2 c a b hg2.rot.rot
    have e1 := (consistent_iff.1 hX'.1).2 a b c hg1 (by omega) (by omega) (by omega)
    have e2 := (consistent_iff.1 hY'.1).2 a b c hg2 (by omega) (by omega) (by omega)
    rw [max_eq_left t1.1, max_eq_left t2.1, max_eq_left t3.1] at e1
    rw [max_eq_left u1.1, max_eq_left u2.1, max_eq_left u3.1] at e2
    intro _ _ _
    rw [max_eq_left (by omega), max_eq_left (by omega), max_eq_left (by omega)]
    obtain ⟨i, hi⟩ := e1
    obtain ⟨j, hj⟩ := e2
    exact ⟨i + j, by omega⟩
  · have l := hS.1.comp.label_of_glues hg
    rw [hw a l.1, hw b l.2.1, hw c l.2.2]
    have t1 := hX'.2 a b c (by rw [e1]; exact hg)
    have u1 := hY'.2 a b c (by rw [e2]; exact hg)
    omega

/-- twice a closed lamination -/
theorem mul_two {P : Lam Int → Py LamClass} (hC : C.NoArcs) (h : C.mul P 2 = .ok B) : B.tri = C.tri ∧ B.NoArcs ∧ (∀ x, B.w x = 2 * C.w x) ∧ B.IsUnion C C := by
  obtain ⟨-, h2, h3⟩ := C40_multiple P C B 2 h
  have hl : B.geometric.length = C.geometric.length := by
    unfold Lam.mul at h
    rw [show pyAssert (decide ((0 : Int) ≤ 2)) = .ok () from rfl, py_bind_ok] at h
    dsimp only at h
    split at h
    · obtain ⟨-, -, e⟩ := lamination_ok h
      rw [e, List.length_map]
    · split at h
      · injection h with h; rw [← h]; simp
      · split at h
        · injection h with h; rw [← h]; simp
        · split at h
          · injection h with h; rw [← h]; simp
          · split at h <;> (injection h with h; rw [← h]; simp)
  have wB : B.WellFormed := ⟨by rw [h2]; exact hC.1.1, by rw [hl, h2]; exact hC.1.2⟩
  obtain ⟨S, s1, s2⟩ := Lam.double (noArcs_iff.1 hC).1
  have ws := s2.wf
  have e : Same S B := by
    refine same_of_w s1.1 wB (ws.2.2.1.symm.trans h2.symm) (fun x hx => ?_)
    rw [s2.sum s1.1 hx, h3 x]
    push_cast
    ring
  exact ⟨h2, noArcs_add hC hC h2.symm h2.symm wB (fun x _ => by rw [h3 x]; push_cast; ring), fun x => h3 x, s2.same hC.1 hC.1 e .refl .refl⟩

end Lam
end Curver
