import Verif.Proofs.LoadCurves2

namespace Curver
open Triangulation
variable {T : Triangulation}

theorem assignAll_ok {α : Type} {l : List (GenName × Py α)} {P : α → Prop} (h : ∀ x ∈ l, ∃ v, x.2 = .ok v ∧ P v) :
    ∃ d : PyDict GenName α, assignAll l = .ok d ∧ (∀ k, d.contains k = true ↔ k ∈ l.map Prod.fst) ∧ ∀ k v, d.get k = .ok v → P v := by
  have : ∃ items : List (GenName × α), l.mapM (fun p => do let v ← p.2; return (p.1, v)) = (.ok items : Py _) ∧ items.map Prod.fst = l.map Prod.fst ∧ ∀ x ∈ items, P x.2 := by
    induction l with
    | nil => exact ⟨[], rfl, rfl, by simp⟩
    | cons a l ih =>
      obtain ⟨v, hv, hp⟩ := h a (by simp)
      obtain ⟨items, h1, h2, h3⟩ := ih (fun x hx => h x (by simp [hx]))
      refine ⟨(a.1, v) :: items, ?_, by simp [h2], ?_⟩
      · rw [List.mapM_cons, h1, hv]; rfl
      · intro x hx
        rcases List.mem_cons.1 hx with rfl | hx
        · exact hp
        · exact h3 x hx
  obtain ⟨items, h1, h2, h3⟩ := this
  refine ⟨PyDict.ofList items, by unfold assignAll; rw [h1]; rfl, ?_, ?_⟩
  · intro k; rw [PyDict.contains_iff, PyDict.mem_keys_ofList, h2]
  · intro k v hk
    rw [PyDict.get_eq_ok_iff, PyDict.get?_ofList] at hk
    rw [Option.map_eq_some_iff] at hk
    obtain ⟨p, hp, rfl⟩ := hk
    exact h3 p (by simpa using List.mem_of_find?_eq_some hp)

theorem isLoadedArc_edgeArc (hT : T.Valid) {tail : Int → Nat} (ht : ∀ a b c, T.Glues a b c → tail a = tail (inv c)) {e : Int} (h0 : 0 ≤ e) (hz : e < T.zeta)
    (hne : tail e ≠ tail (inv e)) : IsLoadedArc T (T.edgeArc e) := by
  have hl : T.IsLabel e := ⟨by omega, hz⟩
  obtain ⟨v, hv, k1, _, _, k4, _⟩ := hT.comp.vertexOf_ok hl
  obtain ⟨w, _, l1, _, _, l4, _⟩ := hT.comp.vertexOf_ok (isLabel_inv.2 hl)
  refine ⟨rfl, by simp [edgeArc, indices], e, hl, ?_, v, w, k1, l1, ?_⟩
  · intro e' he'
    have := idx_lt he'
    unfold Lam.w edgeArc indices
    simp only [List.getElem?_map]
    rw [List.getElem?_range this]
    simp only [Option.map_some, Option.getD_some]
    have h1 : Int.ofNat (norm e').toNat = norm e' := by
      have := norm_nonneg e'
      simp; omega
    rw [h1]
    by_cases h : norm e' = norm e
    · rw [if_neg (by simpa using h), if_pos h]
    · rw [if_pos h, if_neg h]
  · rintro rfl
    exact hne (hT.comp.tail_sv ht hl ⟨v, k1, l4⟩).symm

theorem loads_of {ls : List (List Int)} {g : Nat} {n : Int} {tail : Int → Nat} (hB : Builds ls g n tail) {cs as : Triangulation → List (GenName × Py (Lam Int))}
    (hload : load g n = (do let T ← fromTuple ls; let curves ← assignAll (cs T); let arcs ← assignAll (as T); return ⟨T, curves, arcs⟩))
    (hc : ∀ T, Site T ls → (T.zeta : Int) = 6 * g + 3 * n - 6 → ∀ x ∈ cs T, Good T x.2) (hcn : ∀ T x, x ∈ (cs T).map Prod.fst ↔ IsCurveName g n x)
    (ha : ∀ T, ∀ x ∈ as T, ∃ e, x.2 = .ok (T.edgeArc e) ∧ 0 ≤ e ∧ e < 6 * g + 3 * n - 6 ∧ tail e ≠ tail (inv e))
    (han : ∀ T x, x ∈ (as T).map Prod.fst ↔ IsArcName n x) : ∃ S, load g n = .ok S ∧ Loads g n S := by
  obtain ⟨T, t1, t2, t3, t4, t5, t6, t7, t8, t9⟩ := hB
  obtain ⟨d, d1, d2, d3⟩ := assignAll_ok (hc T ⟨t2, fun a b c h => (t5 a b c).1 h⟩ t4)
  obtain ⟨f, f1, f2, f3⟩ := assignAll_ok (l := as T) (P := IsLoadedArc T) (by
    intro x hx
    obtain ⟨e, e1, e2, e3, e4⟩ := ha T x hx
    exact ⟨_, e1, isLoadedArc_edgeArc t2 t6 e2 (by omega) e4⟩)
  refine ⟨⟨T, d, f⟩, ?_, ⟨t2, t4, t7, t8, t9, ?_, ?_, d3, f3⟩⟩
  · rw [hload, t1]; simp only [py_bind_ok, d1, f1]; rfl
  · intro x; rw [← hcn T]; exact d2 x
  · intro x; rw [← han T]; exact f2 x

end Curver
