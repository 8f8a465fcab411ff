import Verif.Proofs.Multiflip
import Verif.Proofs.FlipWeight

namespace Curver
open Triangulation

theorem idx_lt {T : Triangulation} {e : Int} (h : T.IsLabel e) : (norm e).toNat < T.zeta := by
  have := (mem_indices.1 (norm_mem_indices.2 h))
  omega

theorem idx_eq_iff {e f : Int} : (norm e).toNat = (norm f).toNat ↔ e = f ∨ e = inv f := by
  rw [← norm_eq_iff]
  have := norm_nonneg e; have := norm_nonneg f
  omega

theorem pySet_ok {α : Type _} {l : List α} {i : Nat} (h : i < l.length) (v : α) : pySet l i v = .ok (l.set i v) := by
  simp [pySet, h]

theorem sides_nodup_iff {es : List Int} : (sides es).Nodup ↔ (es.map (fun e => (norm e).toNat)).Nodup := by
  induction es with
  | nil => simp [sides]
  | cons e es ih =>
    have h1 : sides (e :: es) = e :: inv e :: sides es := rfl
    rw [h1, List.nodup_cons, List.nodup_cons, ih, List.map_cons, List.nodup_cons, List.mem_map]
    have hk : (∃ a ∈ es, (norm a).toNat = (norm e).toNat) ↔ e ∈ sides es := by
      rw [mem_sides]
      constructor
      · rintro ⟨a, ha, h⟩
        rcases idx_eq_iff.1 h with rfl | rfl
        · exact .inl ha
        · exact .inr ha
      · rintro (h | h)
        · exact ⟨e, h, rfl⟩
        · exact ⟨inv e, h, by simp⟩
    rw [hk, List.mem_cons, inv_mem_sides]
    have := inv_ne e
    constructor
    · tauto
    · rintro ⟨h2, h3⟩
      exact ⟨fun h => h.elim (fun h => this h.symm) h2, h2, h3⟩

section
variable {R : Type} [CommRing R] [LinearOrder R] [Halvable R]

namespace Lam
variable {L L' : Lam R}

theorem w_inv (L : Lam R) (e : Int) : L.w (inv e) = L.w e := by simp [w]

theorem wt_eq (hl : L.geometric.length = L.tri.zeta) {e : Int} (h : L.tri.IsLabel e) : L.wt e = .ok (L.w e) := by
  have := idx_lt h
  unfold wt w
  rw [pyGet_ok (by omega), List.getElem?_eq_getElem (by omega)]; rfl

theorem wt0_eq (hl : L.geometric.length = L.tri.zeta) {e : Int} (h : L.tri.IsLabel e) : L.wt0 e = .ok (max (L.w e) 0) := by
  unfold wt0; rw [wt_eq hl h]; rfl

/-- the new weight of a flipped edge -/
def fw (L : Lam R) (e : Int) : Py R :=
  flipWeight (max (L.w (L.tri.nxt e)) 0) (max (L.w (L.tri.nxt (L.tri.nxt e))) 0) (max (L.w (L.tri.nxt (inv e))) 0)
    (max (L.w (L.tri.nxt (L.tri.nxt (inv e)))) 0) (L.w e)

theorem flipStep_eq (hc : L.tri.Complete) (hl : L.geometric.length = L.tri.zeta) {e : Int} (h : L.tri.IsLabel e)
    (g : List R) (hg : g.length = L.tri.zeta) :
    flipStep L e ⟨L.tri.nxt e, L.tri.nxt (L.tri.nxt e), L.tri.nxt (inv e), L.tri.nxt (L.tri.nxt (inv e)), e⟩ g =
      (L.fw e >>= fun w => .ok (g.set (norm e).toNat w)) := by
  have h' := isLabel_inv.2 h
  have := idx_lt h
  unfold flipStep fw
  simp only [wt_eq hl h, wt0_eq hl h, wt0_eq hl (hc.isLabel_nxt h), wt0_eq hl (hc.isLabel_nxt (hc.isLabel_nxt h)),
    wt0_eq hl (hc.isLabel_nxt h'), wt0_eq hl (hc.isLabel_nxt (hc.isLabel_nxt h')), py_bind_ok]
  congr 1
  funext w
  exact pySet_ok (by omega) w

/-- the loop of the multiflip -/
theorem flipFold_iff (F : Int → Py R) : ∀ (es : List Int) (g : List R), (∀ e ∈ es, (norm e).toNat < g.length) →
    (es.map (fun e => (norm e).toNat)).Nodup → ∀ g',
    (es.foldlM (fun g e => F e >>= fun w => (Except.ok (g.set (norm e).toNat w) : Py (List R))) g = .ok g' ↔
      g'.length = g.length ∧ (∀ i, (∀ e ∈ es, (norm e).toNat ≠ i) → g'[i]? = g[i]?) ∧
      ∀ e ∈ es, ∃ w, F e = .ok w ∧ g'[(norm e).toNat]? = some w) := by
  intro es
  induction es with
  | nil =>
    intro g _ _ g'
    simp only [List.foldlM_nil, py_pure, Except.ok.injEq, List.not_mem_nil, false_imp_iff, implies_true, true_imp_iff,
      and_true]
    constructor
    · rintro rfl; simp
    · rintro ⟨_, h⟩; exact (List.ext_getElem? h).symm
  | cons e es ih =>
    intro g hg hn g'
    rw [List.map_cons, List.nodup_cons] at hn
    rw [List.foldlM_cons]
    have hne : ∀ f ∈ es, (norm f).toNat ≠ (norm e).toNat := fun f hf h => hn.1 (List.mem_map.2 ⟨f, hf, h⟩)
    have hge := hg e (by simp)
    constructor
    · intro h
      rw [py_bind_eq_ok] at h
      obtain ⟨g1, h1, h2⟩ := h
      rw [py_bind_eq_ok] at h1
      obtain ⟨w, hw, h1⟩ := h1
      cases h1
      have hh := (ih _ (by intro f hf; rw [List.length_set]; exact hg f (by simp [hf])) hn.2 _).1 h2
      rw [List.length_set] at hh
      refine ⟨hh.1, ?_, ?_⟩
      · intro i hi
        rw [hh.2.1 i (fun f hf => hi f (by simp [hf])), List.getElem?_set_ne (hi e (by simp))]
      · intro f hf
        rw [List.mem_cons] at hf
        rcases hf with rfl | hf
        · refine ⟨w, hw, ?_⟩
          rw [hh.2.1 _ hne, List.getElem?_set_self hge]
        · exact hh.2.2 f hf
    · rintro ⟨h1, h2, h3⟩
      obtain ⟨w, hw, hw'⟩ := h3 e (by simp)
      rw [hw]
      simp only [py_bind_ok]
      rw [ih _ (by intro f hf; rw [List.length_set]; exact hg f (by simp [hf])) hn.2]
      refine ⟨by simp [h1], ?_, fun f hf => h3 f (by simp [hf])⟩
      intro i hi
      by_cases hie : (norm e).toNat = i
      · subst hie; rw [hw', List.getElem?_set_self hge]
      · rw [List.getElem?_set_ne hie]
        apply h2
        intro f hf
        rw [List.mem_cons] at hf
        rcases hf with rfl | hf
        · exact hie
        · exact hi f hf

theorem flipsTo_iff (hw : L.WellFormed) {es : List Int} (hl : ∀ e ∈ es, L.tri.IsLabel e) : FlipsTo es L L' ↔
    L'.cls = L.cls ∧ L'.geometric.length = L.geometric.length ∧
    (∀ i, (∀ e ∈ es, (norm e).toNat ≠ i) → L'.geometric[i]? = L.geometric[i]?) ∧
      ∀ e ∈ es, ∃ w, L.fw e = .ok w ∧ L'.geometric[(norm e).toNat]? = some w := by
  obtain ⟨hv, hlen⟩ := hw
  have hc := hv.comp
  constructor
  · rintro ⟨h1, h2, h3, h4⟩
    refine ⟨h1, h2, ?_, ?_⟩
    · intro i hi
      by_cases h : i < L.geometric.length
      · have hli : L.tri.IsLabel (i : Int) := by unfold IsLabel; omega
        have hni : (norm (i : Int)).toNat = i := by rw [norm_of_nonneg (by omega)]; simp
        have := h3 i hli (by
          intro e he
          have := hi e he
          rw [← hni, ne_eq, idx_eq_iff] at this
          constructor
          · rintro h; exact this (.inl h.symm)
          · intro h; apply this; right; rw [h, inv_inv])
        unfold w at this
        rw [hni, List.getElem?_eq_getElem h, List.getElem?_eq_getElem (by omega)] at this
        rw [List.getElem?_eq_getElem h, List.getElem?_eq_getElem (by omega)]
        simpa using this
      · rw [List.getElem?_eq_none (by omega), List.getElem?_eq_none (by omega)]
    · intro e he
      have hle := hl e he
      have := idx_lt hle
      refine ⟨_, h4 e he _ _ _ _ (hc.glues_nxt hle) (hc.glues_nxt (isLabel_inv.2 hle)), ?_⟩
      unfold w
      rw [List.getElem?_eq_getElem (by omega)]; rfl
  · rintro ⟨h1, h2, h3, h4⟩
    refine ⟨h1, h2, ?_, ?_⟩
    · intro u hu hne
      unfold w
      rw [h3]
      intro e he h
      have := hne e he
      rcases idx_eq_iff.1 h with h | h
      · exact this.1 h.symm
      · apply this.2; rw [h, inv_inv]
    · intro e he a b c d g1 g2
      have hle := hl e he
      obtain ⟨rfl, rfl⟩ := (hc.glues_iff hle).1 g1
      obtain ⟨rfl, rfl⟩ := (hc.glues_iff (isLabel_inv.2 hle)).1 g2
      obtain ⟨w', hw1, hw2⟩ := h4 e he
      unfold fw at hw1
      rw [hw1]; unfold w; rw [hw2]; rfl

end Lam
end
end Curver
