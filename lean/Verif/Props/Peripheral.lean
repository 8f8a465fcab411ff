import Verif.Spec.Peripheral
import Verif.Proofs.Peripheral
import Verif.Props.LamArith

/-!
# C42: the peripheral part of a lamination
-/

namespace Curver
open Triangulation

variable {R : Type} [CommRing R] [LinearOrder R] [IsStrictOrderedRing R] [Halvable R] [IntTest R]

theorem Lam.mult_iff {L : Lam R} (hL : L.Consistent) {e : Int} (he : L.tri.IsLabel e) {v : List Int} (hv : L.tri.vertexOf e = .ok v) {m : R} :
    L.Multiplicity v m ↔ m = L.mu e := by
  have hc := hL.1.1.comp
  have hm := Lam.isMult_mu hL
  obtain ⟨w, _, k1, _, _, k4, k5, _, k7⟩ := hc.vertexOf_ok he
  rw [hv] at k1; cases k1
  have h1 : ∀ f ∈ v, L.mu f = L.mu e := fun f hf => (hm.const e f he ⟨v, hv, hf⟩).symm
  have h2 : L.Multiplicity v (L.mu e) := by
    refine ⟨?_, ?_⟩
    · obtain ⟨f, x, ⟨u, g1, g2⟩, g3, g4⟩ := hm.attained e he
      rw [hv] at g1; cases g1
      exact ⟨f, g2, x, g3, g4⟩
    · intro f hf x hx
      rw [← h1 f hf]
      exact hm.le f x (k7 f hf) hx
  constructor
  · rintro ⟨⟨f, hf, x, hx, rfl⟩, g⟩
    apply le_antisymm
    · obtain ⟨⟨f', hf', x', hx', e'⟩, _⟩ := h2
      rw [e']; exact g f' hf' x' hx'
    · exact h2.2 f hf x hx
  · rintro rfl; exact h2

/-- C42: `peripheral_components()` of a consistent lamination has one entry for each vertex at which all left weights are positive: the
curve around the vertex, with the least left weight as its multiplicity. -/
theorem C42_components (L : Lam R) (hL : L.Consistent) : ∃ vs ds, L.tri.vertices = .ok vs ∧ L.peripheralComponents = .ok ds ∧
    (ds.map (fun d => d.2.2)).Nodup ∧ ds.Pairwise (fun d d' => d.1.eqv d'.1 = false) ∧
    ∀ K m v, (K, (m, v)) ∈ ds ↔ v ∈ vs ∧ 0 < m ∧ L.Multiplicity v m ∧ K = L.tri.curveFromCutSequence v := by
  have hc := hL.1.1.comp
  obtain ⟨vs, h, μ, h1, h2, h3⟩ := Lam.peripheralComponents_ok hL
  obtain ⟨k1, k2, k3, k4⟩ := hc.vertices_mem h
  have hn := hc.nodup_vertices h
  refine ⟨vs, _, h, h3, ?_, ?_, ?_⟩
  · rw [List.map_map]
    refine List.Nodup.map_on (fun x _ y _ h => h) (hn.filter _)
  · rw [List.pairwise_map]
    refine List.Pairwise.imp_of_mem ?_ (hn.filter _)
    intro v w hv hw hne
    simp only [Lam.eqv, curveFromCutSequence, beq_self_eq_true, Bool.true_and, beq_eq_false_iff_ne]
    exact fun heq => hne (hc.link_inj h (List.mem_filter.1 hv).1 (List.mem_filter.1 hw).1 heq)
  · intro K m v
    have key : v ∈ vs → ∀ m, L.Multiplicity v m ↔ m = μ v := by
      intro hv m
      obtain ⟨a, ha⟩ := List.exists_mem_of_ne_nil _ (k2 v hv).1.ne
      rw [h2 v hv a ha]
      exact Lam.mult_iff hL ((k2 v hv).2.2 a ha) (hc.vertexOf_of_mem h hv ha)
    simp only [List.mem_map, List.mem_filter, decide_eq_true_eq, Prod.mk.injEq]
    constructor
    · rintro ⟨u, ⟨hu, hp⟩, rfl, rfl, rfl⟩
      exact ⟨hu, hp, (key hu _).2 rfl, rfl⟩
    · rintro ⟨hv, hp, hm, rfl⟩
      rw [key hv] at hm
      subst hm
      exact ⟨v, ⟨hv, hp⟩, rfl, rfl, rfl⟩

/-- C42: every vertex has exactly one multiplicity, and it is not negative. -/
theorem C42_multiplicity (L : Lam R) (hL : L.Consistent) (vs : List (List Int)) (h : L.tri.vertices = .ok vs) (v : List Int) (hv : v ∈ vs) :
    ∃ m, L.vertexMultiplicity v = .ok m ∧ 0 ≤ m ∧ ∀ m', L.Multiplicity v m' ↔ m' = m := by
  have hc := hL.1.1.comp
  obtain ⟨k1, k2, k3, k4⟩ := hc.vertices_mem h
  obtain ⟨a, ha⟩ := List.exists_mem_of_ne_nil _ (k2 v hv).1.ne
  have la := (k2 v hv).2.2 a ha
  exact ⟨L.mu a, Lam.mu_spec hL la (hc.vertexOf_of_mem h hv ha), (Lam.isMult_mu hL).nonneg a la, fun m' => Lam.mult_iff hL la (hc.vertexOf_of_mem h hv ha)⟩

/-- C42: `peripheral()` of a consistent lamination is defined and is the sum of the curves around the vertices, each with its multiplicity:
an edge from `u` to `v` meets it as often as the multiplicities of `u` and `v` together.  It is a (multi)curve unless it is empty. -/
theorem C42_peripheral (P : Lam R → Py LamClass) (L : Lam R) (hL : L.Consistent) : ∃ p, L.peripheral P = .ok p ∧ p.tri = L.tri ∧ p.Consistent ∧
    (∀ e u v m n, L.tri.IsLabel e → L.tri.vertexOf e = .ok u → L.tri.vertexOf (inv e) = .ok v → L.Multiplicity u m → L.Multiplicity v n → p.w e = m + n) ∧
    (p.cls.isMultiCurve = true ∨ p = L.tri.emptyLamination) := by
  obtain ⟨p, h1, h2, h3, h4, h5⟩ := Lam.peripheral_ok P hL
  have hm := Lam.isMult_mu hL
  refine ⟨p, h1, h2, ?_, ?_, h5⟩
  · exact (Lam.isMult_links (M := p) (m := L.mu) ⟨by rw [h2]; exact hL.1.1, by rw [h2, h3]⟩ (by rw [h2]; exact hm.nonneg) (by rw [h2]; exact hm.const)
      (by rw [h2]; exact h4)).1
  · intro e u v m n he hu hv mu mv
    rw [Lam.mult_iff hL he hu] at mu
    rw [Lam.mult_iff hL (isLabel_inv.2 he) hv] at mv
    rw [h4 e he, mu, mv]

/-- C42: a lamination is the sum of its peripheral and its non-peripheral part. -/
theorem C42_decomposition (P : Lam R → Py LamClass) (L : Lam R) (hL : L.Consistent) (b : Bool) (p q : Lam R) (hp : L.peripheral P = .ok p)
    (hq : L.nonPeripheral P b = .ok q) : q.tri = L.tri ∧ q.Consistent ∧ ∀ e, L.tri.IsLabel e → L.w e = p.w e + q.w e := by
  obtain ⟨p', h1, h2, h3, h4, h5⟩ := Lam.peripheral_ok P hL
  rw [hp] at h1; cases h1
  unfold Lam.nonPeripheral at hq
  rw [hp, py_bind_ok] at hq
  obtain ⟨g1, g2, g3⟩ := lamination_ok hq
  have hw : ∀ e, L.tri.IsLabel e → q.w e = L.w e - p.w e := by
    intro e he
    have hi := idx_lt he
    unfold Lam.w
    rw [g3, List.getElem?_zipWith, List.getElem?_eq_getElem (by rw [hL.1.2]; exact hi), List.getElem?_eq_getElem (by rw [h3]; exact hi)]
    rfl
  refine ⟨g2, ?_, fun e he => by rw [hw e he]; ring⟩
  exact ((Lam.isMult_mu hL).remove hL g2 (by rw [g3, g1, hL.1.2]) (fun e he => by rw [hw e he, h4 e he])).1

/-- C42: the non-peripheral part exists (when its class is not asked for). -/
theorem C42_non_peripheral_exists (P : Lam R → Py LamClass) (L : Lam R) (hL : L.Consistent) : ∃ q, L.nonPeripheral P false = .ok q := by
  obtain ⟨p, h1, h2, h3, h4, h5⟩ := Lam.peripheral_ok P hL
  unfold Lam.nonPeripheral
  rw [h1, py_bind_ok]
  unfold lamination
  rw [show (List.zipWith (· - ·) L.geometric p.geometric).length = L.tri.zeta by rw [List.length_zipWith, hL.1.2, h3, min_self]]
  simp [pyAssert]

theorem Lam.all_zero_iff {L : Lam R} (hL : L.WellFormed) : L.isEmpty = true ↔ ∀ e, L.tri.IsLabel e → L.w e = 0 := by
  unfold Lam.isEmpty
  rw [List.all_eq_true]
  constructor
  · intro h e he
    unfold Lam.w
    rw [List.getElem?_eq_getElem (by rw [hL.2]; exact idx_lt he)]
    simpa using h _ (List.getElem_mem _)
  · intro h x hx
    obtain ⟨i, hi, rfl⟩ := List.getElem_of_mem hx
    rw [hL.2] at hi
    have := h (i : Int) (by unfold IsLabel; omega)
    unfold Lam.w at this
    rw [norm_of_nonneg (by omega), Int.toNat_natCast, List.getElem?_eq_getElem (by rw [hL.2]; exact hi)] at this
    simpa using this

theorem Lam.eqv_iff {L M : Lam R} (hL : L.WellFormed) (ht : M.tri = L.tri) (hl : M.geometric.length = L.tri.zeta) : M.eqv L = true ↔ ∀ e, L.tri.IsLabel e → M.w e = L.w e := by
  unfold Lam.eqv
  rw [Bool.and_eq_true, beq_iff_eq, beq_iff_eq]
  constructor
  · rintro ⟨_, h⟩ e _
    unfold Lam.w; rw [h]
  · intro h
    refine ⟨ht, List.ext_getElem? fun i => ?_⟩
    rcases lt_or_ge i L.tri.zeta with hi | hi
    · have := h (i : Int) (by unfold IsLabel; omega)
      unfold Lam.w at this
      rw [norm_of_nonneg (by omega), Int.toNat_natCast, List.getElem?_eq_getElem (by rw [hl]; exact hi), List.getElem?_eq_getElem (by rw [hL.2]; exact hi)] at this
      rw [List.getElem?_eq_getElem (by rw [hl]; exact hi), List.getElem?_eq_getElem (by rw [hL.2]; exact hi)]
      simpa using this
    · rw [List.getElem?_eq_none (by rw [hl]; exact hi), List.getElem?_eq_none (by rw [hL.2]; exact hi)]

/-- C42: `is_non_peripheral()` says whether all multiplicities are zero. -/
theorem C42_is_non_peripheral (P : Lam R → Py LamClass) (L : Lam R) (hL : L.Consistent) : ∃ b, L.isNonPeripheral P = .ok b ∧
    (b = true ↔ ∀ vs, L.tri.vertices = .ok vs → ∀ v ∈ vs, L.Multiplicity v 0) := by
  have hc := hL.1.1.comp
  obtain ⟨p, h1, h2, h3, h4, h5⟩ := Lam.peripheral_ok P hL
  have hm := Lam.isMult_mu hL
  refine ⟨p.isEmpty, by unfold Lam.isNonPeripheral; rw [h1]; rfl, ?_⟩
  rw [Lam.all_zero_iff ⟨by rw [h2]; exact hL.1.1, by rw [h2, h3]⟩, h2]
  constructor
  · intro h vs hvs v hv
    obtain ⟨k1, k2, k3, k4⟩ := hc.vertices_mem hvs
    obtain ⟨a, ha⟩ := List.exists_mem_of_ne_nil _ (k2 v hv).1.ne
    have la := (k2 v hv).2.2 a ha
    rw [Lam.mult_iff hL la (hc.vertexOf_of_mem hvs hv ha)]
    have := h a la
    rw [h4 a la] at this
    have n1 := hm.nonneg a la
    have n2 := hm.nonneg _ (isLabel_inv.2 la)
    linarith
  · intro h e he
    have key : ∀ e, L.tri.IsLabel e → L.mu e = 0 := by
      intro e he
      obtain ⟨v, vs, g1, g2, g3, _⟩ := hc.vertexOf_ok he
      exact ((Lam.mult_iff hL he g1).1 (h vs g2 v g3)).symm
    rw [h4 e he, key e he, key _ (isLabel_inv.2 he), add_zero]

/-- C42: the non-peripheral part has no peripheral components: it is its own non-peripheral part and its peripheral part is empty. -/
theorem C42_none_left (P : Lam R → Py LamClass) (L : Lam R) (hL : L.Consistent) (b : Bool) (q : Lam R) (hq : L.nonPeripheral P b = .ok q) :
    q.isNonPeripheral P = .ok true ∧ q.peripheralComponents = .ok [] ∧ q.peripheral P = .ok q.tri.emptyLamination := by
  have hc := hL.1.1.comp
  obtain ⟨p, h1, h2, h3, h4, h5⟩ := Lam.peripheral_ok P hL
  obtain ⟨g1, g2, g3⟩ := C42_decomposition P L hL b p q h1 hq
  obtain ⟨_, _, g6⟩ := (Lam.isMult_mu hL).remove (N := q) hL g1 (by rw [g2.1.2, g1, hL.1.2]) (fun e he => by rw [g3 e he, h4 e he]; ring)
  have hz : ∀ e, q.tri.IsLabel e → q.mu e = 0 := fun e he => (Lam.isMult_mu g2).unique g6 g2.1.1.comp he
  have hcomp : q.peripheralComponents = .ok [] := by
    obtain ⟨vs, k1, μ, k2, k3, k4⟩ := Lam.peripheralComponents_ok g2
    rw [k4]
    obtain ⟨j1, j2, j3, j4⟩ := g2.1.1.comp.vertices_mem k1
    rw [List.filter_eq_nil_iff.2]
    · rfl
    · intro v hv
      obtain ⟨a, ha⟩ := List.exists_mem_of_ne_nil _ (j2 v hv).1.ne
      rw [k3 v hv a ha, hz a ((j2 v hv).2.2 a ha)]; simp
  have hper : q.peripheral P = .ok q.tri.emptyLamination := by
    unfold Lam.peripheral; rw [hcomp]; rfl
  refine ⟨?_, hcomp, hper⟩
  unfold Lam.isNonPeripheral
  rw [hper, py_bind_ok]
  simp [Lam.isEmpty, emptyLamination]

/-- C42: `is_peripheral()` says whether the lamination is a sum of curves around vertices; then these are as many as the multiplicities. -/
theorem C42_is_peripheral (P : Lam R → Py LamClass) (L : Lam R) (hL : L.Consistent) : ∃ b, L.isPeripheral P = .ok b ∧
    (b = true ↔ ∃ m : List Int → R, (∀ v, 0 ≤ m v) ∧ L.IsLinks m) ∧
    ∀ m : List Int → R, (∀ v, 0 ≤ m v) → L.IsLinks m → ∀ e v, L.tri.IsLabel e → L.tri.vertexOf e = .ok v → L.Multiplicity v (m v) := by
  have hc := hL.1.1.comp
  obtain ⟨p, h1, h2, h3, h4, h5⟩ := Lam.peripheral_ok P hL
  have hm := Lam.isMult_mu hL
  have conv : ∀ m : List Int → R, (∀ v, 0 ≤ m v) → L.IsLinks m → ∀ e v, L.tri.IsLabel e → L.tri.vertexOf e = .ok v → m v = L.mu e := by
    intro m h0 hl e v he hv
    have key : ∀ e v, L.tri.vertexOf e = .ok v → (match L.tri.vertexOf e with | .ok v => m v | .error _ => 0) = m v := by
      intro e v h; rw [h]
    have := Lam.isMult_links (M := L) (m := fun e => match L.tri.vertexOf e with | .ok v => m v | .error _ => 0) hL.1
      (fun e he => by
        obtain ⟨v, _, g, _⟩ := hc.vertexOf_ok he
        rw [key e v g]; exact h0 v)
      (by
        rintro e f he ⟨v, g1, g2⟩
        rw [key e v g1, key f v (hc.vertexOf_unique he g1 g2)])
      (fun e he => by
        obtain ⟨v, _, g, _⟩ := hc.vertexOf_ok he
        obtain ⟨w, _, g', _⟩ := hc.vertexOf_ok (isLabel_inv.2 he)
        rw [key e v g, key _ w g', hl e v w he g g'])
    have := this.2.2.unique hm hc he
    rw [← this, key e v hv]
  refine ⟨p.eqv L, by unfold Lam.isPeripheral; rw [h1]; rfl, ?_, ?_⟩
  · rw [Lam.eqv_iff hL.1 h2 h3]
    constructor
    · intro h
      refine ⟨fun v => match L.vertexMultiplicity v with | .ok m => max m 0 | .error _ => 0, ?_, ?_⟩
      · intro v
        dsimp only
        split
        · exact le_max_right _ _
        · exact le_rfl
      · intro e u v he hu hv
        dsimp only
        rw [Lam.mu_spec hL he hu, Lam.mu_spec hL (isLabel_inv.2 he) hv, ← h e he, h4 e he]
        dsimp only
        rw [max_eq_left (hm.nonneg e he), max_eq_left (hm.nonneg _ (isLabel_inv.2 he))]
    · rintro ⟨m, h0, hl⟩ e he
      obtain ⟨v, _, g, _⟩ := hc.vertexOf_ok he
      obtain ⟨w, _, g', _⟩ := hc.vertexOf_ok (isLabel_inv.2 he)
      rw [h4 e he, hl e v w he g g', conv m h0 hl e v he g, conv m h0 hl _ w (isLabel_inv.2 he) g']
  · intro m h0 hl e v he hv
    rw [Lam.mult_iff hL he hv]
    exact conv m h0 hl e v he hv

/-- C42: a lamination is peripheral exactly when its non-peripheral part is empty, and the peripheral part of a lamination is peripheral. -/
theorem C42_agree (P : Lam R → Py LamClass) (L : Lam R) (hL : L.Consistent) (p q : Lam R) (b : Bool) (hp : L.peripheral P = .ok p)
    (hq : L.nonPeripheral P b = .ok q) : L.isPeripheral P = .ok q.isEmpty ∧ p.isPeripheral P = .ok true := by
  have hc := hL.1.1.comp
  have hm := Lam.isMult_mu hL
  obtain ⟨g1, g2, g3⟩ := C42_decomposition P L hL b p q hp hq
  obtain ⟨p', h1, h2, h3, h4, h5⟩ := Lam.peripheral_ok P hL
  rw [hp] at h1; cases h1
  constructor
  · unfold Lam.isPeripheral
    rw [hp, py_bind_ok]
    show Except.ok _ = _
    congr 1
    rw [Bool.eq_iff_iff, Lam.eqv_iff hL.1 h2 h3, Lam.all_zero_iff g2.1, g1]
    constructor
    · intro h e he
      have := g3 e he
      rw [h e he] at this
      linarith
    · intro h e he
      rw [g3 e he, h e he, add_zero]
  · have hpl := Lam.isMult_links (M := p) (m := L.mu) ⟨by rw [h2]; exact hL.1.1, by rw [h2, h3]⟩ (by rw [h2]; exact hm.nonneg) (by rw [h2]; exact hm.const)
      (by rw [h2]; exact h4)
    obtain ⟨pp, j1, j2, j3, j4, _⟩ := Lam.peripheral_ok P hpl.1
    unfold Lam.isPeripheral
    rw [j1, py_bind_ok]
    show Except.ok _ = _
    congr 1
    rw [Lam.eqv_iff hpl.1.1 j2 j3]
    intro e he
    rw [j4 e he, (Lam.isMult_mu hpl.1).unique hpl.2.2 hpl.1.1.1.comp he, (Lam.isMult_mu hpl.1).unique hpl.2.2 hpl.1.1.1.comp (isLabel_inv.2 he)]
    rw [h2] at he
    rw [h4 e he]

/-- a curve of the four times punctured sphere together with a curve around the vertex of the edges `~5`, `3`, `~4` -/
def sphereMixed : Lam Int := ⟨sphere4, [3, 1, 2, 3, 2, 4], .integral⟩

example : sphereMixed.Consistent := by
  refine ⟨⟨sphere4_valid, rfl⟩, ?_⟩
  intro e he
  have h : ∀ e ∈ sphere4.labels, (sphereMixed.dualWeight e).isOk = true := by decide
  have := h e (mem_labels.2 he)
  rcases hd : sphereMixed.dualWeight e with err | x
  · rw [hd] at this; cases this
  · exact ⟨x, rfl⟩

example : (sphereMixed.peripheral fixedClass).map Lam.geometric = .ok [0, 0, 0, 1, 1, 1] ∧
    (sphereMixed.nonPeripheral fixedClass).map Lam.geometric = .ok [3, 1, 2, 2, 1, 3] ∧ sphereMixed.isPeripheral fixedClass = .ok false ∧
    sphereMixed.isNonPeripheral fixedClass = .ok false := by decide

end Curver
