import Verif.Proofs.SeparatingCrush
import Verif.Props.Crush
import Verif.Props.Termination

/-!
# C91: separating curves
-/

namespace Curver
open Triangulation
namespace Lam
variable {c : Lam Int} {u x y : Int} {m n : Int}

theorem Walk.label (hT : c.tri.Valid) (hu : c.tri.IsLabel u) (h : Walk c u x n) : c.tri.IsLabel x := by
  induction h with
  | stay => exact hu
  | turn _ hg _ => exact isLabel_inv.2 (hT.comp.label_of_glues hg).2.2
  | back _ hg _ => exact (hT.comp.label_of_glues hg).1
  | along _ hl _ => exact isLabel_inv.2 hl

theorem Walk.trans (h1 : Walk c u x n) (h2 : Walk c x y m) : Walk c u y (n + m) := by
  induction h2 with
  | stay => rw [add_zero]; exact h1
  | turn _ hg ih => exact ih.turn hg
  | back _ hg ih => exact ih.back hg
  | along _ hl ih => rw [← add_assoc]; exact ih.along hl

theorem Walk.reverse (h : Walk c u x n) : Walk c x u n := by
  induction h with
  | stay => exact .stay
  | @turn x y z n _ hg ih =>
    have : Walk c (inv z) x 0 := (Walk.stay).back hg
    simpa using this.trans ih
  | @back x y z n _ hg ih =>
    have : Walk c x (inv z) 0 := (Walk.stay).turn hg
    simpa using this.trans ih
  | @along x n _ hl ih =>
    have : Walk c (inv x) x (0 + c.w (inv x)) := by
      have := (Walk.stay (c := c) (u := inv x)).along (isLabel_inv.2 hl)
      rwa [Curver.inv_inv] at this
    rw [w_inv] at this
    have := this.trans ih
    rwa [zero_add, add_comm] at this

open Classical in
/-- the two ways to say that a curve separates -/
theorem separates_iff (hT : c.tri.Valid) : c.Separates ↔ c.CutsApart := by
  constructor
  · rintro ⟨σ, s1, s2⟩ u n hu h
    have key : ∀ {x n}, Walk c u x n → (σ u ≠ σ x ↔ n % 2 = 1) := by
      intro x n h
      induction h with
      | stay => simp
      | turn _ hg ih => rw [← s1 _ _ _ hg]; exact ih
      | back _ hg ih => rw [s1 _ _ _ hg]; exact ih
      | @along x n _ hl ih =>
        have := s2 x hl
        revert ih this
        cases σ u <;> cases σ x <;> cases σ (inv x) <;> simp <;> omega
    have := key h
    simp at this
    omega
  · intro h
    let rel : Int → Int → Prop := fun x y => ∃ n, Walk c x y n
    let st : Setoid Int := ⟨rel, ⟨fun _ => ⟨0, .stay⟩, fun ⟨n, h⟩ => ⟨n, h.reverse⟩, fun ⟨n, h⟩ ⟨m, h'⟩ => ⟨n + m, h.trans h'⟩⟩⟩
    let base : Int → Int := fun x => (Quotient.mk st x).out
    have hb : ∀ x, rel (base x) x := fun x => Quotient.exact (s := st) (Quotient.out_eq _)
    have hbe : ∀ {x y}, rel x y → base x = base y := fun {x y} q => by
      show (Quotient.mk st x).out = (Quotient.mk st y).out
      rw [Quotient.sound (s := st) q]
    let σ : Int → Bool := fun x => decide (∃ n, Walk c (base x) x n ∧ n % 2 = 1)
    have key : ∀ {x y m}, c.tri.IsLabel x → Walk c x y m → (σ x ≠ σ y ↔ m % 2 = 1) := by
      intro x y m hx hw
      obtain ⟨n, hn⟩ := hb x
      have e := hbe ⟨m, hw⟩
      have par : ∀ {z k k'}, c.tri.IsLabel z → Walk c (base x) z k → Walk c (base x) z k' → k % 2 = k' % 2 := by
        intro z k k' hz w1 w2
        have := h z _ hz (w1.reverse.trans w2)
        omega
      have hv : ∀ {z k}, c.tri.IsLabel z → base z = base x → Walk c (base x) z k → (σ z = true ↔ k % 2 = 1) := by
        intro z k hz hbz w1
        show decide _ = true ↔ _
        rw [decide_eq_true_eq, hbz]
        constructor
        · rintro ⟨k', w2, w3⟩
          rw [par hz w1 w2]; exact w3
        · exact fun q => ⟨k, w1, q⟩
      have h1 := hv hx rfl hn
      have h2 := hv (hw.label hT hx) e.symm (hn.trans hw)
      revert h1 h2
      cases σ x <;> cases σ y <;> simp <;> omega
    refine ⟨σ, ?_, ?_⟩
    · intro x y z hg
      have hx := (hT.comp.label_of_glues hg).1
      have := key hx ((Walk.stay (c := c) (u := x)).turn hg)
      simpa using this
    · intro x hx
      have := key hx ((Walk.stay (c := c) (u := x)).along hx)
      rwa [zero_add] at this

end Lam

variable (P : Lam Int → Py LamClass) (dflt : Int → Int → Bool) (fuel : Nat)

/-- C91: `is_separating` of an essential curve tells whether one cannot get from one side of the curve to the other: it is True exactly if every closed walk crosses the curve an even number of times. -/
theorem C91_separating (c : Lam Int) (hc : c.NoArcs) (hp : ¬ c.Peripheral) (r : Bool) (h : c.isSeparating P dflt fuel = .ok r) : r = true ↔ c.CutsApart :=
  (Lam.isSeparating_spec hc hp h).trans (Lam.separates_iff hc.1.1)

/-- C91: equivalently, the vertices can be divided into two sides so that exactly the edges between the two sides cross the curve an odd number of times. -/
theorem C91_sides (c : Lam Int) (hc : c.NoArcs) (hp : ¬ c.Peripheral) (r : Bool) (h : c.isSeparating P dflt fuel = .ok r) : r = true ↔ c.Separates :=
  Lam.isSeparating_spec hc hp h

/-- C91: `is_separating` answers whenever `crush` does. -/
theorem C91_answers (c : Lam Int) (hc : c.NoArcs) (f : CrushEnc) (h : c.crush P dflt fuel = .ok f) : ∃ r, c.isSeparating P dflt fuel = .ok r := by
  obtain ⟨cs, h1, -⟩ := hc.1.1.comp.components_ok
  have hv : f.target.Complete := by
    by_cases hp : c.Peripheral
    · have hz : (⟨c.tri, List.replicate c.tri.zeta 0, .lamination⟩ : Lam Int).WellFormed := ⟨hc.1.1, by simp⟩
      rw [(C88_peripheral P dflt fuel c hc hp f h _ hz rfl).2.1]
      exact hc.1.1.comp
    · exact (C88_surface P dflt fuel c hc hp f h).2.1.comp
  obtain ⟨ds, h2, -⟩ := hv.components_ok
  exact ⟨_, by unfold Lam.isSeparating; rw [h, py_bind_ok, h2, py_bind_ok, h1, py_bind_ok]; rfl⟩

/-- C91: mappings do not change the answer. -/
theorem C91_invariant (P' : Lam Int → Py LamClass) (dflt' : Int → Int → Bool) (fuel' : Nat) (c c' : Lam Int) (hc : c.NoArcs) (g : Enc) (hg : g.Legal) (ha : g.applyLam c = .ok c') (r r' : Bool) (h : c.isSeparating P dflt fuel = .ok r) (h' : c'.isSeparating P' dflt' fuel' = .ok r') : r = r' := by
  have hc' := hg.noArcs hc ha
  have back := (hg.undo hc.1 ha).2.2.2
  by_cases hp : c.Peripheral
  · have hp' := hp.enc hc hg ha
    have no : ∀ {P dflt fuel} {c : Lam Int} {r : Bool}, c.NoArcs → c.Peripheral → c.isSeparating P dflt fuel = .ok r → r = false := by
      intro P dflt fuel c r hc hp h
      unfold Lam.isSeparating at h
      simp only [py_bind_eq_ok] at h
      obtain ⟨f, hf, ds, h1, cs, h2, h⟩ := h
      injection h with h
      have hz : (⟨c.tri, List.replicate c.tri.zeta 0, .lamination⟩ : Lam Int).WellFormed := ⟨hc.1.1, by simp⟩
      rw [(C88_peripheral P dflt fuel c hc hp f hf _ hz rfl).2.1, h2] at h1
      injection h1 with h1
      rw [← h, h1]
      simp
    rw [no hc hp h, no hc' hp' h']
  · have hp' : ¬ c'.Peripheral := fun q => hp (q.enc hc' hg.inv' back)
    have e : c.Separates ↔ c'.Separates := ⟨fun q => q.enc hc hg ha, fun q => q.enc hc' hg.inv' back⟩
    have h1 := Lam.isSeparating_spec hc hp h
    have h2 := Lam.isSeparating_spec hc' hp' h'
    rw [e, ← h2] at h1
    cases r <;> cases r' <;> simp_all

/-- C91 needs that the curve is essential (finding 30): the curve around a vertex cuts off that vertex, but `is_separating` is always False. -/
theorem C91_peripheral (T : Triangulation) (hT : T.Valid) (vs : List (List Int)) (hv : T.vertices = .ok vs) (v : List Int) (h : v ∈ vs) :
    (T.curveFromCutSequence v : Lam Int).CutsApart ∧ (T.curveFromCutSequence v : Lam Int).isSeparating P dflt fuel = .ok false := by
  have st := Lam.star_of_mem hT hv h
  constructor
  · refine (Lam.separates_iff (c := (T.curveFromCutSequence v : Lam Int)) hT).1 ⟨fun x => decide (x ∈ v), ?_, ?_⟩
    · intro x y z hg
      have hx := (hT.comp.label_of_glues hg).1
      have sv : T.SV x (inv z) := hT.comp.sv_glues (by rw [Curver.inv_inv]; exact hg)
      have : x ∈ v ↔ inv z ∈ v := by
        constructor
        · intro q; exact (st.mem_iff q).2 sv
        · intro q; exact (st.mem_iff q).2 (hT.comp.sv_symm hx sv)
      simp only [this]
    · intro x hx
      have hx' : T.IsLabel x := hx
      rw [link_w (R := Int) (T := T) v hx']
      have nd := hT.comp.vertices_mem hv
      have ct : ∀ y, (v.count y : Int) = if y ∈ v then 1 else 0 := by
        intro y
        split_ifs with q
        · rw [List.count_eq_one_of_mem (nd.2.1 v h).2.1 q]; rfl
        · rw [List.count_eq_zero.2 q]; rfl
      push_cast
      rw [ct, ct]
      by_cases q1 : x ∈ v <;> by_cases q2 : inv x ∈ v <;> simp [q1, q2]
  · obtain ⟨i, i1, -, -, -, i4, -⟩ := C14_identity T hT
    obtain ⟨cs, h1, -⟩ := hT.comp.components_ok
    unfold Lam.isSeparating Lam.crush Lam.crushWith
    rw [Lam.star_isPeripheral st, py_bind_ok, if_pos rfl]
    show ((T.idEncoding >>= _) >>= _) = _
    rw [i1]
    simp only [py_bind_ok]
    show ((Except.ok _ : Py CrushEnc) >>= _) = _
    rw [py_bind_ok]
    show (i.target.components >>= _) = _
    rw [i4, h1, py_bind_ok]
    show (T.components >>= _) = _
    rw [h1, py_bind_ok]
    simp

/-! ## the hypotheses are met -/

/-- the curve that cuts a sphere with four punctures into two halves -/
example : sphereShort.isSeparating anyClass neverSlow 100 = .ok true ∧ sphereShort.CutsApart := by
  have h : sphereShort.isSeparating anyClass neverSlow 100 = .ok true := by decide +kernel
  exact ⟨h, (C91_separating anyClass neverSlow 100 sphereShort sphereShort_noArcs sphereShort_essential true h).1 rfl⟩

/-- the curves on a torus do not separate: one can walk along an edge across the curve once -/
example : torusShort.isSeparating anyClass neverSlow 100 = .ok false ∧ ¬ torusShort.CutsApart := by
  refine ⟨by decide +kernel, fun q => ?_⟩
  have := (Lam.separates_iff torusShort_noArcs.1.1).2 q
  obtain ⟨σ, s1, s2⟩ := this
  have g1 := s1 0 1 2 (by unfold Glues; decide)
  have g2 := s1 1 2 0 (by unfold Glues; decide)
  have g3 := s1 2 0 1 (by unfold Glues; decide)
  have g4 := s1 (-1) (-2) (-3) (by unfold Glues; decide)
  have g5 := s1 (-2) (-3) (-1) (by unfold Glues; decide)
  have g6 := s1 (-3) (-1) (-2) (by unfold Glues; decide)
  have k := (s2 1 (by decide)).2 (by decide)
  simp only [show inv 0 = -1 from rfl, show inv 1 = -2 from rfl, show inv 2 = -3 from rfl, show inv (-1) = 0 from rfl, show inv (-2) = 1 from rfl, show inv (-3) = 2 from rfl] at *
  exact k (by rw [g2, g4, g3])

end Curver
