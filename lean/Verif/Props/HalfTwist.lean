import Verif.Proofs.HalfVertex
import Verif.Proofs.ArcShorten
import Verif.Props.VertexMap

/-!
# C56 and C57: half twists

An arc along an edge (`Lam.IsEdgeArc`, `Verif/Spec/HalfTwist.lean`) has weight -1 on that edge and 0 elsewhere.  The half twist about it is
assembled from flips by two loops and closed up with an isometry (twist.py:206-234); the source contains the note "TODO: 4) Prove this
always works".  Here `B arc k` stands for `arc.boundary().encode_twist(k)`, which the constructor calls when `abs(power) > 1`.
-/

namespace Curver
open Triangulation

/-! ## C15: conjugation -/

/-- C15: `h.conjugate_by(c)` is defined when `c` ends where the mapping class `h` lives.  It is a mapping class of the source of `c`, and it does
what `c`, then `h`, then `~c` do, on laminations and homology classes. -/
theorem C15_conjugate (h c : Enc) (hh : h.Legal) (hc : c.Legal) (hk : h.kind = .mappingClass) (hck : c.kind ≠ .encoding) (ht : c.target = h.source) :
    ∃ k i, h.conjugateBy c = .ok k ∧ c.inverse = .ok i ∧ k.Legal ∧ k.kind = .mappingClass ∧ k.source = c.source ∧ k.target = c.source ∧
      (∀ (R : Type) [CommRing R] [LinearOrder R] [IsStrictOrderedRing R] [Halvable R] (L : Lam R), L.WellFormed →
        k.applyLam L = (do let L1 ← c.applyLam L; let L2 ← h.applyLam L1; i.applyLam L2)) ∧
      ∀ x : Hom, x.WellFormed → k.applyHom x = (do let x1 ← c.applyHom x; let x2 ← h.applyHom x1; i.applyHom x2) := by
  obtain ⟨k, i, x, h1, h2, h3, h4, _⟩ := hh.conjugateBy hc hk hck ht
  subst h4
  exact ⟨k, _, h1, h3, h2.legal, h2.kind, h2.source, h2.target, fun R _ _ _ _ L hL => h2.lam R L hL, h2.hom⟩

/-! ## C56: construction -/

section parallel
variable {c : Lam Int}

theorem Lam.setComponent_mem {α : Type} {K : Lam Int} {v : α} : ∀ {d : List (Lam Int × α)} {p : Lam Int × α}, p ∈ setComponent d K v → p ∈ d ∨ (p.1.eqv K = true ∧ p.2 = v)
  | [], p, h => by
    simp only [setComponent, List.mem_singleton] at h
    subst h; exact .inr ⟨eqv_spec.2 ⟨rfl, rfl⟩, rfl⟩
  | (M, u) :: d, p, h => by
    unfold setComponent at h
    by_cases e : M.eqv K = true
    · rw [if_pos e] at h
      rcases List.mem_cons.1 h with rfl | h
      · exact .inr ⟨e, rfl⟩
      · exact .inl (by simp [h])
    · rw [if_neg e] at h
      rcases List.mem_cons.1 h with rfl | h
      · exact .inl (by simp)
      · rcases setComponent_mem h with h | h
        · exact .inl (by simp [h])
        · exact .inr h

theorem Lam.parallelComponents_short (hw : c.WellFormed) (hs : ∀ x, c.tri.IsLabel x → c.w x ≤ 0) {l : List (Lam Int × (Int × Int))} (hl : c.parallelComponents = .ok l) :
    ∀ p ∈ l, c.tri.IsLabel p.2.2 ∧ sign p.2.2 = 1 ∧ p.1.eqv (c.tri.edgeArcOf p.2.2) = true := by
  have key : ∀ (es : List Int) (d l : List (Lam Int × (Int × Int))), (∀ e ∈ es, c.tri.IsLabel e) → es.foldlM c.parallelStep d = .ok l →
      (∀ p ∈ d, c.tri.IsLabel p.2.2 ∧ sign p.2.2 = 1 ∧ p.1.eqv (c.tri.edgeArcOf p.2.2) = true) →
      ∀ p ∈ l, c.tri.IsLabel p.2.2 ∧ sign p.2.2 = 1 ∧ p.1.eqv (c.tri.edgeArcOf p.2.2) = true := by
    intro es
    induction es with
    | nil => intro d l _ h hd; cases h; exact hd
    | cons e es ih =>
      intro d l he h hd
      rw [List.foldlM_cons, py_bind_eq_ok] at h
      obtain ⟨d', h1, h2⟩ := h
      refine ih d' l (fun x hx => he x (by simp [hx])) h2 ?_
      have le := he e (by simp)
      unfold parallelStep at h1
      rw [py_bind_eq_ok] at h1
      obtain ⟨arc, k1, k2⟩ := h1
      rw [parallelCurve_short hw hs le, py_bind_ok] at k2
      injection k2 with k2
      cases arc with
      | none => subst k2; exact hd
      | some q =>
        simp only at k2
        have hq : sign e = 1 ∧ q.1 = c.tri.edgeArcOf e := by
          unfold Lam.parallelArc at k1
          by_cases hse : sign e = 1
          · rw [if_pos hse, py_bind_eq_ok] at k1
            obtain ⟨x, _, k3⟩ := k1
            by_cases hx : 0 < -x
            · rw [if_pos hx] at k3
              injection k3 with k3; injection k3 with k3
              exact ⟨hse, by rw [← k3]⟩
            · rw [if_neg hx] at k3; injection k3 with k3; cases k3
          · rw [if_neg hse] at k1; injection k1 with k1; cases k1
        subst k2
        intro p hp
        rcases setComponent_mem hp with hp | ⟨hp1, hp2⟩
        · exact hd p hp
        · rw [hp2]
          exact ⟨le, hq.1, by rw [← hq.2]; exact hp1⟩
  exact key _ _ _ (fun e he => mem_labels.1 he) hl (by simp)

end parallel

/-- C56: `arc.parallel()` answers exactly for the arcs that run along an edge, and then with that edge (in its positive orientation). -/
theorem C56_parallel (arc : Lam Int) (hw : arc.WellFormed) (hc : arc.cls = .arc) (e : Int) :
    arc.parallelToEdge = .ok e ↔ arc.IsEdgeArc arc.tri e ∧ sign e = 1 := by
  constructor
  · intro h
    unfold Lam.parallelToEdge at h
    by_cases hs : arc.isShortArc = true
    swap
    · simp [pyAssert, hs, bind, Except.bind] at h
    rw [hs] at h
    simp only [pyAssert] at h
    rw [if_pos trivial, py_bind_ok, py_bind_eq_ok] at h
    obtain ⟨l, h1, h2⟩ := h
    have hn : ∀ x, arc.tri.IsLabel x → arc.w x ≤ 0 := by
      intro x hx
      unfold Lam.isShortArc at hs
      rw [List.all_eq_true] at hs
      have hi := idx_lt hx
      rw [← hw.2] at hi
      unfold Lam.w
      rw [List.getElem?_eq_getElem hi]
      simpa using hs _ (List.getElem_mem hi)
    have hp := Lam.parallelComponents_short hw hn h1
    match l, h2, hp with
    | [(K, (m, e'))], h2, hp =>
      by_cases hK : K.eqv arc = true
      swap
      · simp [hK, bind, Except.bind] at h2
      simp only [hK] at h2
      rw [if_pos trivial, py_bind_ok] at h2
      by_cases hm : m = 1
      swap
      · simp [hm, bind, Except.bind] at h2
      simp only [hm, decide_true] at h2
      rw [if_pos trivial, py_bind_ok] at h2
      injection h2 with h2
      subst h2
      obtain ⟨a1, a2, a3⟩ := hp _ (List.mem_singleton_self _)
      simp only at a1 a2 a3
      refine ⟨?_, a2⟩
      have b1 := Lam.eqv_spec.1 hK
      have b2 := Lam.eqv_spec.1 a3
      have : arc = arc.tri.edgeArcOf e' := by
        have g : arc.geometric = (arc.tri.edgeArcOf e' : Lam Int).geometric := b1.2.symm.trans b2.2
        have d : (arc.tri.edgeArcOf e' : Lam Int).tri = arc.tri ∧ (arc.tri.edgeArcOf e' : Lam Int).cls = .arc := ⟨rfl, rfl⟩
        obtain ⟨t, gg, cl⟩ := arc
        simp only at hc g d
        rw [hc, g]; rfl
      have ho := Lam.IsEdgeArc.of_edge a1
      rw [← this] at ho
      exact ho
    | [], h2, _ => cases h2
    | _ :: _ :: _, h2, _ => cases h2
  · rintro ⟨h1, h2⟩
    rw [h1.parallel hw.1, norm_of_nonneg (sign_eq_one_iff.1 h2)]

/-- C56: the arc along an edge has distinct endpoints exactly when the two ends of the edge are at different vertices. -/
theorem C56_distinct_endpoints (T : Triangulation) (hT : T.Valid) (a : Int) (arc : Lam Int) (h : arc.IsEdgeArc T a) :
    ∃ b v u, arc.arcDistinctEndpoints = .ok b ∧ T.vertexOf a = .ok v ∧ T.vertexOf (inv a) = .ok u ∧ (b = true ↔ v ≠ u) := by
  obtain ⟨b, h1, h2⟩ := h.distinctEndpoints hT
  obtain ⟨v, _, hv, _⟩ := hT.comp.vertexOf_ok h.label
  obtain ⟨u, _, hu, _, _, hm, _⟩ := hT.comp.vertexOf_ok (isLabel_inv.2 h.label)
  refine ⟨b, v, u, h1, hv, hu, h2.trans (not_congr ?_)⟩
  constructor
  · rintro ⟨v', e1, e2⟩
    rw [hv] at e1; cases e1
    have := hT.comp.vertexOf_unique h.label hv e2
    rw [hu] at this; cases this; rfl
  · rintro rfl; exact ⟨v, hv, hm⟩

/-- C56: such an arc is short already (`shorten()` leaves it alone), and the intersection number with it is the number of times that the
lamination crosses the edge. -/
theorem C56_short (P : Lam Int → Py LamClass) (T : Triangulation) (hT : T.Valid) (a : Int) (arc : Lam Int) (h : arc.IsEdgeArc T a) :
    (∃ i, T.idEncoding = .ok i ∧ arc.shorten P = .ok (arc, i)) ∧
    ∀ (R : Type) [CommRing R] [LinearOrder R] [IsStrictOrderedRing R] [Halvable R] (L : Lam R), L.WellFormed → L.tri = T →
      arc.intersection P L = .ok (max (L.w a) 0) :=
  ⟨h.short hT P, fun _ _ _ _ _ _ hL ht => h.intersection hT P hL ht⟩

namespace HalfTwist

/-- what the constructor makes -/
theorem made {T : Triangulation} (hT : T.Valid) {e : Int} {arc : Lam Int} (h : arc.IsEdgeArc T e) (hd : arc.arcDistinctEndpoints = .ok true) :
    ∃ a ns T1 e1 c h k, (a = e ∨ a = inv e) ∧ build T (norm e) = .ok k ∧ Built T a ns T1 e1 c h k := by
  obtain ⟨b, h1, h2⟩ := h.norm'.distinctEndpoints hT
  rw [hd] at h1; cases h1
  obtain ⟨a, ns, T1, e1, c, hh, k, k1, k2, k3⟩ := hT.halfTwist h.label_norm (h2.1 rfl)
  refine ⟨a, ns, T1, e1, c, hh, k, ?_, k2, k3⟩
  unfold norm at k1
  rcases max_choice e (inv e) with q | q <;> rw [q] at k1
  · exact k1
  · rw [inv_inv] at k1; tauto

theorem create_eq (B : Lam Int → Int → Py Enc) {T : Triangulation} (hT : T.Valid) {e : Int} {arc : Lam Int} (h : arc.IsEdgeArc T e) {power : Int} (hp : power ≠ 0) :
    create B arc power = (do
      let k ← build T (norm e)
      if |power| ≤ 1 then do
        let p ← k.pow power
        return ⟨arc, power, k, p⟩
      else if Int.fmod power 2 = 0 then do
        let p ← B arc (Int.fdiv power 2)
        return ⟨arc, power, k, p⟩
      else do
        let t ← B arc (Int.fdiv power 2)
        let p ← t.mul k
        return ⟨arc, power, k, p⟩) := by
  unfold create
  rw [h.parallel hT, h.isShort, h.cls, h.tri]
  have : decide (power ≠ 0) = true := by simpa using hp
  rw [this]
  rfl

end HalfTwist

/-- C56: for every triangulation and every arc along an edge with distinct endpoints, the half twist and its inverse exist: both loops stop, the
flips can be performed, and there is exactly one isometry to close up with.  The result is a mapping class of the triangulation, built from flips
and isometries, and `flip_mapping()` is the mapping that the move performs. -/
theorem C56_construction (B : Lam Int → Int → Py Enc) (T : Triangulation) (hT : T.Valid) (a : Int) (arc : Lam Int) (h : arc.IsEdgeArc T a)
    (hd : arc.arcDistinctEndpoints = .ok true) (power : Int) (hp : power = 1 ∨ power = -1) :
    ∃ t, HalfTwist.create B arc power = .ok t ∧ t.arc = arc ∧ t.power = power ∧ t.package = .ok (norm a, power) ∧
      t.encoding.Legal ∧ t.encoding.kind = .mappingClass ∧ t.encoding.source = T ∧ t.encoding.target = T ∧
      t.encoding.pow power = .ok t.encodingPower ∧ t.flipMapping = .ok t.encodingPower ∧ t.encodingPower.Legal ∧
      t.encodingPower.kind = .mappingClass ∧ t.encodingPower.source = T ∧ t.encodingPower.target = T := by
  obtain ⟨a', ns, T1, e1, c, hh, k, k1, k2, k3⟩ := HalfTwist.made hT h hd
  obtain ⟨p, p1, p2, p3, p4, p5, p6, p7⟩ := Enc.pow_eq k3.conj.legal k3.conj.kind power
  refine ⟨⟨arc, power, k, p⟩, ?_, rfl, rfl, ?_, k3.conj.legal, k3.conj.kind, k3.conj.source.trans k3.csource, k3.conj.target.trans k3.csource, p1, p1, p2, p3, ?_, ?_⟩
  · rw [HalfTwist.create_eq B hT h (by omega), k2, py_bind_ok, if_pos (by rcases hp with rfl | rfl <;> decide), p1, py_bind_ok]
    rfl
  · unfold HalfTwist.package
    simp only [h.parallel hT, py_bind_ok]; rfl
  · rw [p4]; exact k3.conj.source.trans k3.csource
  · rw [p5]; exact k3.conj.source.trans k3.csource

/-- C56: the power 0 is refused. -/
theorem C56_power_zero (B : Lam Int → Int → Py Enc) (arc : Lam Int) : ∃ e, HalfTwist.create B arc 0 = .error e := by
  unfold HalfTwist.create
  by_cases h1 : arc.cls = .arc
  · by_cases h2 : arc.isShortArc = true
    · exact ⟨.assertionError, by simp [pyAssert, h1, h2, bind, Except.bind]⟩
    · exact ⟨.assertionError, by simp [pyAssert, h1, h2, bind, Except.bind]⟩
  · exact ⟨.assertionError, by simp [pyAssert, h1, bind, Except.bind]⟩

section
variable {R : Type} [CommRing R] [LinearOrder R] [IsStrictOrderedRing R] [Halvable R]

/-- C56: for the power 1 the move does what its encoding does; for -1 it does what the inverse of its encoding does. -/
theorem C56_action (B : Lam Int → Int → Py Enc) (T : Triangulation) (hT : T.Valid) (a : Int) (arc : Lam Int) (h : arc.IsEdgeArc T a)
    (hd : arc.arcDistinctEndpoints = .ok true) (t s : HalfTwist) (ht : HalfTwist.create B arc 1 = .ok t) (hs : HalfTwist.create B arc (-1) = .ok s) :
    t.inverse B = .ok s ∧ s.inverse B = .ok t ∧ t.encoding = s.encoding ∧
      ∃ σ : Equiv.Perm (LamOn R T), t.encoding.ActsLam σ ∧ (∀ L, t.applyLam L.1 = .ok (σ L).1) ∧ ∀ L, s.applyLam L.1 = .ok (σ.symm L).1 := by
  obtain ⟨a', ns, T1, e1, c, hh, k, k1, k2, k3⟩ := HalfTwist.made hT h hd
  obtain ⟨σ, s1, s2⟩ := C16_powers (R := R) k k3.conj.legal k3.conj.kind
  have es : k.source = T := k3.conj.source.trans k3.csource
  rw [HalfTwist.create_eq B hT h (by decide), k2, py_bind_ok, if_pos (by decide), py_bind_eq_ok] at ht hs
  obtain ⟨p, p1, p2⟩ := ht
  obtain ⟨q, q1, q2⟩ := hs
  injection p2 with p2; injection q2 with q2
  subst p2; subst q2
  refine ⟨?_, ?_, rfl, ?_⟩
  · change HalfTwist.create B arc (-1) = _
    rw [HalfTwist.create_eq B hT h (by decide), k2, py_bind_ok, if_pos (by decide), q1]; rfl
  · change HalfTwist.create B arc 1 = _
    rw [HalfTwist.create_eq B hT h (by decide), k2, py_bind_ok, if_pos (by decide), p1]; rfl
  · subst es
    obtain ⟨p', e1, _, _, _, _, e2, _⟩ := s2 1
    obtain ⟨q', e3, _, _, _, _, e4, _⟩ := s2 (-1)
    rw [p1] at e1; cases e1
    rw [q1] at e3; cases e3
    refine ⟨σ, s1, fun L => ?_, fun L => ?_⟩
    · have := e2 L; rwa [zpow_one] at this
    · have := e4 L; rwa [zpow_neg_one] at this

/-- C56: the larger powers.  If the boundary twists `B` do what the even powers of the half twist do, then every power of the half twist is made,
and does what that power of its encoding does (whichever way the halved power is rounded). -/
theorem C56_powers (B : Lam Int → Int → Py Enc) (T : Triangulation) (hT : T.Valid) (a : Int) (arc : Lam Int) (h : arc.IsEdgeArc T a)
    (hd : arc.arcDistinctEndpoints = .ok true) (t : HalfTwist) (ht : HalfTwist.create B arc 1 = .ok t) (σ : Equiv.Perm (LamOn R T)) (hσ : t.encoding.ActsLam σ)
    (hB : ∀ k : Int, k ≠ 0 → ∃ p, B arc k = .ok p ∧ p.Legal ∧ p.source = T ∧ p.target = T ∧ p.ActsLam (σ ^ (2 * k)))
    (power : Int) (hp : power ≠ 0) : ∃ s, HalfTwist.create B arc power = .ok s ∧ s.encoding = t.encoding ∧ ∀ L, s.applyLam L.1 = .ok ((σ ^ power) L).1 := by
  obtain ⟨a', ns, T1, e1, c, hh, k, k1, k2, k3⟩ := HalfTwist.made hT h hd
  have es : k.source = T := k3.conj.source.trans k3.csource
  have et : k.target = T := k3.conj.target.trans k3.csource
  rw [HalfTwist.create_eq B hT h (by decide), k2, py_bind_ok, if_pos (by decide), py_bind_eq_ok] at ht
  obtain ⟨p, p1, p2⟩ := ht
  injection p2 with p2
  subst p2
  change k.ActsLam σ at hσ
  rw [HalfTwist.create_eq B hT h hp, k2, py_bind_ok]
  by_cases h1 : |power| ≤ 1
  · rw [if_pos h1]
    subst es
    obtain ⟨σ', s1, s2⟩ := C16_powers (R := R) k k3.conj.legal k3.conj.kind
    have : σ' = σ := Enc.ActsLam.unique s1 hσ
    subst this
    obtain ⟨q, q1, _, _, _, _, q2, _⟩ := s2 power
    exact ⟨⟨arc, power, k, q⟩, by rw [q1]; rfl, rfl, q2⟩
  have hk : Int.fdiv power 2 ≠ 0 := by
    rw [Int.fdiv_eq_ediv_of_nonneg _ (by decide)]
    rw [abs_le] at h1
    omega
  obtain ⟨q, q1, q2, q3, q4, q5⟩ := hB _ hk
  rw [if_neg h1]
  by_cases h2 : Int.fmod power 2 = 0
  · rw [if_pos h2, q1]
    refine ⟨_, rfl, rfl, ?_⟩
    have : 2 * Int.fdiv power 2 = power := by
      have := Int.mul_fdiv_add_fmod power 2
      omega
    rw [this] at q5
    exact q5
  · rw [if_neg h2, q1, py_bind_ok]
    obtain ⟨r, r1, r2, r3⟩ := C14_composition q k q2 k3.conj.legal (q3.trans et.symm)
    rw [r1]
    refine ⟨_, rfl, rfl, fun L => ?_⟩
    have e : 2 * Int.fdiv power 2 + 1 = power := by
      have h3 := Int.mul_fdiv_add_fmod power 2
      have h4 := Int.fmod_nonneg_of_pos power (b := 2) (by decide)
      have h5 := Int.fmod_lt_of_pos power (b := 2) (by decide)
      omega
    change r.applyLam L.1 = _
    rw [r3.lam R L.1 L.2.1.1, hσ L, py_bind_ok, q5]
    have : σ ^ power = σ ^ (2 * Int.fdiv power 2) * σ := by rw [← zpow_add_one, e]
    rw [this]; rfl

/-! ## C57: action -/

namespace HalfTwist

/-- whatever the encoding fixes is fixed by both half twists -/
theorem fixes (B : Lam Int → Int → Py Enc) {T : Triangulation} (hT : T.Valid) {a : Int} {arc : Lam Int} (h : arc.IsEdgeArc T a)
    (hd : arc.arcDistinctEndpoints = .ok true) {power : Int} (hp : power = 1 ∨ power = -1) {t : HalfTwist} (ht : create B arc power = .ok t) {k : Enc}
    (hk : build T (norm a) = .ok k) {L L' : Lam R} (hL : L.WellFormed) (h1 : k.applyLam L = .ok L') (h2 : k.applyLam L' = .ok L) : t.applyLam L = .ok L' := by
  obtain ⟨a', ns, T1, e1, c, hh, k', _, k2, k3⟩ := made hT h hd
  rw [hk] at k2; cases k2
  rw [create_eq B hT h (by omega), hk, py_bind_ok, if_pos (by rcases hp with rfl | rfl <;> decide), py_bind_eq_ok] at ht
  obtain ⟨p, p1, p2⟩ := ht
  injection p2 with p2
  subst p2
  obtain ⟨p', e1, _, _, _, _, e2, _⟩ := Enc.pow_eq k3.conj.legal k3.conj.kind power
  rw [p1] at e1; cases e1
  have htri : L.tri = k.source := by
    by_contra hn
    rw [(C14_apply_mismatch k L ⟨T, []⟩).1 (Ne.symm hn)] at h1; cases h1
  change p.applyLam L = _
  rw [e2 R L hL htri]
  rcases hp with rfl | rfl
  · unfold Enc.applyLamPow
    rw [if_neg (by decide)]
    change (do let L' ← k.applyLam L; Enc.repeatM k.applyLam 0 L') = _
    rw [h1]; rfl
  · unfold Enc.applyLamPow
    rw [if_pos (by decide), Enc.inverse_eq k3.conj.legal, py_bind_ok]
    change (do let L' ← k.inv'.applyLam L; Enc.repeatM k.inv'.applyLam 0 L') = _
    have w := (k3.conj.legal.undo hL h1).1
    rw [(k3.conj.legal.undo w h2).2.2.2]; rfl

end HalfTwist

omit [CommRing R] [LinearOrder R] [IsStrictOrderedRing R] [Halvable R] in
/-- C57: half twists fix their arc. -/
theorem C57_fixes_arc (B : Lam Int → Int → Py Enc) (T : Triangulation) (hT : T.Valid) (a : Int) (arc : Lam Int) (h : arc.IsEdgeArc T a)
    (hd : arc.arcDistinctEndpoints = .ok true) (power : Int) (hp : power = 1 ∨ power = -1) (t : HalfTwist) (ht : HalfTwist.create B arc power = .ok t) :
    t.applyLam arc = .ok arc := by
  obtain ⟨a', ns, T1, e1, c, hh, k, k1, k2, k3⟩ := HalfTwist.made hT h hd
  have : k.applyLam arc = .ok arc := by
    rcases k1 with rfl | rfl
    · exact k3.arc h
    · exact k3.arc h.inv'
  exact HalfTwist.fixes B hT h hd hp ht k2 (h.wellFormed hT) this this

/-- C57: half twists fix every lamination without arcs that is disjoint from their arc. -/
theorem C57_fixes_disjoint (P : Lam Int → Py LamClass) (B : Lam Int → Int → Py Enc) (T : Triangulation) (hT : T.Valid) (a : Int) (arc : Lam Int) (h : arc.IsEdgeArc T a)
    (hd : arc.arcDistinctEndpoints = .ok true) (power : Int) (hp : power = 1 ∨ power = -1) (t : HalfTwist) (ht : HalfTwist.create B arc power = .ok t)
    (L : Lam R) (hL : L.NoArcs) (hLt : L.tri = T) (h0 : arc.intersection P L = .ok 0) : t.applyLam L = .ok L := by
  obtain ⟨a', ns, T1, e1, c, hh, k, k1, k2, k3⟩ := HalfTwist.made hT h hd
  rw [h.intersection hT P hL.1 hLt] at h0
  injection h0 with h0
  have hw : L.w a = 0 := by
    have h1 := (hL.2 a (hLt ▸ h.label)).1
    rwa [max_eq_left h1] at h0
  have : k.applyLam L = .ok L := by
    refine k3.still hL hLt ?_
    rcases k1 with rfl | rfl
    · exact hw
    · rwa [Lam.w_inv]
  exact HalfTwist.fixes B hT h hd hp ht k2 hL.1 this this

omit [CommRing R] [LinearOrder R] [IsStrictOrderedRing R] [Halvable R] in
/-- C57: half twists exchange the two ends of their arc and fix all other vertices. -/
theorem C57_vertex_map (B : Lam Int → Int → Py Enc) (T : Triangulation) (hT : T.Valid) (a : Int) (arc : Lam Int) (h : arc.IsEdgeArc T a)
    (hd : arc.arcDistinctEndpoints = .ok true) (power : Int) (hp : power = 1 ∨ power = -1) (t : HalfTwist) (ht : HalfTwist.create B arc power = .ok t)
    (v u : List Int) (hv : T.vertexOf a = .ok v) (hu : T.vertexOf (inv a) = .ok u) :
    ∃ vm, t.encodingPower.vertexMap = .ok vm ∧ v ≠ u ∧ (v, u) ∈ vm ∧ (u, v) ∈ vm ∧
      ∀ z z', (z, z') ∈ vm → z ≠ v → z ≠ u → z' = z := by
  obtain ⟨a', ns, T1, e1, c, hh, k, k1, k2, k3⟩ := HalfTwist.made hT h hd
  obtain ⟨t', g1, _, _, _, _, _, _, _, _, _, g2, _, g3, g4⟩ := C56_construction B T hT a arc h hd power hp
  rw [ht] at g1; cases g1
  obtain ⟨vm, vs, ws, m1, m2, m3, m4, m5, m6, m7⟩ := C43_vertex_map t.encodingPower g2
  have hc := hT.comp
  obtain ⟨v', vs', v1, v2, v3, v4, _⟩ := hc.vertexOf_ok h.label
  rw [hv] at v1; cases v1
  obtain ⟨u', us', u1, u2, u3, u4, _⟩ := hc.vertexOf_ok (isLabel_inv.2 h.label)
  rw [hu] at u1; cases u1
  rw [g3] at m2; rw [g4] at m3
  rw [m2] at v2 u2 m3; cases v2; cases u2; cases m3
  have char : ∀ x y, (x, y) ∈ vm ↔ x ∈ vs ∧ y ∈ vs ∧ t.encodingPower.applyLam (T.curveFromCutSequence x : Lam Int) = .ok (T.curveFromCutSequence y) := by
    intro x y
    have := C43_characterised t.encodingPower g2 vm vs vs m1 (by rw [g3]; exact m2) (by rw [g4]; exact m2) x y
    rwa [g3, g4] at this
  have hvu : v ≠ u := by
    obtain ⟨b, v', u', b1, b2, b3, b4⟩ := C56_distinct_endpoints T hT a arc h
    rw [hd] at b1; cases b1
    rw [hv] at b2; cases b2
    rw [hu] at b3; cases b3
    exact b4.1 rfl
  have ha : a = a' ∨ a = inv a' := by rcases k1 with e | e <;> rw [e] <;> simp [inv_inv]
  have t1 := k3.tail ha hv hu
  have t2 := k3.tail (b := inv a) (v := u) (u := v) (by rcases ha with e | e <;> rw [e] <;> simp [inv_inv]) hu (by rw [inv_inv]; exact hv)
  have w1 : (T.curveFromCutSequence v : Lam Int).WellFormed := (Lam.consistent_link hT ⟨a, h.label, hv⟩).1.1
  have w2 : (T.curveFromCutSequence u : Lam Int).WellFormed := (Lam.consistent_link hT ⟨inv a, isLabel_inv.2 h.label, hu⟩).1.1
  refine ⟨vm, m1, hvu, (char _ _).2 ⟨v3, u3, HalfTwist.fixes B hT h hd hp ht k2 w1 t1 t2⟩, (char _ _).2 ⟨u3, v3, HalfTwist.fixes B hT h hd hp ht k2 w2 t2 t1⟩, ?_⟩
  intro z z' hz n1 n2
  obtain ⟨c1, c2, c3⟩ := (char _ _).1 hz
  obtain ⟨q1, q2, q3, q4⟩ := hc.vertices_mem m2
  obtain ⟨x, hx⟩ := List.exists_mem_of_ne_nil _ (q2 z c1).1.ne
  have lx := (q2 z c1).2.2 x hx
  have hzx : T.vertexOf x = .ok z := by
    obtain ⟨z'', vs'', r1, r2, r3, r4, _⟩ := hc.vertexOf_ok lx
    rw [m2] at r2; cases r2
    rw [r1, q3 z'' r3 z c1 x r4 hx]
  have na : a ∉ z := fun k => n1 (q3 z c1 v v3 a k v4)
  have nia : inv a ∉ z := fun k => n2 (q3 z c1 u u3 (inv a) k u4)
  have f := k3.fixed lx hzx (by rcases k1 with e | e <;> rw [e] <;> assumption) (by rcases k1 with e | e <;> rw [e]; exacts [nia, by rw [inv_inv]; exact na])
  have wz : (T.curveFromCutSequence z : Lam Int).WellFormed := (Lam.consistent_link hT ⟨x, lx, hzx⟩).1.1
  have f' := HalfTwist.fixes B hT h hd hp ht k2 wz f f
  change t.encodingPower.applyLam _ = _ at f'
  have := (char z z).2 ⟨c1, c1, f'⟩
  rw [c3] at f'
  injection f' with f'
  exact hc.link_inj (R := Int) m2 c2 c1 (by unfold curveFromCutSequence at f'; injection f')

end

/-! ## Non-vacuity -/

/-- the arc along the first edge of the four-punctured sphere (a tetrahedron) -/
def sphereArc : Lam Int := ⟨sphere4, [-1, 0, 0, 0, 0, 0], .arc⟩

theorem sphereArc_edge : sphereArc.IsEdgeArc sphere4 0 := by
  have h : sphere4.edgeArcOf 0 = sphereArc := by decide
  rw [← h]
  exact Lam.IsEdgeArc.of_edge (by decide)

theorem sphereArc_ends : sphereArc.arcDistinctEndpoints = .ok true := by decide +kernel

/-- a curve that is disjoint from the arc -/
def sphereDisjoint : Lam Int := ⟨sphere4, [0, 1, 1, 1, 1, 0], .curve⟩

theorem sphereDisjoint_noArcs : sphereDisjoint.NoArcs := by
  refine ⟨⟨sphere4_valid, rfl⟩, fun e he => ?_⟩
  have : e = 0 ∨ e = 1 ∨ e = 2 ∨ e = 3 ∨ e = 4 ∨ e = 5 ∨ e = -1 ∨ e = -2 ∨ e = -3 ∨ e = -4 ∨ e = -5 ∨ e = -6 := by
    obtain ⟨h1, h2⟩ := he
    change -(6 : Int) ≤ e at h1
    change e < (6 : Int) at h2
    omega
  rcases this with rfl | rfl | rfl | rfl | rfl | rfl | rfl | rfl | rfl | rfl | rfl | rfl
  all_goals first
    | exact ⟨by decide, 0, by decide, by decide +kernel⟩
    | exact ⟨by decide, 1, by decide, by decide +kernel⟩

/-- a curve that crosses the arc once -/
def sphereAcross : Lam Int := ⟨sphere4, [1, 1, 0, 0, 1, 1], .curve⟩

example (B : Lam Int → Int → Py Enc) : ∃ t s, HalfTwist.create B sphereArc 1 = .ok t ∧ HalfTwist.create B sphereArc (-1) = .ok s ∧
    t.inverse B = .ok s ∧ t.applyLam sphereArc = .ok sphereArc := by
  obtain ⟨t, h1, _⟩ := C56_construction B sphere4 sphere4_valid 0 sphereArc sphereArc_edge sphereArc_ends 1 (.inl rfl)
  obtain ⟨s, h2, _⟩ := C56_construction B sphere4 sphere4_valid 0 sphereArc sphereArc_edge sphereArc_ends (-1) (.inr rfl)
  exact ⟨t, s, h1, h2, (C56_action (R := Int) B sphere4 sphere4_valid 0 sphereArc sphereArc_edge sphereArc_ends t s h1 h2).1,
    C57_fixes_arc B sphere4 sphere4_valid 0 sphereArc sphereArc_edge sphereArc_ends 1 (.inl rfl) t h1⟩

example : sphereDisjoint.NoArcs ∧ ∀ P, sphereArc.intersection P sphereDisjoint = .ok 0 :=
  ⟨sphereDisjoint_noArcs, fun P => (C56_short P sphere4 sphere4_valid 0 sphereArc sphereArc_edge).2 Int _ ⟨sphere4_valid, rfl⟩ rfl⟩

/-- the half twist moves the curve that crosses the arc: it is not the identity.  The two half twists go in opposite directions. -/
example : (do let t ← HalfTwist.create (fun _ _ => .error .valueError) sphereArc 1; t.applyLam sphereAcross) = .ok ⟨sphere4, [1, 2, 1, 1, 2, 1], .curve⟩ ∧
    (do let t ← HalfTwist.create (fun _ _ => .error .valueError) sphereArc (-1); t.applyLam sphereAcross) = .ok ⟨sphere4, [1, 0, 1, 1, 0, 1], .curve⟩ := by
  decide +kernel

/-- the hypothesis on the boundary twists can be met -/
example : ∃ (t : HalfTwist) (σ : Equiv.Perm (LamOn Int sphere4)), HalfTwist.create (fun _ _ => .error .valueError) sphereArc 1 = .ok t ∧ t.encoding.ActsLam σ ∧
    ∀ k : Int, k ≠ 0 → ∃ p, t.encoding.pow (2 * k) = .ok p ∧ p.Legal ∧ p.source = sphere4 ∧ p.target = sphere4 ∧ p.ActsLam (σ ^ (2 * k)) := by
  obtain ⟨t, h1, _, _, _, h2, h3, h4, _⟩ := C56_construction (fun _ _ => .error .valueError) sphere4 sphere4_valid 0 sphereArc sphereArc_edge sphereArc_ends 1 (.inl rfl)
  have key : ∃ σ : Equiv.Perm (LamOn Int t.encoding.source), t.encoding.ActsLam σ ∧ ∀ k : Int, k ≠ 0 → ∃ p, t.encoding.pow (2 * k) = .ok p ∧ p.Legal ∧ p.source = t.encoding.source ∧
      p.target = t.encoding.source ∧ p.ActsLam (σ ^ (2 * k)) := by
    obtain ⟨σ, s1, s2⟩ := C16_powers (R := Int) t.encoding h2 h3
    refine ⟨σ, s1, fun k _ => ?_⟩
    obtain ⟨p, p1, p2, _, p3, p4, p5, _⟩ := s2 (2 * k)
    exact ⟨p, p1, p2, p3, p4, p5⟩
  generalize hX : t.encoding.source = X at key h4
  subst h4
  obtain ⟨σ, s1, s2⟩ := key
  exact ⟨t, σ, h1, s1, s2⟩

end Curver
