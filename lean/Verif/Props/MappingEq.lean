import Verif.Proofs.MappingEq
import Verif.Props.Encoding

/-!
# C47, C18: equality, hashing and order of mappings

`Enc.Agree` and `Enc.Trivial` (Spec/MappingEq.lean) say what `==` and `order` compare: the image of the edges of the
triangulation, as a multiarc, and the action on first homology.
-/

namespace Curver
open Triangulation

/-! ## C47 -/

/-- C47: `==` between mappings never raises and says whether they agree. -/
theorem C47_eq (h k : Enc) (hh : h.Legal) (hk : k.Legal) : ∃ b, h.eq k = .ok b ∧ (b = true ↔ h.Agree k) := hh.eq_ok hk

/-- C47: `==` is reflexive, symmetric and transitive. -/
theorem C47_equivalence (h k l : Enc) (hh : h.Legal) (hk : k.Legal) (hl : l.Legal) :
    h.eq h = .ok true ∧ (h.eq k = .ok true → k.eq h = .ok true) ∧ (h.eq k = .ok true → k.eq l = .ok true → h.eq l = .ok true) := by
  have key : ∀ a b : Enc, a.Legal → b.Legal → (a.eq b = .ok true ↔ a.Agree b) := by
    intro a b ha hb
    obtain ⟨c, h1, h2⟩ := ha.eq_ok hb
    rw [h1, ← h2]
    exact ⟨fun h => Except.ok.inj h, fun h => by rw [h]⟩
  rw [key h h hh hh, key h k hh hk, key k h hk hh, key k l hk hl, key h l hh hl]
  exact ⟨.refl hh, .symm, .trans hk⟩

/-- C47: equal mappings have equal hashes (and hashing never raises). -/
theorem C47_hash (h k : Enc) (hh : h.Legal) (hk : k.Legal) (he : h.eq k = .ok true) :
    ∃ key, h.hashKey = .ok key ∧ k.hashKey = .ok key := by
  obtain ⟨b, h1, h2⟩ := hh.eq_ok hk
  have hA := h2.1 (Except.ok.inj (h1.symm.trans he))
  obtain ⟨L, l1, _⟩ := hh.selfImage_ok
  have l2 : k.selfImage = .ok L := by
    rw [← l1]
    unfold Enc.selfImage
    rw [hA.edges, hA.source]
  exact ⟨_, by unfold Enc.hashKey; rw [l1]; rfl, by unfold Enc.hashKey; rw [l2]; rfl⟩

/-- C47: mappings with different sources or targets are never equal. -/
theorem C47_ends (h k : Enc) (hne : h.source ≠ k.source ∨ h.target ≠ k.target) : h.eq k = .ok false := by
  unfold Enc.eq
  rw [if_pos]
  · rfl
  · rw [Triangulation.eq_decide, Triangulation.eq_decide]
    rcases hne with h | h <;> simp [h]

/-- C47: mappings that are the same map are equal, so `==` only says `False` of maps that differ. -/
theorem C47_same_map (h k : Enc) (hh : h.Legal) (hk : k.Legal) (hs : h.SameMap k) : h.eq k = .ok true := by
  obtain ⟨b, h1, h2⟩ := hh.eq_ok hk
  rw [h1, h2.2]
  refine ⟨hs.source, hs.target, hs.lam Int _ hh.path.valid_source.asLamination_consistent.1, ?_⟩
  intro x y z hx hy hz
  rw [hs.hom x hx] at hy
  cases hy.symm.trans hz
  exact .refl _

/-- C47: equality is a congruence for composition on the outside: if `h == k` then `g * h == g * k`. -/
theorem C47_mul_left (g h k gh gk : Enc) (hg : g.Legal) (hh : h.Legal) (hk : k.Legal) (he : h.eq k = .ok true)
    (h1 : g.mul h = .ok gh) (h2 : g.mul k = .ok gk) : gh.eq gk = .ok true := by
  have e1 : g.source = h.target := by
    by_contra hc; rw [C14_compose_mismatch g h hc] at h1; cases h1
  have e2 : g.source = k.target := by
    by_contra hc; rw [C14_compose_mismatch g k hc] at h2; cases h2
  obtain ⟨a, a1, a2, a3⟩ := C14_composition g h hg hh e1
  obtain ⟨b, b1, b2, b3⟩ := C14_composition g k hg hk e2
  cases a1.symm.trans h1
  cases b1.symm.trans h2
  obtain ⟨c, c1, c2⟩ := hh.eq_ok hk
  have hA := c2.1 (Except.ok.inj (c1.symm.trans he))
  obtain ⟨d, d1, d2⟩ := a2.eq_ok b2
  rw [d1, d2.2]
  refine ⟨by rw [a3.source, b3.source]; exact hA.source, by rw [a3.target, b3.target], ?_, ?_⟩
  · have hw := hh.path.valid_source.asLamination_consistent.1
    rw [a3.source, a3.lam Int _ hw, b3.lam Int _ hw, hA.edges]
  · intro x y z hx hy hz
    rw [a3.hom x hx, py_bind_eq_ok] at hy
    rw [b3.hom x hx, py_bind_eq_ok] at hz
    obtain ⟨y', y1, y2⟩ := hy
    obtain ⟨z', z1, z2⟩ := hz
    have tx : x.tri = h.source := by
      rw [Enc.applyHom_eq] at y1; split at y1
      · rename_i h'; exact h'.symm
      · cases y1
    have i1 := hh.act_ok hx tx
    have i2 := hk.act_ok hx (tx.trans hA.source)
    cases i1.1.symm.trans y1
    cases i2.1.symm.trans z1
    exact (hg.hom_congr i1.2.1 i2.2.1 y2 z2).2 (hA.homology x _ _ hx y1 z1)

/-- C47: laminations are equal when their triangulations have the same gluing and their weights are equal. -/
theorem C47_laminations {R : Type} [DecidableEq R] (L M : Lam R) (hL : L.tri.Valid) (hM : M.tri.Valid) :
    L.eq M = true ↔ (∀ a b c, L.tri.Glues a b c ↔ M.tri.Glues a b c) ∧ L.geometric = M.geometric := by
  unfold Lam.eq
  rw [Bool.and_eq_true, C06_eq_iff_same_gluing _ _ hL hM, decide_eq_true_eq]

/-- C47: equality of laminations is an equivalence relation and equal laminations have equal hashes. -/
theorem C47_laminations_equivalence {R : Type} [DecidableEq R] (L M N : Lam R) :
    L.eq L = true ∧ (L.eq M = true → M.eq L = true ∧ L.hashKey = M.hashKey) ∧ (L.eq M = true → M.eq N = true → L.eq N = true) := by
  unfold Lam.eq
  simp only [Triangulation.eq_decide, Bool.and_eq_true, decide_eq_true_eq]
  refine ⟨⟨trivial, trivial⟩, fun h => ⟨⟨h.1.symm, h.2.symm⟩, h.2⟩, fun h k => ⟨h.1.trans k.1, h.2.trans k.2⟩⟩

/-! ## C18 -/

/-- C18: `order()` is defined; when it is `n > 0` then `h ** n` is trivial and no smaller positive power is; when it is `0` no power
up to `max_order()` is trivial. -/
theorem C18_order (h : Enc) (hh : h.Legal) (hk : h.kind = .mappingClass) :
    ∃ (n : Nat) (N : Int), h.order = .ok n ∧ h.source.maxOrder = .ok N ∧
      (0 < n → (n : Int) ≤ N ∧ (∃ p, h.pow n = .ok p ∧ p.Trivial) ∧ ∀ i : Nat, 0 < i → i < n → ∃ p, h.pow i = .ok p ∧ ¬ p.Trivial) ∧
      (n = 0 → ∀ i : Nat, 0 < i → (i : Int) ≤ N → ∃ p, h.pow i = .ok p ∧ ¬ p.Trivial) := by
  have hst := hh.mappingClass hk
  obtain ⟨N, hN, _⟩ := hh.path.valid_source.maxOrder_ok
  obtain ⟨σ, tS, q, h1, h2, h3, h4⟩ := Enc.order_ok hh hst hN
  have key : ∀ i : Nat, ∃ p, h.pow i = .ok p ∧
      (Enc.TrivAt h σ tS (Enc.edgesOn h.source hh.path.valid_source) i ↔ p.Trivial) := by
    intro i
    obtain ⟨p, p1, p2, p3, p4, p5, p6, p7⟩ := Enc.pow_eq hh hk i
    refine ⟨p, p1, Enc.trivAt_iff hh hst h1 h2 p4 ?_ ?_⟩
    · rw [p6 Int _ hh.path.valid_source.asLamination_consistent.1 rfl]
      unfold Enc.applyLamPow
      rw [if_neg (by omega), Int.toNat_natCast]
    · intro x hx tx
      rw [p7 x hx tx]
      unfold Enc.applyHomPow
      rw [if_neg (by omega), Int.toNat_natCast]
  refine ⟨q, N, h3, hN, ?_, ?_⟩
  · intro hq
    rcases h4 with ⟨a, _⟩ | ⟨_, a, b, c⟩
    · omega
    · obtain ⟨p, p1, p2⟩ := key q
      refine ⟨a, ⟨p, p1, p2.1 b⟩, fun i h1 h2 => ?_⟩
      obtain ⟨p, p1, p2⟩ := key i
      exact ⟨p, p1, fun H => c i h1 h2 (p2.2 H)⟩
  · intro hq i h1 h2
    rcases h4 with ⟨_, a⟩ | ⟨b, _⟩
    · obtain ⟨p, p1, p2⟩ := key i
      exact ⟨p, p1, fun H => a i h1 h2 (p2.2 H)⟩
    · omega

/-- C18: the mapping is trivial exactly when it equals `id_encoding`. -/
theorem C18_trivial_iff (h p : Enc) (hh : h.Legal) (hk : h.kind = .mappingClass) (hp : h.source.idEncoding = .ok p) :
    h.Trivial ↔ h.eq p = .ok true := by
  obtain ⟨p', p1, p2, p3, p4, p5, p6, p7⟩ := C14_identity h.source hh.path.valid_source
  cases hp.symm.trans p1
  obtain ⟨b, h1, h2⟩ := hh.eq_ok p2
  have : h.eq p = .ok true ↔ h.Agree p := by
    rw [h1, ← h2]; exact ⟨fun h => Except.ok.inj h, fun h => by rw [h]⟩
  rw [this]
  have hid := p6 Int _ hh.path.valid_source.asLamination_consistent.1 rfl
  constructor
  · intro H
    refine ⟨p4.symm, by rw [p5]; exact (hh.mappingClass hk).symm, H.edges.trans hid.symm, ?_⟩
    intro x y z hx hy hz
    have tx : x.tri = h.source := by
      rw [Enc.applyHom_eq] at hy; split at hy
      · rename_i h'; exact h'.symm
      · cases hy
    cases (p7 x hx tx).symm.trans hz
    exact H.homology x y hx hy
  · intro H
    refine ⟨H.edges.trans hid, ?_⟩
    intro x y hx hy
    have tx : x.tri = h.source := by
      rw [Enc.applyHom_eq] at hy; split at hy
      · rename_i h'; exact h'.symm
      · cases hy
    exact H.homology x y x hx hy (p7 x hx tx)

/-- C18: `is_identity`, `is_periodic` and `is_in_torelli`. -/
theorem C18_predicates (h : Enc) (hh : h.Legal) (hk : h.kind = .mappingClass) :
    ∃ (n : Nat) (a b c : Bool), h.order = .ok n ∧ h.isIdentity = .ok a ∧ h.isPeriodic = .ok b ∧ h.isInTorelli = .ok c ∧
      (a = true ↔ n = 1) ∧ (b = true ↔ 0 < n) ∧
      (c = true ↔ ∀ x y : Hom, x.WellFormed → h.applyHom x = .ok y → y.Homologous x) := by
  obtain ⟨n, N, h1, _⟩ := C18_order h hh hk
  obtain ⟨c, h2, h3⟩ := Enc.isInTorelli_ok hh (hh.mappingClass hk)
  refine ⟨n, n == 1, decide (n > 0), c, h1, ?_, ?_, h2, by simp, by simp, h3⟩
  · unfold Enc.isIdentity; rw [h1]; rfl
  · unfold Enc.isPeriodic; rw [h1]; rfl

/-- C18: `is_identity()` says whether the mapping class is trivial. -/
theorem C18_identity (h : Enc) (hh : h.Legal) (hk : h.kind = .mappingClass) :
    ∃ a, h.isIdentity = .ok a ∧ (a = true ↔ h.Trivial) := by
  obtain ⟨N, hN, hpos⟩ := hh.path.valid_source.maxOrder_ok
  have hst := hh.mappingClass hk
  obtain ⟨σ, tS, q, h1, h2, h3, h4⟩ := Enc.order_ok hh hst hN
  have key := Enc.trivAt_iff (p := h) (n := 1) hh hst h1 h2 rfl
    (Enc.repeatM_one _ _).symm (fun x _ _ => (Enc.repeatM_one _ _).symm)
  refine ⟨q == 1, by unfold Enc.isIdentity; rw [h3]; rfl, ?_⟩
  rw [beq_iff_eq, ← key]
  rcases h4 with ⟨a, b⟩ | ⟨a, b, c, d⟩
  · have := b 1 (by omega) (by omega)
    constructor
    · intro h; omega
    · intro h; exact absurd h this
  · constructor
    · rintro rfl; exact c
    · intro h
      by_contra hne
      exact d 1 (by omega) (by omega) h

/-! ## concrete cases -/

example : (torus.encode [.dict [(0, -2), (1, -3), (2, -1)]] >>= Enc.order) = .ok 6 ∧ torusTwist.order = .ok 0 ∧ torus.maxOrder = .ok 6 := by
  decide +kernel

/-- The hyperelliptic involution of the once punctured torus fixes every edge but is not equal to the identity: the homology is needed. -/
example : ∃ h p, torus.encode [.dict [(0, -1), (1, -2), (2, -3)]] = .ok h ∧ torus.idEncoding = .ok p ∧ h.selfImage = p.selfImage ∧
    h.eq p = .ok false ∧ h.order = .ok 2 := ⟨_, _, rfl, rfl, by decide +kernel⟩

/-- Two words for the same mapping class are equal although their moves differ. -/
example : ∃ g h p, torusTwist.inverse = .ok g ∧ torusTwist.mul g = .ok h ∧ torus.idEncoding = .ok p ∧ h.eq p = .ok true ∧ h.len = 4 ∧ p.len = 1 :=
  ⟨_, _, _, rfl, rfl, rfl, by decide +kernel⟩

end Curver
