import Verif.Props.Twist
import Verif.Props.HalfTwist
import Verif.Proofs.ShortenMain

/-!
# The laws of `encode_twist`, from those of the twist about the short curve
-/

namespace Curver
open Triangulation

section
variable {R : Type} [CommRing R] [LinearOrder R] [IsStrictOrderedRing R] [Halvable R]

theorem Enc.exists_acts {g i : Enc} {T U : Triangulation} (hg : g.Legal) (hs : g.source = T) (ht : g.target = U) (hi : g.inverse = .ok i) :
    ∃ τ : LamOn R T ≃ LamOn R U, g.ActsLam τ ∧ i.ActsLam τ.symm := by
  subst hs ht
  exact C15_bijection g i hg hi

namespace Lam
variable {P : Lam Int → Py LamClass} {S : Lam Int → Py (Lam Int × Enc)} {c s : Lam Int} {g h : Enc} {p : Int}

/-- all the twists about one short curve -/
theorem twist_family (hs : s.NoArcs) : ∃ σ : Equiv.Perm (LamOn R s.tri), ∀ p t k, Twist.create P s p = .ok t → t.flipMapping = .ok k →
    k.ActsLam (σ ^ p) ∧ ∀ L : LamOn R s.tri, L.1.NoArcs → s.intersection P L.1 = .ok 0 → σ L = L := by
  by_cases h0 : ∃ p t, Twist.create P s p = .ok t
  swap
  · exact ⟨1, fun p t k ht _ => absurd ⟨p, t, ht⟩ h0⟩
  obtain ⟨p, t, ht⟩ := h0
  obtain ⟨r1, r2, a, b, e, X, v, K, hm⟩ := Twist.create_spec hs ht
  subst r1
  obtain ⟨σ, h1, h2⟩ := hm.action (R := R)
  refine ⟨σ, ?_⟩
  intro q u k hu hk
  obtain ⟨s1, s2, hmu⟩ := Twist.create_made hs hm.par hm.short hu
  have he : u.encoding = t.encoding := by
    have := hmu.isBuilt
    rw [s1, hm.isBuilt] at this
    injection this with this
    exact this.symm
  constructor
  · obtain ⟨k', k1, k2⟩ := h1.pow q
    unfold Twist.flipMapping at hk
    rw [he, s2] at hk
    cases hk.symm.trans k1
    exact k2
  · intro L hL hi
    obtain ⟨μ, hμ⟩ := Loop.exists_min a X L
    rw [hm.short.intersection hm.cls P hL hμ] at hi
    exact hm.short.loop.disjoint h2 hL hμ (by injection hi)

/-- what `encode_twist` does when the short image is a curve -/
theorem encodeTwist_cases (hS : S c = .ok (s, g)) (hcls : s.cls = .curve) (ha : c.encodeTwistWith S P p = .ok h) :
    ((c.isPeripheral P = .ok true ∨ p = 0) ∧ c.tri.idEncoding = .ok h) ∨
      (s.isPeripheral P = .ok true ∧ ∃ i, s.tri.idEncoding = .ok i ∧ i.conjugateBy g = .ok h) ∨
      (s.isPeripheral P = .ok false ∧ c.isPeripheral P = .ok false ∧ ∃ t k, Twist.create P s p = .ok t ∧ t.flipMapping = .ok k ∧ k.conjugateBy g = .ok h) := by
  unfold encodeTwistWith at ha
  rw [py_bind_eq_ok] at ha
  obtain ⟨b, h1, ha⟩ := ha
  by_cases hb : b = true ∨ p = 0
  · rw [if_pos hb] at ha
    refine .inl ⟨?_, ha⟩
    rcases hb with rfl | hb
    · exact .inl h1
    · exact .inr hb
  · rw [if_neg hb, hS, py_bind_ok] at ha
    dsimp only at ha
    have hc : s.componentsWith S = .ok [(s, 1)] := by unfold componentsWith; rw [hcls]; rfl
    rw [hc, py_bind_ok, componentTwists] at ha
    simp only [py_bind_eq_ok] at ha
    obtain ⟨hs, ⟨q, h2, h3⟩, i, h4, k, h5, h6⟩ := ha
    cases q with
    | true =>
      rw [if_pos rfl] at h3
      cases h3
      cases h5
      exact .inr (.inl ⟨h2, _, h4, h6⟩)
    | false =>
      rw [if_neg (by simp)] at h3
      simp only [py_bind_eq_ok] at h3
      obtain ⟨t, h7, k', h8, _, h9, h10⟩ := h3
      cases h9
      cases h10
      cases h5
      rw [mul_one] at h7
      refine .inr (.inr ⟨h2, ?_, t, _, h7, h8, h6⟩)
      cases b with
      | true => exact absurd (.inl rfl) hb
      | false => exact h1

theorem keeps_conj {k : Enc} (hk : k.Legal) (hg : g.Legal) (hm : k.conjugateBy g = .ok h) (hkm : k.kind = .mappingClass) (hgk : g.kind ≠ .encoding) (hs : k.source = g.target) :
    ∃ i, g.inverse = .ok i ∧ ∀ L : Lam R, L.WellFormed → h.applyLam L = (do let L1 ← g.applyLam L; let L2 ← k.applyLam L1; i.applyLam L2) := by
  obtain ⟨k', i, h1, h2, -, -, -, -, h3, -⟩ := C15_conjugate k g hk hg hkm hgk hs.symm
  cases hm.symm.trans h1
  exact ⟨i, h2, fun L hL => h3 R L hL⟩

/-- the twists about a curve are the powers of one bijection, which fixes what does not meet the curve -/
theorem encodeTwist_family (H : Shortens c s g) (hc : c.NoArcs) (hS : S c = .ok (s, g)) (hcls : s.cls = .curve) :
    ∃ σ : Equiv.Perm (LamOn R c.tri), ∀ p h, c.encodeTwistWith S P p = .ok h →
      h.ActsLam (σ ^ p) ∧ ∀ L : LamOn R c.tri, L.1.NoArcs → c.intersectionWith S L.1 = .ok 0 → σ L = L := by
  have hsn := H.noArcs hc
  obtain ⟨i, i1, -⟩ := C15_inverse (R := R) g H.legal
  obtain ⟨τ, t1, t2⟩ := Enc.exists_acts (R := R) H.legal H.source H.target i1
  obtain ⟨σ, hσ⟩ := twist_family (R := R) (P := P) hsn
  have triv : ∀ {h}, c.tri.idEncoding = .ok h → ∀ L : LamOn R c.tri, h.applyLam L.1 = .ok L.1 := by
    intro h hi L
    obtain ⟨j, j1, -, -, -, -, j2, -⟩ := C14_identity c.tri hc.1.1
    cases hi.symm.trans j1
    exact j2 R L.1 L.2.1.1 L.2.2
  have triv' : ∀ {h k}, s.tri.idEncoding = .ok k → k.conjugateBy g = .ok h → ∀ L : LamOn R c.tri, h.applyLam L.1 = .ok L.1 := by
    intro h k hk hm L
    obtain ⟨j, j1, j2, j3, j4, j5, j6, -⟩ := C14_identity s.tri hsn.1.1
    cases hk.symm.trans j1
    obtain ⟨i', i2, i3⟩ := keeps_conj (R := R) j2 H.legal hm j3 H.kind (j4.trans H.target.symm)
    cases i1.symm.trans i2
    rw [i3 L.1 L.2.1.1, t1 L, py_bind_ok, j6 R _ (τ L).2.1.1 (τ L).2.2, py_bind_ok, t2, Equiv.symm_apply_apply]
  by_cases hper : c.isPeripheral P = .ok true ∨ s.isPeripheral P = .ok true
  · refine ⟨1, fun p h ha => ⟨fun L => ?_, fun _ _ _ => rfl⟩⟩
    rw [one_zpow]
    rcases encodeTwist_cases hS hcls ha with ⟨_, q⟩ | ⟨_, k, q1, q2⟩ | ⟨q1, q2, _⟩
    · exact triv q L
    · exact triv' q1 q2 L
    · rcases hper with q | q
      · cases q2.symm.trans q
      · cases q1.symm.trans q
  · rw [not_or] at hper
    by_cases hex : ∃ p t k, Twist.create P s p = .ok t ∧ t.flipMapping = .ok k
    swap
    · refine ⟨1, fun p h ha => ⟨fun L => ?_, fun _ _ _ => rfl⟩⟩
      rw [one_zpow]
      rcases encodeTwist_cases hS hcls ha with ⟨_, q⟩ | ⟨_, k, q1, q2⟩ | ⟨q1, q2, t, k, q3, q4, _⟩
      · exact triv q L
      · exact triv' q1 q2 L
      · exact absurd ⟨p, t, k, q3, q4⟩ hex
    obtain ⟨p0, u0, k0, e1, e2⟩ := hex
    refine ⟨τ.symm.permCongrHom σ, fun p h ha => ⟨fun L => ?_, ?_⟩⟩
    · rw [← map_zpow]
      rcases encodeTwist_cases hS hcls ha with ⟨q, q'⟩ | ⟨q, _⟩ | ⟨q1, q2, t, k, q3, q4, q5⟩
      · rcases q with q | rfl
        · exact absurd q hper.1
        · rw [zpow_zero, map_one]
          exact triv q' L
      · exact absurd q hper.2
      · obtain ⟨a1, -⟩ := hσ p t k q3 q4
        obtain ⟨r1, r2, a, b, e, X, v, K, hm⟩ := Twist.create_spec hsn q3
        obtain ⟨j1, j2, j3, j4, j5⟩ := hm.mapping q4
        rw [r1] at j2 j3
        obtain ⟨i', i2, i3⟩ := keeps_conj (R := R) j1 H.legal q5 j4 H.kind (j2.trans H.target.symm)
        cases i1.symm.trans i2
        rw [i3 L.1 L.2.1.1, t1 L, py_bind_ok, a1 (τ L), py_bind_ok, t2]
        rfl
    · intro L hL hi
      have hτ : (τ L).1.NoArcs := H.legal.noArcs hL (t1 L)
      have key : s.intersection P (τ L).1 = .ok 0 := by
        obtain ⟨r1, r2, a, b, e, X, v, K, hm⟩ := Twist.create_spec hsn e1
        have hsh := hm.short
        rw [r1] at hsh
        obtain ⟨j, j0, j1⟩ := hsh.short hcls P
        obtain ⟨j', j2, -, -, -, -, j3, -⟩ := C14_identity s.tri hsn.1.1
        cases j0.symm.trans j2
        rw [← hi]
        unfold Lam.intersection Lam.intersectionWith
        simp only [(τ L).2.2, L.2.2, beq_self_eq_true, pyAssert, if_true, py_bind_ok, j1, hS, j3 R (τ L).1 (τ L).2.1.1 (τ L).2.2, t1 L, hsh.peripheralComponents,
          List.mapM_nil]
      have := (hσ p0 u0 k0 e1 e2).2 (τ L) hτ key
      change τ.symm (σ (τ L)) = L
      rw [this, Equiv.symm_apply_apply]

end Lam
end

theorem performLam_cls {R : Type} [CommRing R] [LinearOrder R] [Halvable R] : ∀ {ms : List LMove} {L L1 N : Lam R}, performLam ms L = .ok L1 → N.tri = L.tri → N.geometric = L.geometric →
    performLam ms N = .ok ⟨L1.tri, L1.geometric, N.cls⟩
  | [], L, L1, N, h, ht, hg => by cases h; rw [← ht, ← hg]; rfl
  | m :: ms, L, L1, N, h, ht, hg => by
    simp only [performLam, py_bind_eq_ok] at h
    obtain ⟨L', h1, h2⟩ := h
    have := Move.applyLam_cls h1 ht hg
    rw [performLam, this, py_bind_ok]
    exact performLam_cls (N := ⟨L'.tri, L'.geometric, N.cls⟩) h2 rfl rfl

theorem Enc.applyLam_cls {R : Type} [CommRing R] [LinearOrder R] [Halvable R] {h : Enc} {L L1 N : Lam R} (ha : h.applyLam L = .ok L1) (ht : N.tri = L.tri) (hg : N.geometric = L.geometric) :
    h.applyLam N = .ok ⟨L1.tri, L1.geometric, N.cls⟩ := by
  have hs := applyLam_source ha
  rw [applyLam_eq, if_pos hs] at ha
  rw [applyLam_eq, if_pos (hs.trans ht.symm)]
  exact performLam_cls ha ht hg

namespace Lam
variable {P : Lam Int → Py LamClass} {S : Lam Int → Py (Lam Int × Enc)} {c s : Lam Int} {g h : Enc} {p : Int}

/-- the curve itself is fixed -/
theorem encodeTwist_fixes (H : Shortens c s g) (hc : c.NoArcs) (hS : S c = .ok (s, g)) (hcls : s.cls = .curve) (ha : c.encodeTwistWith S P p = .ok h) : h.applyLam c = .ok c := by
  have hsn := H.noArcs hc
  obtain ⟨K, k1, k2, k3⟩ := H.acts
  obtain ⟨i, i1, -, -, -, -, i2, -⟩ := C15_inverse (R := Int) g H.legal
  rcases encodeTwist_cases hS hcls ha with ⟨q, q'⟩ | ⟨q, k, q1, q2⟩ | ⟨q1, q2, t, k, q3, q4, q5⟩
  · obtain ⟨j, j1, -, -, -, -, j2, -⟩ := C14_identity c.tri hc.1.1
    cases q'.symm.trans j1
    exact j2 Int c hc.1 rfl
  · obtain ⟨j, j1, j2, j3, j4, j5, j6, -⟩ := C14_identity s.tri hsn.1.1
    cases q1.symm.trans j1
    obtain ⟨i', i3, i4⟩ := keeps_conj (R := Int) j2 H.legal q2 j3 H.kind (j4.trans H.target.symm)
    cases i1.symm.trans i3
    rw [i4 c hc.1, k1, py_bind_ok, j6 Int K ⟨by rw [k2]; exact H.wf.1, by rw [k2, k3]; exact H.wf.2⟩ k2, py_bind_ok, i2 c K hc.1 k1]
  · obtain ⟨r1, r2, a, b, e, X, v, Z, hm⟩ := Twist.create_spec hsn q3
    obtain ⟨j1, j2, j3, j4, j5⟩ := hm.mapping q4
    rw [r1] at j2 j3
    obtain ⟨i', i3, i4⟩ := keeps_conj (R := Int) j1 H.legal q5 j4 H.kind (j2.trans H.target.symm)
    cases i1.symm.trans i3
    have hfix := (C54_fixes_curve P s p t hsn q3).2
    obtain ⟨k', e1, e2⟩ := C53_accelerated (R := Int) P s p t hsn q3
    cases q4.symm.trans e1
    obtain ⟨M, m1, m2, -⟩ := e2 s hsn rfl
    cases hfix.symm.trans m1
    have := Enc.applyLam_cls m2 k2 k3
    rw [← k2, ← k3] at this
    rw [i4 c hc.1, k1, py_bind_ok, this, py_bind_ok, i2 c K hc.1 k1]

end Lam
end Curver
