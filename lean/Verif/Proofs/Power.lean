import Verif.Proofs.Trim
import Mathlib.Algebra.Group.End

namespace Curver
open Triangulation
namespace Enc

section
variable {R : Type} [CommRing R] [LinearOrder R] [Halvable R]

theorem performLam_replicate (s : List LMove) (n : Nat) (L : Lam R) :
    performLam (List.replicate n s).flatten.reverse L = repeatM (performLam s.reverse) n L := by
  induction n generalizing L with
  | zero => rfl
  | succ n ih =>
    rw [List.replicate_succ', List.flatten_append, List.reverse_append, performLam_append]
    simp only [List.flatten_cons, List.flatten_nil, List.append_nil, repeatM]
    cases performLam s.reverse L with
    | error e => rfl
    | ok L' => simp only [py_bind_ok]; exact ih L'

theorem performHom_replicate (s : List LMove) (n : Nat) (x : Hom) :
    performHom (List.replicate n s).flatten.reverse x = repeatM (performHom s.reverse) n x := by
  induction n generalizing x with
  | zero => rfl
  | succ n ih =>
    rw [List.replicate_succ', List.flatten_append, List.reverse_append, performHom_append]
    simp only [List.flatten_cons, List.flatten_nil, List.append_nil, repeatM]
    cases performHom s.reverse x with
    | error e => rfl
    | ok L' => simp only [py_bind_ok]; exact ih L'

end

theorem path_replicate {T : Triangulation} {s : List LMove} (h : Path T s.reverse T) (n : Nat) :
    Path T (List.replicate n s).flatten.reverse T := by
  induction n with
  | zero => exact .nil T h.valid_source
  | succ n ih =>
    rw [List.replicate_succ', List.flatten_append, List.reverse_append]
    simp only [List.flatten_cons, List.flatten_nil, List.append_nil]
    exact h.append ih

theorem replicate_ne_nil {s : List LMove} (hs : s ≠ []) {n : Nat} (hn : 0 < n) : (List.replicate n s).flatten ≠ [] := by
  obtain ⟨n, rfl⟩ : ∃ m, n = m + 1 := ⟨n - 1, by omega⟩
  rw [List.replicate_succ, List.flatten_cons]
  intro h
  exact hs (List.append_eq_nil_iff.1 h).1

/-- a positive power -/
theorem create_replicate {h : Enc} (hh : h.Legal) (hst : h.source = h.target) {n : Nat} (hn : 0 < n) :
    ∃ p, create .mappingClass (List.replicate n h.sequence).flatten = .ok p ∧ p.Legal ∧ p.kind = .mappingClass ∧
      p.source = h.source ∧ p.target = h.source ∧
      (∀ (R : Type) [CommRing R] [LinearOrder R] [IsStrictOrderedRing R] [Halvable R] (L : Lam R), L.WellFormed →
        p.applyLam L = repeatM h.applyLam n L) ∧ ∀ x : Hom, x.WellFormed → p.applyHom x = repeatM h.applyHom n x := by
  have hp : Path h.source h.sequence.reverse h.source := by
    have := hh.path; rwa [← hst] at this
  have hr := path_replicate hp n
  have hne := replicate_ne_nil hh.nonempty hn
  refine ⟨_, create_eq _ hne hr, legal_mk _ hne hr (fun _ => rfl), rfl, rfl, rfl, ?_, ?_⟩
  · intro R _ _ _ _ L hL
    rw [(sameMap_trim .mappingClass .mappingClass hr).lam R L hL, applyLam_eq]
    by_cases ht : h.source = L.tri
    · rw [if_pos ht]
      simp only [performed]
      rw [performLam_replicate]
      clear hn hr hne
      induction n generalizing L with
      | zero => rfl
      | succ n ih =>
        simp only [repeatM]
        rw [applyLam_eq, if_pos ht, performed]
        cases hq : performLam h.sequence.reverse L with
        | error e => rfl
        | ok L' =>
          obtain ⟨l1, l2, l3, l4⟩ := hp.performLam hL ht.symm hq
          simp only [py_bind_ok]
          exact ih L' l2 l1.symm
    · rw [if_neg ht]
      obtain ⟨n, rfl⟩ : ∃ m, n = m + 1 := ⟨n - 1, by omega⟩
      simp only [repeatM]
      rw [applyLam_eq, if_neg ht]; rfl
  · intro L hL
    rw [(sameMap_trim .mappingClass .mappingClass hr).hom L hL, applyHom_eq]
    by_cases ht : h.source = L.tri
    · rw [if_pos ht]
      simp only [performed]
      rw [performHom_replicate]
      clear hn hr hne
      induction n generalizing L with
      | zero => rfl
      | succ n ih =>
        simp only [repeatM]
        rw [applyHom_eq, if_pos ht, performed]
        obtain ⟨L', hq, l1, l2⟩ := hp.performHom hL ht.symm
        rw [hq]
        simp only [py_bind_ok]
        exact ih L' l2 l1.symm
    · rw [if_neg ht]
      obtain ⟨n, rfl⟩ : ∃ m, n = m + 1 := ⟨n - 1, by omega⟩
      simp only [repeatM]
      rw [applyHom_eq, if_neg ht]; rfl

/-- the identity encoding -/
theorem _root_.Curver.Triangulation.Valid.idEncoding_spec {T : Triangulation} (hT : T.Valid) :
    ∃ p, T.idEncoding = .ok p ∧ p.Legal ∧ p.kind = .mappingClass ∧ p.source = T ∧ p.target = T ∧
      (∀ (R : Type) [CommRing R] [LinearOrder R] [IsStrictOrderedRing R] [Halvable R] (L : Lam R), L.WellFormed → L.tri = T →
        p.applyLam L = .ok L) ∧ ∀ x : Hom, x.WellFormed → x.tri = T → p.applyHom x = .ok x := by
  obtain ⟨m, h1, h2, h3, h4, h5⟩ := hT.idEncoding
  refine ⟨_, h1, ⟨by simp, ?_, fun _ => rfl⟩, rfl, rfl, rfl, ?_, ?_⟩
  · have := Path.single h2
    rwa [h3, h4] at this
  · intro R _ _ _ _ L hL ht
    rw [applyLam_eq, if_pos ht.symm]
    simp only [performed, List.reverse_singleton, performLam]
    rw [h2.isIdentity_applyLam h5 hL (ht.trans h3.symm)]; rfl
  · intro x hx ht
    rw [applyHom_eq, if_pos ht.symm]
    simp only [performed, List.reverse_singleton, performHom]
    rw [h2.isIdentity_applyHom h5 hx (ht.trans h3.symm)]; rfl

theorem pow_eq {h : Enc} (hh : h.Legal) (hk : h.kind = .mappingClass) (k : Int) :
    ∃ p, h.pow k = .ok p ∧ p.Legal ∧ p.kind = .mappingClass ∧ p.source = h.source ∧ p.target = h.source ∧
      (∀ (R : Type) [CommRing R] [LinearOrder R] [IsStrictOrderedRing R] [Halvable R] (L : Lam R), L.WellFormed → L.tri = h.source →
        p.applyLam L = h.applyLamPow L k) ∧ ∀ x : Hom, x.WellFormed → x.tri = h.source → p.applyHom x = h.applyHomPow x k := by
  have hst := hh.mappingClass hk
  unfold pow applyLamPow applyHomPow
  rcases lt_trichotomy k 0 with h0 | rfl | h0
  · rw [if_neg (by omega), if_neg (by omega), inverse_eq hh, py_bind_ok]
    have hi : h.inv'.Legal := hh.inv'
    obtain ⟨p, h1, h2, h3, h4, h5, h6, h7⟩ := create_replicate hi (hst.symm) (n := k.natAbs) (by omega)
    have e : (-k).toNat = k.natAbs := by omega
    refine ⟨p, h1, h2, h3, h4.trans hst.symm, h5.trans hst.symm, ?_, ?_⟩
    · intro R _ _ _ _ L hL ht
      rw [h6 R L hL, if_pos h0, py_bind_ok, e]; rfl
    · intro L hL ht
      rw [h7 L hL, if_pos h0, py_bind_ok, e]; rfl
  · rw [if_pos rfl]
    obtain ⟨p, h1, h2, h3, h4, h5, h6, h7⟩ := hh.path.valid_source.idEncoding_spec
    exact ⟨p, h1, h2, h3, h4, h5, fun R _ _ _ _ L hL ht => by rw [h6 R L hL ht]; rfl, fun x hx ht => by rw [h7 x hx ht]; rfl⟩
  · rw [if_neg (by omega), if_pos h0]
    obtain ⟨p, h1, h2, h3, h4, h5, h6, h7⟩ := create_replicate hh hst (n := k.toNat) (by omega)
    refine ⟨p, h1, h2, h3, h4, h5, ?_, ?_⟩
    · intro R _ _ _ _ L hL ht
      rw [h6 R L hL, if_neg (by omega)]
    · intro L hL ht
      rw [h7 L hL, if_neg (by omega)]

theorem repeatM_actsLam {R : Type} [CommRing R] [LinearOrder R] [Halvable R] {h : Enc} {T : Triangulation} {σ : Equiv.Perm (LamOn R T)} (hs : h.ActsLam σ) (n : Nat)
    (L : LamOn R T) : repeatM h.applyLam n L.1 = .ok ((σ ^ n) L).1 := by
  induction n generalizing L with
  | zero => rfl
  | succ n ih =>
    simp only [repeatM]
    rw [hs L, py_bind_ok, ih, pow_succ]; rfl

theorem repeatM_actsHom {h : Enc} {T : Triangulation} {τ : Equiv.Perm (H1 T)} (hs : h.ActsHom τ) (n : Nat)
    (x : HomOn T) : ∃ y : HomOn T, repeatM h.applyHom n x.1 = .ok y.1 ∧ (τ ^ n) x.cls = y.cls := by
  induction n generalizing x with
  | zero => exact ⟨x, rfl, rfl⟩
  | succ n ih =>
    obtain ⟨z, h1, h2⟩ := hs x
    obtain ⟨y, h3, h4⟩ := ih z
    refine ⟨y, ?_, ?_⟩
    · simp only [repeatM]; rw [h1, py_bind_ok, h3]
    · rw [pow_succ, Equiv.Perm.mul_apply, h2, h4]

theorem powers_lam {R : Type} [CommRing R] [LinearOrder R] [Halvable R] [IsStrictOrderedRing R] {h : Enc} (hh : h.Legal) (hk : h.kind = .mappingClass) :
    ∃ σ : Equiv.Perm (LamOn R h.source), h.ActsLam σ ∧ ∀ (k : Int) (L : LamOn R h.source), h.applyLamPow L.1 k = .ok ((σ ^ k) L).1 := by
  have hst := hh.mappingClass hk
  have hex : ∃ σ : LamOn R h.source ≃ LamOn R h.source, h.ActsLam σ ∧ h.inv'.ActsLam σ.symm := by
    have := hh.exists_actsLam (R := R)
    rwa [← hst] at this
  obtain ⟨σ, h1, h2⟩ := hex
  have hI := inverse_eq hh
  change h.inverse = .ok h.inv' at hI
  refine ⟨σ, h1, ?_⟩
  intro k L
  unfold applyLamPow
  by_cases h0 : k < 0
  · rw [if_pos h0, hI, py_bind_ok, repeatM_actsLam h2]
    have : (σ.symm ^ (-k).toNat) = σ ^ k := by
      obtain ⟨n, rfl⟩ : ∃ n : Nat, k = -n := ⟨k.natAbs, by omega⟩
      rw [neg_neg, Int.toNat_natCast, zpow_neg, zpow_natCast, ← inv_pow]; rfl
    rw [this]
  · rw [if_neg h0, repeatM_actsLam h1]
    obtain ⟨n, rfl⟩ : ∃ n : Nat, k = n := ⟨k.toNat, by omega⟩
    rw [Int.toNat_natCast, zpow_natCast]

theorem powers_hom {h : Enc} (hh : h.Legal) (hk : h.kind = .mappingClass) :
    ∃ τ : Equiv.Perm (H1 h.source), h.ActsHom τ ∧ ∀ (k : Int) (x : HomOn h.source), ∃ y : HomOn h.source, h.applyHomPow x.1 k = .ok y.1 ∧
      (τ ^ k) x.cls = y.cls := by
  have hst := hh.mappingClass hk
  have hex : ∃ σ : H1 h.source ≃ H1 h.source, h.ActsHom σ ∧ h.inv'.ActsHom σ.symm := by
    have := hh.exists_actsHom
    rwa [← hst] at this
  obtain ⟨σ, h1, h2⟩ := hex
  have hI := inverse_eq hh
  change h.inverse = .ok h.inv' at hI
  refine ⟨σ, h1, ?_⟩
  intro k L
  unfold applyHomPow
  by_cases h0 : k < 0
  · have : (σ.symm ^ (-k).toNat) = σ ^ k := by
      obtain ⟨n, rfl⟩ : ∃ n : Nat, k = -n := ⟨k.natAbs, by omega⟩
      rw [neg_neg, Int.toNat_natCast, zpow_neg, zpow_natCast, ← inv_pow]; rfl
    rw [if_pos h0, hI, py_bind_ok, ← this]
    exact repeatM_actsHom h2 _ _
  · obtain ⟨n, rfl⟩ : ∃ n : Nat, k = n := ⟨k.toNat, by omega⟩
    rw [if_neg h0, Int.toNat_natCast, zpow_natCast]
    exact repeatM_actsHom h1 _ _

end Enc
end Curver
