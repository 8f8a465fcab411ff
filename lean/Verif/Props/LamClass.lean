import Verif.Proofs.ShortenClass
import Verif.Model.LamParts
import Verif.Props.LamComponents

/-!
# C68: the class of a lamination
-/

namespace Curver
open Triangulation

theorem Lam.Describes.same {L M : Lam Int} (hL : L.Consistent) (h : Lam.Same L M) {c : LamClass} (hd : L.Describes c) : M.Describes c := by
  obtain ⟨D, h1, h2⟩ := Lam.exists_unions hL
  have hM : M.Consistent := by
    have : M = ⟨L.tri, L.geometric, M.cls⟩ := by rw [h.1, h.2]
    rw [this]; exact hL
  rw [(h1.same h).describes_iff hM h2, ← h1.describes_iff hL h2]
  exact hd

/-- C68: each lamination is described by exactly one class. -/
theorem C68_unique (L : Lam Int) (hL : L.Consistent) : ∃! c, L.Describes c := by
  obtain ⟨c, hc⟩ := Lam.exists_describes hL
  exact ⟨c, hc, fun c' hc' => Lam.Describes.unique hL hc' hc⟩

/-- C68: "`shorten` returns a short lamination of the correct class" (lamination.py:147), the one that describes both the short lamination and the original one, whatever the classes of the
laminations that are met on the way. -/
theorem C68_shorten (P : Lam Int → Py LamClass) (dflt slow : Int → Int → Bool) (fuel : Nat) (L : Lam Int) (hL : L.WellFormed) (s : Lam Int) (g : Enc)
    (h : Lam.shortenAll P dflt fuel slow L = .ok (s, g)) : s.Describes s.cls ∧ L.Describes s.cls := by
  obtain ⟨H, -, hC, -⟩ := Lam.shortenAll_spec hL h
  have R := (Lam.shortenAll_rebuilt hL h).right hC
  refine ⟨R.2, ?_⟩
  obtain ⟨K, k1, k2, k3⟩ := H.acts
  have hK := hC.enc H.legal k1
  have hd : K.Describes s.cls := R.2.same R.1 ⟨k2.symm, k3.symm⟩
  exact hd.enc hK H.legal.inv' (H.legal.undo hL k1).2.2.2

/-- C68: `promote()` only changes the class, and to the one that describes the lamination.  If it returns then the weights were consistent. -/
theorem C68_promote (dflt : Int → Int → Bool) (fuel : Nat) (L L' : Lam Int) (hL : L.WellFormed) (h : L.promoteAll dflt fuel = .ok L') :
    L.Consistent ∧ L'.tri = L.tri ∧ L'.geometric = L.geometric ∧ L'.Describes L'.cls := by
  unfold Lam.promoteAll Lam.promote at h
  simp only [py_bind_eq_ok] at h
  obtain ⟨b, b1, h⟩ := h
  have := Lam.isIntegral_int b1
  subst this
  rw [if_pos rfl] at h
  simp only [py_bind_eq_ok] at h
  obtain ⟨c, c1, h⟩ := h
  injection h with h
  cases fuel with
  | zero => cases c1
  | succ n =>
    unfold Lam.classAll at c1
    simp only [py_bind_eq_ok] at c1
    obtain ⟨⟨s, g⟩, s1, s2⟩ := c1
    injection s2 with s2
    dsimp only at s2
    have hL' : (⟨L.tri, L.geometric, .integral⟩ : Lam Int).WellFormed := hL
    have hC : (⟨L.tri, L.geometric, .integral⟩ : Lam Int).Consistent := (Lam.shortenAll_spec hL' s1).2.2.1
    have := (C68_shorten _ _ _ _ _ hL' s g s1).2
    rw [s2] at this
    subst h
    exact ⟨hC, rfl, rfl, this.same (M := ⟨L.tri, L.geometric, c⟩) hC ⟨rfl, rfl⟩⟩

/-- C68: `T(weights)`, the usual way of making a lamination, has the right class. -/
theorem C68_lamination (dflt : Int → Int → Bool) (fuel : Nat) (T : Triangulation) (hT : T.Valid) (weights : List Int) (L : Lam Int) (h : T.lamination (Lam.classAll dflt fuel) weights = .ok L) :
    L.tri = T ∧ L.geometric = weights ∧ L.Consistent ∧ L.Describes L.cls ∧ L.ClassRight := by
  unfold lamination at h
  simp only [py_bind_eq_ok, pyAssert_ok_iff, beq_iff_eq] at h
  obtain ⟨_, h1, h⟩ := h
  rw [if_pos trivial] at h
  obtain ⟨p1, p2, p3, p4⟩ := C68_promote dflt fuel ⟨T, weights, .lamination⟩ L ⟨hT, h1⟩ h
  refine ⟨p2, p3, ?_, p4, fun e => ?_, fun e => ?_⟩
  · have : L = ⟨T, weights, L.cls⟩ := by
      have p2 : L.tri = T := p2
      have p3 : L.geometric = weights := p3
      rw [← p2, ← p3]
    rw [this]; exact p1
  · rw [e] at p4; exact p4
  · rw [e] at p4; exact p4

/-- C68: so has a sum. -/
theorem C68_add (dflt : Int → Int → Bool) (fuel : Nat) (X Y M : Lam Int) (hX : X.WellFormed) (h : X.add (Lam.classAll dflt fuel) Y = .ok M) : M.Consistent ∧ M.Describes M.cls := by
  unfold Lam.add at h
  split at h
  · cases h
  · have := C68_lamination dflt fuel X.tri hX.1 _ M h
    exact ⟨this.2.2.1, this.2.2.2.1⟩

/-- C68: `disjoint_sum` of a dictionary of laminations that are disjoint from each other is their disjoint union, each taken as often as its multiplicity says, and if the classes of the entries are
right then so is that of the sum.  (Entries that are empty or have multiplicity zero do not matter.) -/
theorem C68_disjoint_sum (P : Lam Int → Py LamClass) (ls : List (Lam Int × Int)) (M s : Lam Int) (hM : M.Consistent) (hu : M.Unions (ls.flatMap (fun p => List.replicate p.2.toNat p.1)))
    (hl : ∀ p ∈ ls, p.1.WellFormed) (hd : ∀ p ∈ ls, 0 < p.2 → ¬ p.1.Blank → p.1.Describes p.1.cls) (h : M.tri.disjointSumDict P ls = .ok s) :
    s.tri = M.tri ∧ s.geometric = M.geometric ∧ s.Describes s.cls := by
  obtain ⟨h1, h2⟩ := Lam.disjointSum_right P hM hu (fun p hp => by rw [(hl p hp).2, Lam.disjointSumDict_tri h p hp]) hd h
  exact ⟨h1.1.symm, h1.2.symm, h2⟩

/-- C68: mappings keep the class, and it stays right. -/
theorem C68_mapping (h : Enc) (hh : h.Legal) (L L' : Lam Int) (hL : L.Consistent) (hd : L.Describes L.cls) (ha : h.applyLam L = .ok L') : L'.cls = L.cls ∧ L'.Describes L'.cls := by
  have := (hh.undo hL.1 ha).2.2.1
  exact ⟨this, by rw [this]; exact hd.enc hL hh ha⟩

/-! ## Examples -/

theorem exists_ok {α : Type} {x : Py α} (h : x.toOption.isSome = true) : ∃ r, x = .ok r := by
  cases x with
  | ok r => exact ⟨r, rfl⟩
  | error e => cases h

theorem torusThree_promote : torus.lamination (Lam.classAll neverSlow 20) [4, 4, 6] = .ok torusThree := by decide +kernel

/-- three curves, two of them parallel: a `MultiCurve` -/
example : torusThree.Describes .multicurve := (C68_lamination neverSlow 20 torus torus_valid _ _ torusThree_promote).2.2.2.1

/-- the hypotheses of `C68_shorten`, `C68_promote` and `C68_add` -/
example : torusThree.WellFormed ∧ (∃ r, Lam.shortenAll anyClass neverSlow 20 neverSlow torusThree = .ok r) ∧ (∃ r, torusThree.promoteAll neverSlow 20 = .ok r) ∧
    ∃ M, torusCurve.add (Lam.classAll neverSlow 20) torusAround = .ok M ∧ M.cls = .multicurve :=
  ⟨torusThree_consistent.1, exists_ok (by decide +kernel), ⟨_, torusThree_promote⟩, ⟨torus, [3, 3, 4], .multicurve⟩, by decide +kernel, rfl⟩

/-- arcs and curves -/
example : torus.lamination (Lam.classAll neverSlow 20) [-1, 1, 1] = .ok ⟨torus, [-1, 1, 1], .integral⟩ ∧ torus.lamination (Lam.classAll neverSlow 20) [-1, -1, 0] = .ok ⟨torus, [-1, -1, 0], .multiarc⟩ ∧
    torus.lamination (Lam.classAll neverSlow 20) [-1, 0, 0] = .ok ⟨torus, [-1, 0, 0], .arc⟩ ∧ torus.lamination (Lam.classAll neverSlow 20) [1, 1, 2] = .ok ⟨torus, [1, 1, 2], .curve⟩ ∧
    torus.lamination (Lam.classAll neverSlow 20) [0, 0, 0] = .ok ⟨torus, [0, 0, 0], .integral⟩ := by decide +kernel

end Curver
