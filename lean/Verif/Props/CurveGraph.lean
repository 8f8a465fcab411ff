import Verif.Proofs.CurveGraph

/-!
# C98: `CurveGraph.tight_paths`

`P` stands for `promote()`; it returns the class that describes the lamination.
-/

namespace Curver
open Triangulation CurveGraph

section
variable (P : Lam Int → Py LamClass) (dflt : Int → Int → Bool) (fuel : Nat) (T : Triangulation)

theorem checkEnds_ok {T : Triangulation} {a b : Lam Int} {u : Unit} (h : checkEnds T a b = .ok u) : a.cls.isMultiCurve = true ∧ b.cls.isMultiCurve = true ∧ a.tri = T ∧ b.tri = T := by
  unfold checkEnds at h
  simp only [py_bind_eq_ok, pyAssert_ok_iff, beq_iff_eq] at h
  obtain ⟨_, h1, _, h2, _, h3, h4⟩ := h
  exact ⟨h1, h2, h3, h4⟩

/-- the assertions -/
theorem tightPaths_ends {a b : Lam Int} : ∀ {n : Nat} {r : List (List (Lam Int))}, tightPaths P dflt fuel T a b n = .ok r → a.cls.isMultiCurve = true ∧ b.cls.isMultiCurve = true ∧ a.tri = T ∧ b.tri = T
  | 0, r, h | 1, r, h | 2, r, h | n + 3, r, h => by
    unfold tightPaths at h
    rw [py_bind_eq_ok] at h
    obtain ⟨_, h1, -⟩ := h
    exact checkEnds_ok h1

theorem mem_addPath {s : List (List (Lam Int))} {p q : List (Lam Int)} (h : q ∈ addPath s p) : q ∈ s ∨ q = p := by
  unfold addPath at h
  split_ifs at h
  · exact .inl h
  · simpa using h

/-- C98: a path of length `n` that `tight_paths` returns has `n + 1` entries; the first one is `a`, the last one is `b`. -/
theorem C98_ends (b : Lam Int) : ∀ (n : Nat) (a : Lam Int) (r : List (List (Lam Int))), tightPaths P dflt fuel T a b n = .ok r →
    ∀ p ∈ r, p.length = n + 1 ∧ p.head? = some a ∧ ∃ z, p.getLast? = some z ∧ z.eqv b = true
  | 0, a, r, h, p, hp => by
    unfold tightPaths at h
    rw [py_bind_eq_ok] at h
    obtain ⟨_, -, h⟩ := h
    split_ifs at h with q <;> injection h with h <;> subst h <;> simp at hp
    subst hp
    exact ⟨rfl, rfl, a, rfl, q⟩
  | 1, a, r, h, p, hp => by
    unfold tightPaths at h
    simp only [py_bind_eq_ok] at h
    obtain ⟨_, -, i, -, h⟩ := h
    split_ifs at h
    · rw [py_bind_eq_ok] at h
      obtain ⟨n, -, h⟩ := h
      split_ifs at h <;> injection h with h <;> subst h <;> simp at hp
      subst hp
      exact ⟨rfl, rfl, b, rfl, Lam.eqv_same.2 .refl⟩
    · injection h with h
      subst h
      simp at hp
  | 2, a, r, h, p, hp => by
    unfold tightPaths at h
    simp only [py_bind_eq_ok] at h
    obtain ⟨_, -, m, -, t, -, h⟩ := h
    split_ifs at h
    · injection h with h
      subst h
      simp at hp
    · rw [py_bind_eq_ok] at h
      obtain ⟨x, -, h⟩ := h
      split_ifs at h
      · rw [py_bind_eq_ok] at h
        obtain ⟨y, -, h⟩ := h
        split_ifs at h <;> injection h with h <;> subst h <;> simp at hp
        subst hp
        exact ⟨rfl, rfl, b, rfl, Lam.eqv_same.2 .refl⟩
      · injection h with h
        subst h
        simp at hp
  | n + 3, a, r, h, p, hp => by
    unfold tightPaths at h
    simp only [py_bind_eq_ok] at h
    obtain ⟨_, -, f, -, h⟩ := h
    split_ifs at h
    · rw [py_bind_eq_ok] at h
      obtain ⟨A, -, h⟩ := h
      have key : ∀ p ∈ r, p.length = n + 3 + 1 ∧ p.head? = some a ∧ ∃ z, p.getLast? = some z ∧ z.eqv b = true := by
        refine foldlM_inv (fun r => ∀ p ∈ r, p.length = n + 3 + 1 ∧ p.head? = some a ∧ ∃ z, p.getLast? = some z ∧ z.eqv b = true) (by simp) (fun acc a1 acc' _ q hx => ?_) h
        rw [py_bind_eq_ok] at hx
        obtain ⟨paths, x1, x2⟩ := hx
        have ih := C98_ends b (n + 2) a1 paths x1
        refine foldlM_inv (fun r => ∀ p ∈ r, p.length = n + 3 + 1 ∧ p.head? = some a ∧ ∃ z, p.getLast? = some z ∧ z.eqv b = true) q (fun acc mp acc' hmp q hy => ?_) x2
        obtain ⟨l1, -, z, l2, l3⟩ := ih mp hmp
        split at hy
        · cases hy
        · rw [py_bind_eq_ok] at hy
          obtain ⟨m, -, hy⟩ := hy
          split_ifs at hy <;> injection hy with hy <;> subst hy
          · intro p hp
            rcases mem_addPath hp with hp | rfl
            · exact q p hp
            · refine ⟨by rw [List.length_cons, l1], rfl, z, ?_, l3⟩
              rw [List.getLast?_cons_cons]
              exact l2
          · exact q
      exact key p hp
    · injection h with h
      subst h
      simp at hp

end

/-- C98: the class of what `boundary` returns is right. -/
theorem C98_boundary_class (P : Lam Int → Py LamClass) (dflt : Int → Int → Bool) (fuel : Nat) (hT : Lam.TellsClass P) (L : Lam Int) (hL : L.Consistent) (hd : L.Describes L.cls) (B : Lam Int)
    (h : L.boundary P dflt fuel = .ok B) : B.Describes B.cls := Lam.boundary_class hT hL hd h

/-- C98: so is that of what `boundary_union` returns. -/
theorem C98_boundary_union_class (P : Lam Int → Py LamClass) (dflt : Int → Int → Bool) (fuel : Nat) (hP : ∀ L, ∃ k, P L = .ok k) (hT : Lam.TellsClass P) (c other : Lam Int) (hc : c.NoArcs) (hcd : c.Describes c.cls)
    (ho : other.Consistent) (hd : other.Describes other.cls) (B : Lam Int) (h : c.boundaryUnion P dflt fuel other = .ok B) : B.Describes B.cls := Lam.boundaryUnion_class hP hT hc hcd ho hd h

/-- C98: there is a path of length 0 exactly when `a` and `b` are equal. -/
theorem C98_zero (P : Lam Int → Py LamClass) (dflt : Int → Int → Bool) (fuel : Nat) (T : Triangulation) (a b : Lam Int) (r : List (List (Lam Int))) (h : tightPaths P dflt fuel T a b 0 = .ok r) :
    (r = [[a]] ∨ r = []) ∧ (r ≠ [] ↔ a.geometric = b.geometric) := by
  obtain ⟨e1, e2, e3, e4⟩ := tightPaths_ends P dflt fuel T h
  unfold tightPaths at h
  rw [py_bind_eq_ok] at h
  obtain ⟨_, -, h⟩ := h
  split_ifs at h with q <;> injection h with h <;> subst h
  · exact ⟨.inl rfl, by simpa using (Lam.eqv_same.1 q).2⟩
  · exact ⟨.inr rfl, by simp only [ne_eq, not_true_eq_false, false_iff]; exact fun x => q (Lam.eqv_same.2 ⟨e3.trans e4.symm, x⟩)⟩

section
variable (P : Lam Int → Py LamClass) (dflt : Int → Int → Bool) (fuel : Nat) (T : Triangulation) (hP : ∀ L, ∃ k, P L = .ok k) (hT : Lam.TellsClass P)
variable (a b : Lam Int) (ha : a.Consistent) (hb : b.Consistent) (hda : a.Describes a.cls) (hdb : b.Describes b.cls)
include hP hT ha hb hda hdb

/-- C98: there is a path of length 1 exactly when `a` and `b` do not cross and have no component in common. -/
theorem C98_one (r : List (List (Lam Int))) (h : tightPaths P dflt fuel T a b 1 = .ok r) :
    (r = [[a, b]] ∨ r = []) ∧ (r ≠ [] ↔ a.DisjointFrom b ∧ ¬ ∃ X, a.HasPart X ∧ b.HasPart X) := by
  obtain ⟨e1, e2, e3, e4⟩ := tightPaths_ends P dflt fuel T h
  unfold tightPaths at h
  simp only [py_bind_eq_ok] at h
  obtain ⟨_, -, i, h1, h⟩ := h
  have hi := (C85_closed P dflt fuel a b ha (Lam.Describes.noArcs hb hdb e2).1 i h1).2
  split_ifs at h with q
  · rw [py_bind_eq_ok] at h
    obtain ⟨n, h2, h⟩ := h
    have hn := C70_no_common P dflt fuel a b ha hb hda.right hdb.right n h2
    split_ifs at h with t <;> injection h with h <;> subst h
    · exact ⟨.inl rfl, by simpa using ⟨hi.1 q, by simpa using hn.1 t⟩⟩
    · refine ⟨.inr rfl, by simp only [ne_eq, not_true_eq_false, false_iff]; exact fun x => t (hn.2 x.2)⟩
  · injection h with h
    subst h
    refine ⟨.inr rfl, by simp only [ne_eq, not_true_eq_false, false_iff]; exact fun x => q (hi.2 x.1)⟩

/-- C98: a path of length 2 goes through `boundary_union`: closed curves that do not cross `a`, not all around vertices, and without components in common with `a` or `b`; and the path is returned whenever that is so. -/
theorem C98_two (r : List (List (Lam Int))) (h : tightPaths P dflt fuel T a b 2 = .ok r) : ∃ m, a.boundaryUnion P dflt fuel b = .ok m ∧ m.NoArcs ∧ m.DisjointFrom a ∧ (r = [[a, m, b]] ∨ r = []) ∧
    (r ≠ [] ↔ ¬ m.Peripheral ∧ (¬ ∃ X, a.HasPart X ∧ m.HasPart X) ∧ ¬ ∃ X, b.HasPart X ∧ m.HasPart X) := by
  obtain ⟨e1, e2, e3, e4⟩ := tightPaths_ends P dflt fuel T h
  obtain ⟨nA, bA⟩ := Lam.Describes.noArcs ha hda e1
  unfold tightPaths at h
  simp only [py_bind_eq_ok] at h
  obtain ⟨_, -, m, hm, p, hp, h⟩ := h
  obtain ⟨m1, m2, m3⟩ := C97_boundary_union P dflt fuel a nA hda hP hT b hb hdb m hm
  have cm := (Lam.noArcs_iff.1 m2).1
  have dm := Lam.boundaryUnion_class hP hT nA hda hb hdb hm
  obtain ⟨p', p1, p2⟩ := Lam.isPeripheral_spec P cm
  rw [hp] at p1
  injection p1 with p1
  subst p1
  refine ⟨m, hm, m2, m3, ?_⟩
  split_ifs at h with q
  · injection h with h
    subst h
    refine ⟨.inr rfl, by simp only [ne_eq, not_true_eq_false, false_iff]; exact fun x => x.1 (p2.1 q)⟩
  · have hq : ¬ m.Peripheral := fun t => q (p2.2 t)
    rw [py_bind_eq_ok] at h
    obtain ⟨x, hx, h⟩ := h
    have x1 := C70_no_common P dflt fuel a m ha cm hda.right dm.right x hx
    split_ifs at h with t
    · rw [py_bind_eq_ok] at h
      obtain ⟨y, hy, h⟩ := h
      have y1 := C70_no_common P dflt fuel b m hb cm hdb.right dm.right y hy
      split_ifs at h with u <;> injection h with h <;> subst h
      · exact ⟨.inl rfl, by simpa using ⟨hq, by simpa using x1.1 t, by simpa using y1.1 u⟩⟩
      · refine ⟨.inr rfl, by simp only [ne_eq, not_true_eq_false, false_iff]; exact fun z => u (y1.2 z.2.2)⟩
    · injection h with h
      subst h
      refine ⟨.inr rfl, by simp only [ne_eq, not_true_eq_false, false_iff]; exact fun z => t (x1.2 z.2.1)⟩

/-- C98: multicurves that do not cross are not joined by paths of length 2, whatever else is there for them to go through. -/
theorem C98_two_apart (hd : b.DisjointFrom a) (r : List (List (Lam Int))) (h : tightPaths P dflt fuel T a b 2 = .ok r) : r = [] := by
  obtain ⟨e1, e2, e3, e4⟩ := tightPaths_ends P dflt fuel T h
  obtain ⟨nA, bA⟩ := Lam.Describes.noArcs ha hda e1
  obtain ⟨nB, bB⟩ := Lam.Describes.noArcs hb hdb e2
  obtain ⟨m, hm, m2, m3, -, h2⟩ := C98_two P dflt fuel T hP hT a b ha hb hda hdb r h
  by_contra hr
  obtain ⟨r1, -, r2⟩ := h2.1 hr
  obtain ⟨M, Ds, u1, u2, -⟩ := C97_closed P dflt fuel a nA hda hP hT b hb hdb nB hd m hm
  have cm := (Lam.noArcs_iff.1 m2).1
  have cM := (u1.consistent cm).1
  obtain ⟨D, d1, d2⟩ := Lam.exists_unions cM
  have key : ∀ (Ds : List (Lam Int)) (S : Lam Int), S.Consistent → S.Unions (Ds ++ [M]) → ∀ X, M.HasPart X → S.HasPart X := by
    intro Ds
    induction Ds with
    | nil =>
      intro S cS hS X hX
      cases hS with
      | cons w1 w2 => exact .of_union cS w1 hX
    | cons d Ds ih =>
      intro S cS hS X hX
      cases hS with
      | cons w1 w2 => exact .of_union cS w1.symm (ih _ (w1.consistent cS).2 w2 X hX)
  cases D with
  | nil =>
    have hb := (d1.blank_iff cM d2).2 rfl
    refine r1 (Lam.Blank.peripheral (fun x hx => ?_))
    rw [u1.sum cm.1 hx, hb x (by rw [u1.wf.2.2.1]; exact hx)]
    rfl
  | cons X D =>
    have hX : M.HasPart X := (d1.hasPart_iff cM d2).2 ⟨X, by simp, .refl⟩
    exact r2 ⟨X, key Ds b hb u2 X hX, .of_union cm u1 hX⟩

/-- C98: `tight_paths` never returns a path of length 3 or more: it finds none, or raises an error.  (When `a` and `b` fill the surface, one of the candidates for the second entry is empty.) -/
theorem C98_never (n : Nat) (hn : 3 ≤ n) (r : List (List (Lam Int))) (h : tightPaths P dflt fuel T a b n = .ok r) : r = [] ∧ a.fillsWith P dflt fuel b = .ok false := by
  obtain ⟨n, rfl⟩ : ∃ k, n = k + 3 := ⟨n - 3, by omega⟩
  obtain ⟨e1, e2, e3, e4⟩ := tightPaths_ends P dflt fuel T h
  obtain ⟨nA, bA⟩ := Lam.Describes.noArcs ha hda e1
  have hz : 0 < a.tri.zeta := by
    by_contra q
    refine bA (fun x hx => ?_)
    have : -(a.tri.zeta : Int) ≤ x ∧ x < a.tri.zeta := hx
    omega
  unfold tightPaths at h
  simp only [py_bind_eq_ok] at h
  obtain ⟨_, -, f, hf, h⟩ := h
  split_ifs at h with q
  · rw [py_bind_eq_ok] at h
    obtain ⟨A, h1, h⟩ := h
    obtain ⟨s1, x, x1, x2⟩ := Lam.secondEntries_spec hP hT nA hda hb hdb hz h1
    exfalso
    obtain ⟨-, r1, -⟩ := foldlM_all (fun _ => True) (fun (a1 : Lam Int) (_ : List (List (Lam Int))) => ∃ paths, tightPaths P dflt fuel T a1 b (n + 2) = .ok paths) trivial (fun acc a1 acc' _ _ hx => by
      rw [py_bind_eq_ok] at hx
      obtain ⟨paths, y1, -⟩ := hx
      exact ⟨trivial, ⟨paths, y1⟩, fun _ y => y⟩) h
    obtain ⟨paths, y⟩ := r1 x x1
    obtain ⟨c1, c2⟩ := s1 x x1
    exact (Lam.Describes.noArcs c1 c2 (tightPaths_ends P dflt fuel T y).1).2 x2
  · injection h with h
    exact ⟨h.symm, by rw [hf]; simpa using q⟩

end

/-! ## the hypotheses are met -/

/-- a torus with two punctures: a square with one of them in the middle -/
def twicePunctured : Triangulation := ⟨[⟨-6, -2, 2⟩, ⟨-5, -1, 5⟩, ⟨-4, 1, 4⟩, ⟨-3, 0, 3⟩]⟩

theorem twicePunctured_valid : twicePunctured.Valid := ⟨by decide, by decide, by decide⟩

/-- two curves that cross once, and a third which does not cross the first one -/
def acrossOne : Lam Int := ⟨twicePunctured, [0, 1, 1, 1, 0, 0], .curve⟩
def acrossTwo : Lam Int := ⟨twicePunctured, [1, 0, 1, 0, 0, 1], .curve⟩
def acrossThree : Lam Int := ⟨twicePunctured, [0, 1, 0, 0, 1, 1], .curve⟩

theorem across_consistent : acrossOne.Consistent ∧ acrossTwo.Consistent ∧ acrossThree.Consistent := by
  refine ⟨?_, ?_, ?_⟩ <;> rw [Lam.consistent_iff] <;> refine ⟨⟨twicePunctured_valid, by decide⟩, ?_⟩ <;> intro a b c h <;>
    rcases h with h | h | h <;> simp [acrossOne, acrossTwo, acrossThree, twicePunctured] at h <;>
    rcases h with ⟨rfl, rfl, rfl⟩ | ⟨rfl, rfl, rfl⟩ | ⟨rfl, rfl, rfl⟩ | ⟨rfl, rfl, rfl⟩ <;> intro _ _ _ <;> decide

theorem acrossOne_describes : acrossOne.Describes acrossOne.cls := by
  have h : rightClass acrossOne = .ok .curve := by decide +kernel
  exact rightClass_tells acrossOne .curve across_consistent.1 h

theorem acrossTwo_describes : acrossTwo.Describes acrossTwo.cls := by
  have h : rightClass acrossTwo = .ok .curve := by decide +kernel
  exact rightClass_tells acrossTwo .curve across_consistent.2.1 h

theorem acrossThree_describes : acrossThree.Describes acrossThree.cls := by
  have h : rightClass acrossThree = .ok .curve := by decide +kernel
  exact rightClass_tells acrossThree .curve across_consistent.2.2 h

/-- a path of length 1 -/
example : ∃ r, tightPaths rightClass neverSlow 50 twicePunctured acrossOne acrossThree 1 = .ok r ∧ r = [[acrossOne, acrossThree]] ∧ acrossOne.DisjointFrom acrossThree := by
  have h : (do let r ← tightPaths rightClass neverSlow 50 twicePunctured acrossOne acrossThree 1; return r.length : Py Nat) = .ok 1 := by decide +kernel
  rw [py_bind_eq_ok] at h
  obtain ⟨r, h1, h2⟩ := h
  injection h2 with h2
  obtain ⟨r1, r2⟩ := C98_one rightClass neverSlow 50 twicePunctured rightClass_returns rightClass_tells acrossOne acrossThree across_consistent.1 across_consistent.2.2 acrossOne_describes acrossThree_describes r h1
  have hr : r ≠ [] := by
    rintro rfl
    cases h2
  exact ⟨r, h1, r1.resolve_right hr, (r2.1 hr).1⟩

/-- a path of length 2 -/
example : ∃ r m, tightPaths rightClass neverSlow 50 twicePunctured acrossOne acrossTwo 2 = .ok r ∧ r = [[acrossOne, m, acrossTwo]] ∧ m.DisjointFrom acrossOne ∧ ¬ m.Peripheral := by
  have h : (do let r ← tightPaths rightClass neverSlow 50 twicePunctured acrossOne acrossTwo 2; return r.length : Py Nat) = .ok 1 := by decide +kernel
  rw [py_bind_eq_ok] at h
  obtain ⟨r, h1, h2⟩ := h
  injection h2 with h2
  obtain ⟨m, -, -, m3, r1, r2⟩ := C98_two rightClass neverSlow 50 twicePunctured rightClass_returns rightClass_tells acrossOne acrossTwo across_consistent.1 across_consistent.2.1 acrossOne_describes acrossTwo_describes r h1
  have hr : r ≠ [] := by
    rintro rfl
    cases h2
  exact ⟨r, m, h1, r1.resolve_right hr, m3, (r2.1 hr).1⟩

/-- they do not fill the surface, so there is no path of length 3 -/
example : tightPaths rightClass neverSlow 50 twicePunctured acrossOne acrossTwo 3 = .ok [] := by decide +kernel

/-- two curves that fill a torus with one puncture: `tight_paths` fails for every length from 3 on -/
example (n : Nat) (hn : 3 ≤ n) (r : List (List (Lam Int))) : tightPaths rightClass neverSlow 50 torus torusCurve torusLong n ≠ .ok r := by
  intro h
  obtain ⟨-, q⟩ := C98_never rightClass neverSlow 50 torus rightClass_returns rightClass_tells torusCurve torusLong torusCurve_consistent (Lam.noArcs_iff.1 torusLong_noArcs).1 torusCurve_describes torusLong_describes n hn r h
  have t : torusCurve.fillsWith rightClass neverSlow 50 torusLong = .ok true := by decide +kernel
  rw [t] at q
  cases q

end Curver
