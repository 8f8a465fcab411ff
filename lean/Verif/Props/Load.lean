import Verif.Proofs.LoadGen

/-!
# C38, C39: `load`

What `load(g, n)` should return (`Loads`, `IsCurveName`, `IsArcName`) is in `Verif/Spec/Load.lean`.
-/

namespace Curver
open Triangulation

/-- C38: for every genus `g ≥ 0` and number of punctures `n ≥ 1` with `6 g + 3 n - 6 ≥ 3`, `load(g, n)` succeeds.  Its triangulation is
valid, connected, has `6 g + 3 n - 6` edges and `n` vertices and is of the surface of genus `g` with Euler characteristic `2 - 2 g - n`;
it defines exactly the expected names; each curve is a non-empty lamination without arcs and each arc is an edge which joins two
different vertices (so that a half twist about it exists). -/
theorem C38_load (g n : Int) (hg : 0 ≤ g) (hn : 1 ≤ n) (hz : 3 ≤ 6 * g + 3 * n - 6) : ∃ S, load g n = .ok S ∧ Loads g n S := by
  by_cases g0 : g = 0
  · subst g0; exact loads0 (by omega)
  by_cases n1 : n = 1
  · subst n1
    by_cases g1 : g = 1
    · subst g1; exact loads1_one
    by_cases g2 : g = 2
    · subst g2; exact loads2_one
    by_cases g3 : g = 3
    · subst g3; exact loads3_one
    · exact loadsG_one (by omega)
  · have hn2 : 2 ≤ n := by omega
    by_cases g1 : g = 1
    · subst g1; exact loads1 hn2
    by_cases g2 : g = 2
    · subst g2; exact loads2 hn2
    by_cases g3 : g = 3
    · subst g3; exact loads3 hn2
    · exact loadsG (by omega) hn2

/-- C38: any other pair of integers raises `ValueError`. -/
theorem C38_rejected (g n : Int) (h : g < 0 ∨ n < 1 ∨ 6 * g + 3 * n - 6 < 3) : load g n = .error .valueError := by
  unfold load; rw [if_pos h]

/-- C38: so `load(g, n)` succeeds exactly for the surfaces which can be triangulated, and never raises anything but `ValueError`. -/
theorem C38_total (g n : Int) : (∃ S, load g n = .ok S ∧ 0 ≤ g ∧ 1 ≤ n ∧ 3 ≤ 6 * g + 3 * n - 6) ∨ load g n = .error .valueError := by
  by_cases h : g < 0 ∨ n < 1 ∨ 6 * g + 3 * n - 6 < 3
  · exact .inr (C38_rejected g n h)
  · left
    obtain ⟨S, hS, _⟩ := C38_load g n (by omega) (by omega) (by omega)
    exact ⟨S, hS, by omega, by omega, by omega⟩

/-- C38: different arguments give different surfaces. -/
theorem C38_injective (g n g' n' : Int) (S S' : Loaded) (h : load g n = .ok S) (h' : load g' n' = .ok S') (he : S.tri = S'.tri) : g = g' ∧ n = n' := by
  have key : ∀ g n S, load g n = .ok S → Loads g n S := by
    intro g n S h
    rcases C38_total g n with ⟨S1, h1, h2, h3, h4⟩ | h1
    · obtain ⟨S2, k1, k2⟩ := C38_load g n h2 h3 h4
      rw [h] at k1; cases k1; exact k2
    · rw [h] at h1; cases h1
  have a := (key g n S h).surface
  have b := (key g' n' S' h').surface
  rw [he, b] at a
  simp only [Except.ok.injEq, List.cons.injEq, Prod.mk.injEq, and_true, true_and] at a
  exact ⟨a.1.symm, a.2.1.symm⟩

example : ∃ S, load 1 2 = .ok S ∧ Loads 1 2 S := C38_load 1 2 (by decide) (by decide) (by decide)
example : ∃ S, load 17 5 = .ok S ∧ Loads 17 5 S := C38_load 17 5 (by decide) (by decide) (by decide)
example : (do let S ← load 1 2; let L ← S.curves.get ('b', 0); return L.geometric) = .ok [1, 0, 1, 0, 0, 0] := by decide +kernel
example : (do let S ← load 1 2; let L ← S.arcs.get ('s', 1); return L.geometric) = .ok [0, 0, 0, 0, -1, 0] := by decide +kernel
example : load 0 2 = .error .valueError := C38_rejected 0 2 (by decide)

/-! ### C39 -/

/-- The names of flipper's surfaces, and the surfaces. -/
def oldSurfaces : List (Str × Int × Int) := [("S_0_4".toList, 0, 4), ("S_1_1".toList, 1, 1), ("S_1_2".toList, 1, 2), ("S_2_1".toList, 2, 1), ("S_3_1".toList, 3, 1),
  ("S_4_1".toList, 4, 1), ("S_5_1".toList, 5, 1)]

theorem pick_ok {d : PyDict GenName (Lam Int)} {l : List (Char × GenName)} (h : ∀ p ∈ l, d.contains p.2 = true) :
    ∃ r, pick d l = .ok r ∧ ∀ c L, r.get c = .ok L → ∃ x, (c, x) ∈ l ∧ d.get x = .ok L := by
  have hex : ∀ p ∈ l, ∃ v, d.get p.2 = .ok v := by
    intro p hp
    have := h p hp
    obtain ⟨v, hv⟩ := Option.isSome_iff_exists.1 this
    exact ⟨v, PyDict.get_eq_ok_iff.2 hv⟩
  have : ∃ items : List (Char × Lam Int), l.mapM (fun p => do let v ← d.get p.2; return (p.1, v)) = (.ok items : Py _) ∧
      ∀ y ∈ items, ∃ x, (y.1, x) ∈ l ∧ d.get x = .ok y.2 := by
    clear h
    induction l with
    | nil => exact ⟨[], rfl, by simp⟩
    | cons a l ih =>
      obtain ⟨v, hv⟩ := hex a (by simp)
      obtain ⟨items, h1, h2⟩ := ih (fun x hx => hex x (by simp [hx]))
      refine ⟨(a.1, v) :: items, by rw [List.mapM_cons, h1, hv]; rfl, ?_⟩
      intro y hy
      rcases List.mem_cons.1 hy with rfl | hy
      · exact ⟨a.2, by simp, hv⟩
      · obtain ⟨x, k1, k2⟩ := h2 y hy
        exact ⟨x, by simp [k1], k2⟩
  obtain ⟨items, h1, h2⟩ := this
  refine ⟨PyDict.ofList items, by unfold pick; rw [h1]; rfl, ?_⟩
  intro c L hc
  rw [PyDict.get_eq_ok_iff, PyDict.get?_ofList, Option.map_eq_some_iff] at hc
  obtain ⟨p, hp, rfl⟩ := hc
  have hm := List.mem_of_find?_eq_some hp
  have hk := List.find?_some hp
  obtain ⟨x, k1, k2⟩ := h2 p (by simpa using hm)
  have hk' : p.1 = c := by simpa using hk
  subst hk'
  exact ⟨x, k1, k2⟩

theorem pickFrom_ok {g n : Int} {cs as : List (Char × GenName)} (hg : 0 ≤ g) (hn : 1 ≤ n) (hz : 3 ≤ 6 * g + 3 * n - 6) (hc : ∀ p ∈ cs, IsCurveName g n p.2) (ha : ∀ p ∈ as, IsArcName n p.2) :
    ∃ S R, load g n = .ok S ∧ pickFrom g n cs as = .ok R ∧ R.tri = S.tri ∧ (∀ c L, R.curves.get c = .ok L → ∃ x, S.curves.get x = .ok L) ∧
      (∀ c L, R.arcs.get c = .ok L → ∃ x, S.arcs.get x = .ok L) := by
  obtain ⟨S, h1, h2⟩ := C38_load g n hg hn hz
  obtain ⟨r, r1, r2⟩ := pick_ok (d := S.curves) (l := cs) (fun p hp => (h2.curveNames _).2 (hc p hp))
  obtain ⟨s, s1, s2⟩ := pick_ok (d := S.arcs) (l := as) (fun p hp => (h2.arcNames _).2 (ha p hp))
  refine ⟨S, ⟨S.tri, r, s⟩, h1, ?_, rfl, ?_, ?_⟩
  · unfold pickFrom; rw [h1]; simp only [py_bind_ok, r1, s1]; rfl
  · intro c L h; obtain ⟨x, _, hx⟩ := r2 c L h; exact ⟨x, hx⟩
  · intro c L h; obtain ⟨x, _, hx⟩ := s2 c L h; exact ⟨x, hx⟩

instance (g n : Int) (x : GenName) : Decidable (IsCurveName g n x) := by unfold IsCurveName; infer_instance
instance (n : Int) (x : GenName) : Decidable (IsArcName n x) := by unfold IsArcName; infer_instance

/-- C39: `load(name)` for these names succeeds, and gives the triangulation of `load(g, n)` with some of its curves and arcs under
other names. -/
theorem C39_names (name : Str) (g n : Int) (h : (name, g, n) ∈ oldSurfaces) : ∃ S R, load g n = .ok S ∧ loadOld name = .ok (.inl R) ∧ R.tri = S.tri ∧
    (∀ c L, R.curves.get c = .ok L → ∃ x, S.curves.get x = .ok L) ∧ (∀ c L, R.arcs.get c = .ok L → ∃ x, S.arcs.get x = .ok L) := by
  have key : ∀ cs as, loadOld name = .inl <$> pickFrom g n cs as → 0 ≤ g → 1 ≤ n → 3 ≤ 6 * g + 3 * n - 6 → (∀ p ∈ cs, IsCurveName g n p.2) → (∀ p ∈ as, IsArcName n p.2) →
      ∃ S R, load g n = .ok S ∧ loadOld name = .ok (.inl R) ∧ R.tri = S.tri ∧
        (∀ c L, R.curves.get c = .ok L → ∃ x, S.curves.get x = .ok L) ∧ (∀ c L, R.arcs.get c = .ok L → ∃ x, S.arcs.get x = .ok L) := by
    intro cs as hl hg hn hz hc ha
    obtain ⟨S, R, h1, h2, h3⟩ := pickFrom_ok hg hn hz hc ha
    exact ⟨S, R, h1, by rw [hl, h2]; rfl, h3⟩
  unfold oldSurfaces at h
  simp only [List.mem_cons, List.not_mem_nil, or_false, Prod.mk.injEq] at h
  rcases h with ⟨rfl, rfl, rfl⟩ | ⟨rfl, rfl, rfl⟩ | ⟨rfl, rfl, rfl⟩ | ⟨rfl, rfl, rfl⟩ | ⟨rfl, rfl, rfl⟩ | ⟨rfl, rfl, rfl⟩ | ⟨rfl, rfl, rfl⟩
  all_goals exact key _ _ rfl (by decide) (by decide) (by decide) (by decide) (by decide)

/-- C39 fails for one name: `load('S_1_2p')` raises `KeyError`, since `p_0` is not a curve of `load(1, 2)`. -/
theorem C39_S_1_2p : loadOld "S_1_2p".toList = .error .keyError := by decide +kernel

/-- C39: `load('SB_n')` is `load(0, n)` when `n ≥ 3` and raises `AssertionError` otherwise. -/
theorem C39_braid (w : Str) (hw : w ≠ []) (hd : w.all Str.isDigit = true) :
    (3 ≤ digitsValue w → ∃ S, loadOld ("SB_".toList ++ w) = .ok (.inr S) ∧ load 0 (digitsValue w) = .ok S ∧ Loads 0 (digitsValue w) S) ∧
    (digitsValue w < 3 → loadOld ("SB_".toList ++ w) = .error .assertionError) := by
  have e : loadOld ("SB_".toList ++ w) = .inr <$> load0 (digitsValue w) := by
    unfold loadOld
    have hs : sphereBraid ("SB_".toList ++ w) = some (digitsValue w) := by
      show (if w ≠ [] ∧ w.all Str.isDigit = true then some (digitsValue w) else none) = _
      rw [if_pos ⟨hw, hd⟩]
    rw [hs]
    simp
  rw [e]
  constructor
  · intro h
    obtain ⟨S, h1, h2⟩ := loads0 (n := digitsValue w) (by omega)
    have h3 : load0 (digitsValue w) = .ok S := by
      have := h1
      unfold load at this
      rwa [if_neg (by omega), if_pos rfl] at this
    exact ⟨S, by rw [h3]; rfl, h1, h2⟩
  · intro h
    unfold load0 pyAssert
    rw [if_neg (by simp; omega)]; rfl

/-- C39: every other string raises `ValueError`. -/
theorem C39_others (name : Str) (h1 : ∀ g n, (name, g, n) ∉ oldSurfaces) (h2 : name ≠ "S_1_2p".toList)
    (h3 : ∀ w, w ≠ [] → w.all Str.isDigit = true → name ≠ "SB_".toList ++ w) : loadOld name = .error .valueError := by
  have m1 : name ≠ "S_0_4".toList := fun h => h1 0 4 (by rw [h]; decide)
  have m2 : name ≠ "S_1_1".toList := fun h => h1 1 1 (by rw [h]; decide)
  have m3 : name ≠ "S_1_2".toList := fun h => h1 1 2 (by rw [h]; decide)
  have m4 : name ≠ "S_2_1".toList := fun h => h1 2 1 (by rw [h]; decide)
  have m5 : name ≠ "S_3_1".toList := fun h => h1 3 1 (by rw [h]; decide)
  have m6 : name ≠ "S_4_1".toList := fun h => h1 4 1 (by rw [h]; decide)
  have m7 : name ≠ "S_5_1".toList := fun h => h1 5 1 (by rw [h]; decide)
  have hs : sphereBraid name = none := by
    unfold sphereBraid
    split
    · rename_i w
      rw [if_neg]
      rintro ⟨a, b⟩
      exact h3 w a b rfl
    · rfl
  unfold loadOld
  rw [if_neg m1, if_neg m2, if_neg m3, if_neg h2, if_neg m4, if_neg m5, if_neg m6, if_neg m7, hs]

/-- C39: `load` of one string is the above, of two integers is `load(g, n)`; three or more (or no) arguments raise `ValueError`. -/
theorem C39_arguments (name : Str) (g n : Int) (l : List LoadArg) : loadArgs [.str name] = loadOld name ∧ loadArgs [.int g, .int n] = .inr <$> load g n ∧
    (l.length ≠ 1 → l.length ≠ 2 → loadArgs l = .error .valueError) := by
  refine ⟨rfl, rfl, ?_⟩
  intro h1 h2
  match l with
  | [] => rfl
  | [_] => simp at h1
  | [_, _] => simp at h2
  | a :: b :: _ :: _ => cases a <;> cases b <;> rfl

example : ("S_3_1".toList, 3, 1) ∈ oldSurfaces := by decide
example : ("12".toList ≠ []) ∧ "12".toList.all Str.isDigit = true ∧ 3 ≤ digitsValue "12".toList := by decide
example : loadOld "S_6_1".toList = .error .valueError := by decide +kernel

end Curver
