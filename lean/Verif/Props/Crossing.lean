import Verif.Proofs.CrossAdd
import Verif.Props.Filling

/-!
# C85: when intersection numbers vanish; C86: laminations that are disjoint from each other; C87: intersection numbers of disjoint unions
-/

namespace Curver
open Triangulation

theorem Lam.intersection_shortens {P : Lam Int → Py LamClass} {dflt : Int → Int → Bool} {fuel : Nat} {c M : Lam Int} {x : Int} (h : c.intersectionAll P dflt fuel M = .ok x) :
    M.tri = c.tri ∧ ∃ r, c.shortenAll P dflt fuel dflt = .ok r := by
  unfold Lam.intersectionAll Lam.intersectionWith at h
  simp only [py_bind_eq_ok, pyAssert_ok_iff, beq_iff_eq] at h
  obtain ⟨-, h1, ⟨s, g⟩, h2, -⟩ := h
  exact ⟨h1, _, h2⟩

theorem Lam.isIntegral_total {L : Lam Int} (hL : L.Consistent) : ∃ b, L.isIntegral = .ok b := by
  unfold Lam.isIntegral
  rw [if_pos (by rw [List.all_eq_true]; intro _ _; rfl)]
  refine Lam.pyAllM_total (fun x hx => ?_)
  obtain ⟨y, z, hg⟩ := hL.1.1.comp.exists_glues (mem_labels.1 hx)
  have hz : L.tri.Glues z x y := by
    unfold Triangulation.Glues at hg ⊢
    tauto
  rw [← Lam.leftWeight_eq hL.1 hz, hL.left (hL.1.1.comp.label_of_glues hz).1, py_bind_ok]
  exact ⟨_, rfl⟩

/-! ## C85 -/

/-- C85: `c.intersection(M)` is not negative, and it is zero exactly when `c` and `M` are disjoint, that is when they can be drawn in the surface together without crossing each other (this includes that they may
be parallel).  Here `M` consists of closed curves and `c` is any integral lamination. -/
theorem C85_closed (P : Lam Int → Py LamClass) (dflt : Int → Int → Bool) (fuel : Nat) (c M : Lam Int) (hc : c.Consistent) (hM : M.NoArcs) (x : Int) (h : c.intersectionAll P dflt fuel M = .ok x) :
    0 ≤ x ∧ (x = 0 ↔ c.DisjointFrom M) := by
  obtain ⟨h1, ⟨s, g⟩, h2⟩ := Lam.intersection_shortens h
  exact (Lam.ended hc h2).crossings hc (Lam.noArcs_iff.1 hM).1 (.inl hM) h1 h2 h

/-- C85: the same when `M` is any integral lamination, possibly with arcs, as long as no component of `c` is a curve around a vertex.  (Without this it is false: see `C63_not_symmetric`.) -/
theorem C85_any (P : Lam Int → Py LamClass) (dflt : Int → Int → Bool) (fuel : Nat) (c M : Lam Int) (hc : c.Consistent) (hp : ∀ X, c.HasPart X → X.NoArcs → ¬ X.Peripheral) (hM : M.Consistent) (x : Int)
    (h : c.intersectionAll P dflt fuel M = .ok x) : 0 ≤ x ∧ (x = 0 ↔ c.DisjointFrom M) := by
  obtain ⟨h1, ⟨s, g⟩, h2⟩ := Lam.intersection_shortens h
  exact (Lam.ended hc h2).crossings hc hM (.inr hp) h1 h2 h

/-- C85: for closed curves it does not matter which one is asked: `a.intersection(b) == 0` and `b.intersection(a) == 0` are the same. -/
theorem C85_symmetric (P P' : Lam Int → Py LamClass) (dflt dflt' : Int → Int → Bool) (fuel fuel' : Nat) (a b : Lam Int) (ha : a.NoArcs) (hb : b.NoArcs) (x y : Int)
    (h1 : a.intersectionAll P dflt fuel b = .ok x) (h2 : b.intersectionAll P' dflt' fuel' a = .ok y) : x = 0 ↔ y = 0 := by
  rw [(C85_closed P dflt fuel a b (Lam.noArcs_iff.1 ha).1 hb x h1).2, (C85_closed P' dflt' fuel' b a (Lam.noArcs_iff.1 hb).1 ha y h2).2]
  exact ⟨fun h => h.symm, fun h => h.symm⟩

/-- C85: a multicurve does not intersect itself, nor do its components intersect it. -/
theorem C85_self (P : Lam Int → Py LamClass) (dflt : Int → Int → Bool) (fuel : Nat) (c : Lam Int) (hc : c.NoArcs) (x : Int) (h : c.intersectionAll P dflt fuel c = .ok x) : x = 0 :=
  (C85_closed P dflt fuel c c (Lam.noArcs_iff.1 hc).1 hc x h).2.2 (Lam.double (Lam.noArcs_iff.1 hc).1)

/-- C85: whether the intersection number of closed curves is zero does not change under mappings. -/
theorem C85_mapping (P P' : Lam Int → Py LamClass) (dflt dflt' : Int → Int → Bool) (fuel fuel' : Nat) (g : Enc) (hg : g.Legal) (a b a' b' : Lam Int) (ha : a.NoArcs) (hb : b.NoArcs) (h1 : g.applyLam a = .ok a')
    (h2 : g.applyLam b = .ok b') (x y : Int) (h3 : a.intersectionAll P dflt fuel b = .ok x) (h4 : a'.intersectionAll P' dflt' fuel' b' = .ok y) : x = 0 ↔ y = 0 := by
  have ca := (Lam.noArcs_iff.1 ha).1
  have cb := (Lam.noArcs_iff.1 hb).1
  rw [(C85_closed P dflt fuel a b ca hb x h3).2, (C85_closed P' dflt' fuel' a' b' (ca.enc hg h1) (hg.noArcs hb h2) y h4).2]
  have ht : a.tri = b.tri := (Lam.intersection_shortens h3).1.symm
  have sr : ∀ {L L' : Lam Int}, g.applyLam L = .ok L' → L.tri = g.source := fun h => (Enc.applyLam_source h).symm
  constructor
  · intro h
    obtain ⟨X, x1, x2⟩ := h.enc hg (sr h2) h2
    cases h1.symm.trans x1
    exact x2
  · intro h
    have i1 := (hg.undo ca.1 h1).2.2.2
    have i2 := (hg.undo cb.1 h2).2.2.2
    obtain ⟨X, x1, x2⟩ := h.enc hg.inv' (Enc.applyLam_source i2).symm i2
    cases i1.symm.trans x1
    exact x2

/-! ## C86 -/

/-- C86: laminations of which every two are disjoint can all be drawn at the same time, and the other way round. -/
theorem C86_together (T : Triangulation) (hT : T.Valid) (Xs : List (Lam Int)) (hX : ∀ X ∈ Xs, X.Consistent ∧ X.tri = T) :
    (∀ X ∈ Xs, ∀ Y ∈ Xs, X.DisjointFrom Y) ↔ ∃ U : Lam Int, U.tri = T ∧ U.Consistent ∧ U.Unions Xs := by
  constructor
  · intro h
    exact Lam.exists_union_of_pairwise hT hX (List.pairwise_of_forall_mem_list (fun X h1 Y h2 => h X h1 Y h2))
  · rintro ⟨U, -, u2, u3⟩ X h1 Y h2
    haveI : Std.Symm Lam.DisjointFrom := ⟨fun a b q => Lam.DisjointFrom.symm q⟩
    exact List.Pairwise.forall_of_forall (fun X h => Lam.double (hX X h).1) (u3.pairwise u2) h1 h2

/-- C86: a lamination is disjoint from a disjoint union exactly when it is disjoint from its parts. -/
theorem C86_union (X S N M : Lam Int) (hS : S.Consistent) (hu : S.IsUnion N M) : X.DisjointFrom S ↔ X.DisjointFrom N ∧ X.DisjointFrom M := by
  refine ⟨fun h => ⟨h.left hu, h.left hu.symm⟩, fun h => h.1.union hS hu h.2⟩

/-- C86: `disjoint_sum` of a dictionary of laminations of which every two are disjoint, and with multiplicities that are not negative, returns their disjoint union, each taken as often as its multiplicity says, with
the right class if the classes of the entries are right. -/
theorem C86_disjoint_sum (P : Lam Int → Py LamClass) (T : Triangulation) (hT : T.Valid) (ls : List (Lam Int × Int)) (hl : ∀ p ∈ ls, p.1.Consistent ∧ p.1.tri = T ∧ 0 ≤ p.2)
    (hp : ls.Pairwise (fun p q => p.1.DisjointFrom q.1)) (hd : ∀ p ∈ ls, p.1.Describes p.1.cls) :
    ∃ s, T.disjointSumDict P ls = .ok s ∧ s.tri = T ∧ s.Consistent ∧ s.Unions (ls.flatMap (fun p => List.replicate p.2.toNat p.1)) ∧ s.Describes s.cls := by
  obtain ⟨U, u1, u2, u3⟩ := Lam.exists_union_of_pairwise hT (Xs := ls.flatMap (fun p => List.replicate p.2.toNat p.1)) (fun X hX => by
    obtain ⟨p, p1, p2⟩ := List.mem_flatMap.1 hX
    rw [List.eq_of_mem_replicate p2]
    exact ⟨(hl p p1).1, (hl p p1).2.1⟩) (Lam.replicate_pairwise (fun p h => (hl p h).1) hp)
  have tot : ∃ s, T.disjointSumDict P ls = .ok s := by
    unfold Triangulation.disjointSumDict
    rw [if_neg (by simp only [List.any_eq_true, bne_iff_ne, not_exists, not_and, not_not, Prod.forall]; exact fun a b h => (hl _ h).2.1),
      if_neg (by simp only [List.any_eq_true, decide_eq_true_eq, not_exists, not_and, not_lt, Prod.forall]; exact fun a b h => (hl _ h).2.2)]
    split
    · exact ⟨_, rfl⟩
    · obtain ⟨b, hb⟩ := Lam.pyAllM_total (f := fun p : Lam Int × Int => p.1.isIntegral) (l := keepNonempty ls) (fun p hp => by
        have hm : p ∈ ls := List.mem_of_mem_filter hp
        exact Lam.isIntegral_total (hl p hm).1)
      rw [hb, py_bind_ok, Lam.pyAllM_isIntegral hb]
      exact ⟨_, rfl⟩
  obtain ⟨s, hs⟩ := tot
  obtain ⟨a1, a2, a3⟩ := C68_disjoint_sum P ls U s u2 u3 (fun p h => (hl p h).1.1) (fun p h _ _ => hd p h) (by rw [u1]; exact hs)
  have e : Lam.Same U s := ⟨a1.symm, a2.symm⟩
  refine ⟨s, hs, a1.trans u1, ?_, u3.same e, a3⟩
  have : s = ⟨U.tri, U.geometric, s.cls⟩ := by rw [← a1, ← a2]
  rw [this]; exact u2

/-! ## C87 -/

/-- C87: `c.intersection` of a disjoint union is the sum of the intersection numbers of its parts. -/
theorem C87_union (P : Lam Int → Py LamClass) (dflt : Int → Int → Bool) (fuel : Nat) (c S N M : Lam Int) (hc : c.Consistent) (hS : S.Consistent) (hu : S.IsUnion N M) (x : Int)
    (h : c.intersectionAll P dflt fuel S = .ok x) : ∃ y z, c.intersectionAll P dflt fuel N = .ok y ∧ c.intersectionAll P dflt fuel M = .ok z ∧ x = y + z := by
  obtain ⟨h1, ⟨s, g⟩, h2⟩ := Lam.intersection_shortens h
  have E := Lam.ended hc h2
  have w := hu.wf
  have C := hu.consistent hS
  obtain ⟨y, hy⟩ := E.intersection C.1 (by rw [w.2.2.1, h1])
  obtain ⟨z, hz⟩ := E.intersection C.2 (by rw [w.2.2.2, h1])
  exact ⟨y, z, hy _ h2, hz _ h2, E.crossings_add hS hu h1 h2 h (hy _ h2) (hz _ h2)⟩

/-- C87: and so for any number of parts, for instance the components of `L`. -/
theorem C87_parts (P : Lam Int → Py LamClass) (dflt : Int → Int → Bool) (fuel : Nat) (c L : Lam Int) (hc : c.Consistent) (hL : L.Consistent) (Xs : List (Lam Int)) (hu : L.Unions Xs) (x : Int)
    (h : c.intersectionAll P dflt fuel L = .ok x) : ∃ xs, Xs.mapM (fun X => c.intersectionAll P dflt fuel X) = .ok xs ∧ x = xs.sum := by
  induction hu generalizing x with
  | @nil L hb =>
    refine ⟨[], rfl, ?_⟩
    obtain ⟨Z, z1, z2⟩ := Lam.union_blank hL.1
    have wZ := z2.wf
    have this : L.IsUnion L L := z2.same wZ.1 hL.1 ⟨rfl, rfl⟩ (Lam.same_of_w wZ.1 hL.1 wZ.2.2.1 (fun x hx => by
      rw [wZ.2.2.1] at hx
      rw [hb x hx, z1 x (by rw [wZ.2.2.1]; exact hx)])) ⟨rfl, rfl⟩
    obtain ⟨y, z, h1, h2, h3⟩ := C87_union P dflt fuel c L L L hc hL this x h
    rw [h] at h1 h2
    injection h1 with h1
    injection h2 with h2
    rw [List.sum_nil]
    omega
  | @cons L X N Xs hu hN ih =>
    obtain ⟨y, z, h1, h2, h3⟩ := C87_union P dflt fuel c L X N hc hL hu x h
    obtain ⟨xs, x1, x2⟩ := ih (hu.consistent hL).2 z h2
    refine ⟨y :: xs, ?_, by rw [List.sum_cons, h3, x2]⟩
    rw [List.mapM_cons, h1, py_bind_ok, x1, py_bind_ok]
    rfl

/-! ## Examples -/

/-- the long curve crosses `torusCurve`, and the curve around the puncture does not -/
example : torusLong.Consistent ∧ torusCurve.NoArcs ∧ torusLong.intersectionAll anyClass neverSlow 20 torusCurve = .ok 5 ∧ ¬ torusLong.DisjointFrom torusCurve := by
  have h : torusLong.intersectionAll anyClass neverSlow 20 torusCurve = .ok 5 := by decide +kernel
  have hL := (Lam.noArcs_iff.1 torusLong_noArcs).1
  refine ⟨hL, torusCurve_noArcs, h, fun hd => ?_⟩
  exact absurd ((C85_closed _ _ _ _ _ hL torusCurve_noArcs _ h).2.2 hd) (by decide)

theorem torusCurve_around : torusCurve.DisjointFrom torusAround :=
  ⟨torusBoth, torusBoth_consistent, torusBoth_union⟩

example : torusCurve.intersectionAll anyClass neverSlow 20 torusAround = .ok 0 := by decide +kernel

/-- a curve that does not go round a vertex -/
theorem torusLong_essential : ∀ X, torusLong.HasPart X → X.NoArcs → ¬ X.Peripheral := by
  have hL := (Lam.noArcs_iff.1 torusLong_noArcs).1
  intro X hX _ hp
  obtain ⟨Z, z1, z2⟩ := Lam.union_blank hL.1
  obtain ⟨Y, y1, y2⟩ := (Lam.Unions.hasPart_iff hL (.cons z2.symm (.nil z1)) (by simpa using torusLong_connected)).1 hX
  obtain rfl := List.mem_singleton.1 y1
  obtain ⟨b, b1, b2⟩ := Lam.isPeripheral_spec anyClass hL
  have : torusLong.isPeripheral anyClass = .ok false := by decide +kernel
  rw [this] at b1
  injection b1 with b1
  subst b1
  exact absurd (b2.2 (hp.same y2.symm)) (by simp)

/-- an arc that is crossed by it -/
example : (⟨torus, [0, -1, 0], .arc⟩ : Lam Int).Consistent ∧ torusLong.intersectionAll anyClass neverSlow 20 (⟨torus, [0, -1, 0], .arc⟩ : Lam Int) = .ok 7 ∧ ¬ torusLong.DisjointFrom ⟨torus, [0, -1, 0], .arc⟩ := by
  have hc : (⟨torus, [0, -1, 0], .arc⟩ : Lam Int).Consistent := by
    rw [Lam.consistent_iff]
    refine ⟨⟨torus_valid, by decide⟩, ?_⟩
    intro a b c h
    rcases h with h | h | h <;> simp [torus] at h <;> rcases h with ⟨rfl, rfl, rfl⟩ | ⟨rfl, rfl, rfl⟩ <;> first | decide | (unfold TriEven; decide)
  have h : torusLong.intersectionAll anyClass neverSlow 20 (⟨torus, [0, -1, 0], .arc⟩ : Lam Int) = .ok 7 := by decide +kernel
  refine ⟨hc, h, fun hd => ?_⟩
  exact absurd ((C85_any _ _ _ _ _ (Lam.noArcs_iff.1 torusLong_noArcs).1 torusLong_essential hc _ h).2.2 hd) (by decide)

/-- one curve and two copies of another -/
example : ∃ s, torus.disjointSumDict anyClass [(torusCurve, 1), (⟨torus, [2, 2, 2], .curve⟩, 2)] = .ok s ∧ s.Unions [torusCurve, ⟨torus, [2, 2, 2], .curve⟩, ⟨torus, [2, 2, 2], .curve⟩] ∧ s.Describes s.cls := by
  have hA : (⟨torus, [2, 2, 2], .curve⟩ : Lam Int).Consistent := (torusBoth_union.consistent torusBoth_consistent).2
  have d1 := (C68_lamination neverSlow 20 torus torus_valid [1, 1, 2] torusCurve (by decide +kernel)).2.2.2.1
  have d2 := (C68_lamination neverSlow 20 torus torus_valid [2, 2, 2] ⟨torus, [2, 2, 2], .curve⟩ (by decide +kernel)).2.2.2.1
  obtain ⟨s, s1, -, -, s2, s3⟩ := C86_disjoint_sum anyClass torus torus_valid [(torusCurve, 1), (⟨torus, [2, 2, 2], .curve⟩, 2)] (by
    intro p hp
    simp only [List.mem_cons, List.not_mem_nil, or_false] at hp
    rcases hp with rfl | rfl
    · exact ⟨torusCurve_consistent, rfl, by decide⟩
    · exact ⟨hA, rfl, by decide⟩) (by
    simp only [List.pairwise_cons, List.mem_cons, List.not_mem_nil, or_false, forall_eq]
    exact ⟨torusCurve_around.same ⟨rfl, rfl⟩ ⟨rfl, rfl⟩, by simp, by simp⟩) (by
    intro p hp
    simp only [List.mem_cons, List.not_mem_nil, or_false] at hp
    rcases hp with rfl | rfl
    · exact d1
    · exact d2)
  exact ⟨s, s1, s2, s3⟩

/-- the long curve crosses `torusBoth` as often as its two parts together -/
example : torusBoth.Consistent ∧ torusBoth.IsUnion torusCurve torusAround ∧ torusLong.intersectionAll anyClass neverSlow 20 torusBoth = .ok 5 ∧ torusLong.intersectionAll anyClass neverSlow 20 torusCurve = .ok 5 ∧
    torusLong.intersectionAll anyClass neverSlow 20 torusAround = .ok 0 := ⟨torusBoth_consistent, torusBoth_union, by decide +kernel, by decide +kernel, by decide +kernel⟩

end Curver
