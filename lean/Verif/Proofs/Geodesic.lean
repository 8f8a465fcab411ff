import Verif.Spec.Geodesic
import Verif.Props.CurveGraph
import Verif.Props.VertexCycles
import Verif.Proofs.HalfAct

/-!
# `quasiconvex`, `all_tight_geodesic_multicurves` and `tight_geodesic`
-/

namespace Curver
open Triangulation

namespace CurveGraph
variable {P : Lam Int → Py LamClass} {dflt : Int → Int → Bool} {fuel : Nat} {T : Triangulation} {a b K L M N X Y : Lam Int} {s r : List (Lam Int)}

theorem MultiCurveOn.noArcs (h : MultiCurveOn T M) : M.NoArcs ∧ ¬ M.Blank := Lam.Describes.noArcs h.2.1 h.2.2.2 h.2.2.1

theorem Adjacent.symm (h : Adjacent M N) : Adjacent N M := ⟨h.1.symm, fun ⟨X, x1, x2⟩ => h.2 ⟨X, x2, x1⟩⟩

theorem Adjacent.same (h : Adjacent M N) (e1 : Lam.Same M K) (e2 : Lam.Same N L) : Adjacent K L :=
  ⟨h.1.same e1 e2, fun ⟨X, x1, x2⟩ => h.2 ⟨X, x1.same e1.symm, x2.same e2.symm⟩⟩

theorem checkCurves_ok {u : Unit} (h : checkCurves T a b = .ok u) : a.cls = .curve ∧ b.cls = .curve ∧ a.tri = T ∧ b.tri = T := by
  unfold checkCurves at h
  simp only [py_bind_eq_ok, pyAssert_ok_iff, beq_iff_eq] at h
  obtain ⟨_, h1, _, h2, _, h3, h4⟩ := h
  exact ⟨h1, h2, h3, h4⟩

/-! ## sets -/

theorem foldl_addTo {l : List (Lam Int)} : ∀ {s : List (Lam Int)}, (∀ K ∈ l.foldl Lam.addTo s, K ∈ s ∨ K ∈ l) ∧ (∀ K ∈ s, K ∈ l.foldl Lam.addTo s) ∧ ∀ K ∈ l, ∃ M ∈ l.foldl Lam.addTo s, Lam.Same M K := by
  induction l with
  | nil => exact fun {s} => ⟨fun K h => .inl h, fun K h => h, by simp⟩
  | cons x l ih =>
    intro s
    obtain ⟨i1, i2, i3⟩ := ih (s := Lam.addTo s x)
    refine ⟨fun K h => ?_, fun K h => i2 K (Lam.addTo_sub h), fun K h => ?_⟩
    · rcases i1 K h with q | q
      · rcases Lam.mem_addTo q with q | rfl
        · exact .inl q
        · exact .inr (by simp)
      · exact .inr (by simp [q])
    · rcases List.mem_cons.1 h with rfl | h
      · obtain ⟨M, m1, m2⟩ := Lam.addTo_has (L := K) s
        exact ⟨M, i2 M m1, m2⟩
      · exact i3 K h

theorem mem_pairs {α : Type} {x y : α} : ∀ {l : List α}, (x, y) ∈ pairs l → x ∈ l ∧ y ∈ l
  | z :: l, h => by
    unfold pairs at h
    rcases List.mem_append.1 h with h | h
    · obtain ⟨w, w1, w2⟩ := List.mem_map.1 h
      cases w2
      exact ⟨by simp, by simp [w1]⟩
    · obtain ⟨h1, h2⟩ := mem_pairs h
      exact ⟨by simp [h1], by simp [h2]⟩

theorem pairs_mem {α : Type} {x y : α} (hn : x ≠ y) : ∀ {l : List α}, x ∈ l → y ∈ l → (x, y) ∈ pairs l ∨ (y, x) ∈ pairs l
  | z :: l, hx, hy => by
    unfold pairs
    rcases List.mem_cons.1 hx with hx' | hx' <;> rcases List.mem_cons.1 hy with hy' | hy'
    · exact absurd (hx'.trans hy'.symm) hn
    · exact .inl (List.mem_append_left _ (List.mem_map.2 ⟨y, hy', by rw [hx']⟩))
    · exact .inr (List.mem_append_left _ (List.mem_map.2 ⟨x, hx', by rw [hy']⟩))
    · rcases pairs_mem hn hx' hy' with h | h
      · exact .inl (by simp [h])
      · exact .inr (by simp [h])

/-! ## the graph -/

theorem graphEdges_spec (hs : ∀ M ∈ s, MultiCurveOn T M) {E : List (Lam Int × Lam Int)} (h : graphEdges P dflt fuel s = .ok E) :
    (∀ e ∈ E, e.1 ∈ s ∧ e.2 ∈ s ∧ Adjacent e.1 e.2) ∧ ∀ u ∈ s, ∀ v ∈ s, u ≠ v → Adjacent u v → (u, v) ∈ E ∨ (v, u) ∈ E := by
  have step : ∀ (S : List (Lam Int × Lam Int)) (e : Lam Int × Lam Int) (S' : List (Lam Int × Lam Int)), e ∈ pairs s →
      (do
        let i ← e.1.intersectionAll P dflt fuel e.2
        if i = 0 then do
          let n ← e.1.noCommonComponent P dflt fuel e.2
          if n then return S ++ [e] else return S
        else return S : Py _) = .ok S' → (Adjacent e.1 e.2 ∧ S' = S ++ [e]) ∨ (¬ Adjacent e.1 e.2 ∧ S' = S) := by
    intro S e S' he h
    obtain ⟨e1, e2⟩ := mem_pairs (x := e.1) (y := e.2) he
    have m1 := hs _ e1
    have m2 := hs _ e2
    rw [py_bind_eq_ok] at h
    obtain ⟨i, h1, h⟩ := h
    have hi := (C85_closed P dflt fuel e.1 e.2 m1.2.1 m2.noArcs.1 i h1).2
    split_ifs at h with q
    · rw [py_bind_eq_ok] at h
      obtain ⟨n, h2, h⟩ := h
      have hn := C70_no_common P dflt fuel e.1 e.2 m1.2.1 m2.2.1 m1.2.2.2.right m2.2.2.2.right n h2
      split_ifs at h with t <;> injection h with h
      · exact .inl ⟨⟨hi.1 q, hn.1 t⟩, h.symm⟩
      · exact .inr ⟨fun x => t (hn.2 x.2), h.symm⟩
    · injection h with h
      exact .inr ⟨fun x => q (hi.2 x.1), h.symm⟩
  unfold graphEdges at h
  obtain ⟨r1, r2, -⟩ := foldlM_all (fun S : List (Lam Int × Lam Int) => ∀ e ∈ S, e.1 ∈ s ∧ e.2 ∈ s ∧ Adjacent e.1 e.2) (fun e S => Adjacent e.1 e.2 → e ∈ S) (by simp) (fun S e S' he hS h => by
    obtain ⟨e1, e2⟩ := mem_pairs (x := e.1) (y := e.2) he
    rcases step S e S' he h with ⟨q, rfl⟩ | ⟨q, rfl⟩
    · refine ⟨fun x hx => ?_, fun _ => by simp, fun y hy z => by simp [hy z]⟩
      rcases List.mem_append.1 hx with hx | hx
      · exact hS x hx
      · rw [List.mem_singleton.1 hx]
        exact ⟨e1, e2, q⟩
    · exact ⟨hS, fun z => absurd z q, fun y hy => hy⟩) h
  refine ⟨r1, fun u hu v hv hn ha => ?_⟩
  rcases pairs_mem hn hu hv with q | q
  · exact .inl (r2 _ q ha)
  · exact .inr (r2 _ q ha.symm)

/-! ## the multicurves on short tight paths -/

section
variable (hP : ∀ L, ∃ k, P L = .ok k) (hT : Lam.TellsClass P)
include hP hT

/-- what a path consists of -/
theorem tightPaths_parts (ha : MultiCurveOn T a) (hb : MultiCurveOn T b) {n : Nat} {r : List (List (Lam Int))} (h : tightPaths P dflt fuel T a b n = .ok r) :
    ∀ p ∈ r, ∀ M ∈ p, M = a ∨ M = b ∨ a.boundaryUnion P dflt fuel b = .ok M ∧ MultiCurveOn T M ∧ ¬ M.Peripheral ∧ M.DisjointFrom a ∧ (¬ ∃ X, a.HasPart X ∧ M.HasPart X) ∧ ¬ ∃ X, b.HasPart X ∧ M.HasPart X := by
  intro p hp M hM
  match n, h with
  | 0, h =>
    obtain ⟨q, -⟩ := C98_zero P dflt fuel T a b r h
    rcases q with rfl | rfl
    · simp at hp
      subst hp
      exact .inl (by simpa using hM)
    · cases hp
  | 1, h =>
    obtain ⟨q, -⟩ := C98_one P dflt fuel T hP hT a b ha.2.1 hb.2.1 ha.2.2.2 hb.2.2.2 r h
    rcases q with rfl | rfl
    · simp at hp
      subst hp
      rcases List.mem_cons.1 hM with q | q
      · exact .inl q
      · exact .inr (.inl (by simpa using q))
    · cases hp
  | 2, h =>
    obtain ⟨m, m1, m2, m3, q, m4⟩ := C98_two P dflt fuel T hP hT a b ha.2.1 hb.2.1 ha.2.2.2 hb.2.2.2 r h
    have hr : r ≠ [] := by
      rintro rfl
      cases hp
    obtain ⟨k1, k2, k3⟩ := m4.1 hr
    have q := q.resolve_right hr
    subst q
    simp at hp
    subst hp
    rcases List.mem_cons.1 hM with q | hM
    · exact .inl q
    rcases List.mem_cons.1 hM with q | q
    · subst q
      refine .inr (.inr ⟨m1, ⟨?_, (Lam.noArcs_iff.1 m2).1, ?_, ?_⟩, k1, m3, k2, k3⟩)
      · exact (C97_boundary_union P dflt fuel a ha.noArcs.1 ha.2.2.2 hP hT b hb.2.1 hb.2.2.2 M m1).1.trans ha.1
      · exact m2.isMultiCurve (fun q => k1 q.peripheral) (C98_boundary_union_class P dflt fuel hP hT a b ha.noArcs.1 ha.2.2.2 hb.2.1 hb.2.2.2 M m1)
      · exact C98_boundary_union_class P dflt fuel hP hT a b ha.noArcs.1 ha.2.2.2 hb.2.1 hb.2.2.2 M m1
    · exact .inr (.inl (by simpa using q))
  | n + 3, h =>
    obtain ⟨q, -⟩ := C98_never P dflt fuel T hP hT a b ha.2.1 hb.2.1 ha.2.2.2 hb.2.2.2 (n + 3) (by omega) r h
    subst q
    cases hp

omit hP hT in
/-- one round for each length and pair -/
theorem tightMulticurves_calls {guide : List (Lam Int)} (h : tightMulticurves P dflt fuel T guide = .ok r) (Q : List (Lam Int) → Prop) (h0 : Q [])
    (hQ : ∀ S n paths, ∀ c1 ∈ guide, ∀ c2 ∈ guide, Q S → tightPaths P dflt fuel T c1 c2 n = .ok paths → Q (paths.flatten.foldl Lam.addTo S)) :
    Q r ∧ ∀ n < 6 * quasiconvexity + 3, ∀ c1 ∈ guide, ∀ c2 ∈ guide, ∃ paths, tightPaths P dflt fuel T c1 c2 n = .ok paths ∧ ∀ p ∈ paths, ∀ M ∈ p, ∃ K ∈ r, Lam.Same K M := by
  unfold tightMulticurves at h
  let R (n : Nat) (c1 c2 : Lam Int) (S : List (Lam Int)) : Prop := ∃ paths, tightPaths P dflt fuel T c1 c2 n = .ok paths ∧ ∀ p ∈ paths, ∀ M ∈ p, ∃ K ∈ S, Lam.Same K M
  have mono : ∀ {n c1 c2} {S : List (Lam Int)} (l : List (Lam Int)), R n c1 c2 S → R n c1 c2 (l.foldl Lam.addTo S) := by
    rintro n c1 c2 S l ⟨paths, h1, h2⟩
    exact ⟨paths, h1, fun p hp M hM => by
      obtain ⟨K, k1, k2⟩ := h2 p hp M hM
      exact ⟨K, foldl_addTo.2.1 K k1, k2⟩⟩
  -- `S` grows
  let G (S : List (Lam Int)) : Prop := Q S
  have inner : ∀ (n : Nat) (c1 : Lam Int), c1 ∈ guide → ∀ (S S' : List (Lam Int)), Q S → guide.foldlM (fun s c2 => do
        let paths ← tightPaths P dflt fuel T c1 c2 n
        return paths.flatten.foldl Lam.addTo s) S = (.ok S' : Py _) → (Q S' ∧ (∀ c2 ∈ guide, R n c1 c2 S') ∧ ∀ n' d1 d2, R n' d1 d2 S → R n' d1 d2 S') := by
    intro n c1 hc1 S S' hS h
    obtain ⟨g1, g2⟩ : Q S' ∧ ∀ n' d1 d2, R n' d1 d2 S → R n' d1 d2 S' :=
      foldlM_inv (fun S' => Q S' ∧ ∀ n' d1 d2, R n' d1 d2 S → R n' d1 d2 S') ⟨hS, fun _ _ _ x => x⟩ (fun A c2 A' hc2 q hA => by
        rw [py_bind_eq_ok] at hA
        obtain ⟨paths, a1, a2⟩ := hA
        injection a2 with a2
        subst a2
        exact ⟨hQ A n paths c1 hc1 c2 hc2 q.1 a1, fun n' d1 d2 x => mono _ (q.2 n' d1 d2 x)⟩) h
    refine ⟨g1, fun c2 hc2 => ?_, g2⟩
    refine foldlM_hits (Q := fun S' => R n c1 c2 S') hc2 (fun A d A' _ hA q => ?_) (fun A A' hA => ?_) h
    · rw [py_bind_eq_ok] at hA
      obtain ⟨paths, a1, a2⟩ := hA
      injection a2 with a2
      subst a2
      exact mono _ q
    · rw [py_bind_eq_ok] at hA
      obtain ⟨paths, a1, a2⟩ := hA
      injection a2 with a2
      subst a2
      exact ⟨paths, a1, fun p hp M hM => foldl_addTo.2.2 M (List.mem_flatten.2 ⟨p, hp, hM⟩)⟩
  have middle : ∀ (n : Nat) (S S' : List (Lam Int)), Q S → guide.foldlM (fun s c1 => guide.foldlM (fun s c2 => do
        let paths ← tightPaths P dflt fuel T c1 c2 n
        return paths.flatten.foldl Lam.addTo s) s) S = (.ok S' : Py _) → (Q S' ∧ (∀ c1 ∈ guide, ∀ c2 ∈ guide, R n c1 c2 S') ∧ ∀ n' d1 d2, R n' d1 d2 S → R n' d1 d2 S') := by
    intro n S S' hS h
    obtain ⟨⟨g1, g2⟩, g3, -⟩ := foldlM_all (fun S' => Q S' ∧ ∀ n' d1 d2, R n' d1 d2 S → R n' d1 d2 S') (fun (c1 : Lam Int) S' => ∀ c2 ∈ guide, R n c1 c2 S') ⟨hS, fun _ _ _ x => x⟩ (fun A c1 A' hc1 q hA => by
      obtain ⟨i1, i2, i3⟩ := inner n c1 hc1 A A' q.1 hA
      exact ⟨⟨i1, fun n' d1 d2 x => i3 n' d1 d2 (q.2 n' d1 d2 x)⟩, i2, fun y hy c2 hc2 => i3 _ _ _ (hy c2 hc2)⟩) h
    exact ⟨g1, g3, g2⟩
  obtain ⟨g1, g2, -⟩ := foldlM_all Q (fun (n : Nat) S' => ∀ c1 ∈ guide, ∀ c2 ∈ guide, R n c1 c2 S') h0 (fun A n A' _ q hA => by
    obtain ⟨i1, i2, i3⟩ := middle n A A' q hA
    exact ⟨i1, i2, fun y hy c1 hc1 c2 hc2 => i3 _ _ _ (hy c1 hc1 c2 hc2)⟩) h
  exact ⟨g1, fun n hn => g2 n (List.mem_range.2 (by omega))⟩

end

/-! ## tightening -/

section
variable (hP : ∀ L, ∃ k, P L = .ok k) (hT : Lam.TellsClass P)
include hP hT

/-- what tightening leads to -/
theorem tightenAfter_spec : ∀ {l : List (Lam Int)} {x : Lam Int} {r : List (Lam Int)}, x.tri = T → x.NoArcs → x.Describes x.cls → (∀ M ∈ l, MultiCurveOn T M) → tightenAfter P dflt fuel x l = .ok r →
    r.length = l.length ∧ r.getLast? = l.getLast? ∧ (∀ M ∈ r, M.tri = T ∧ M.NoArcs ∧ M.Describes M.cls) ∧ (x :: r.dropLast).IsChain (fun M N => N.DisjointFrom M)
  | [], x, r, _, _, _, _, h => by
    unfold tightenAfter at h
    injection h with h
    subst h
    simp
  | [y], x, r, _, _, _, hl, h => by
    unfold tightenAfter at h
    injection h with h
    subst h
    have := hl y (by simp)
    refine ⟨rfl, rfl, ?_, by simp⟩
    intro M hM
    rw [List.mem_singleton.1 hM]
    exact ⟨this.1, this.noArcs.1, this.2.2.2⟩
  | y :: z :: l, x, r, xt, xn, xd, hl, h => by
    unfold tightenAfter at h
    simp only [py_bind_eq_ok] at h
    obtain ⟨m, m1, tail, t1, h⟩ := h
    injection h with h
    subst h
    have hz := hl z (by simp)
    obtain ⟨b1, b2, b3⟩ := C97_boundary_union P dflt fuel x xn xd hP hT z hz.2.1 hz.2.2.2 m m1
    have b4 := C98_boundary_union_class P dflt fuel hP hT x z xn xd hz.2.1 hz.2.2.2 m m1
    obtain ⟨i1, i2, i3, i4⟩ := tightenAfter_spec (l := z :: l) (b1.trans xt) b2 b4 (fun M hM => hl M (by simp at hM ⊢; tauto)) t1
    have ne : tail ≠ [] := by
      rintro rfl
      simp at i1
    refine ⟨by simp [i1], ?_, ?_, ?_⟩
    · obtain ⟨w, ws, rfl⟩ := List.exists_cons_of_ne_nil ne
      rw [List.getLast?_cons_cons, List.getLast?_cons_cons, i2]
    · intro M hM
      rcases List.mem_cons.1 hM with rfl | hM
      · exact ⟨b1.trans xt, b2, b4⟩
      · exact i3 M hM
    · rw [List.dropLast_cons_of_ne_nil ne]
      exact List.IsChain.cons_cons b3 i4

end

/-! ## the quasiconvex subset -/

theorem firstCurve_spec : ∀ {cs : List (List Int)}, Lam.firstCurve P T cs = .ok K → ∃ c ∈ cs, T.laminationFromCutSequence P c = .ok K ∧ K.cls = .curve
  | c :: cs, h => by
    unfold Lam.firstCurve at h
    rw [py_bind_eq_ok] at h
    obtain ⟨K', h1, h⟩ := h
    split_ifs at h with q
    · injection h with h
      subst h
      exact ⟨c, by simp, h1, by simpa using q⟩
    · obtain ⟨d, d1, d2⟩ := firstCurve_spec h
      exact ⟨d, by simp [d1], d2⟩

theorem vertexCycle_spec {cycles : List (Int × Int) → List (List Int)} (hcy : ListsCycles cycles) (hT : Lam.TellsClass P) (hL : L.NoArcs) (h : L.vertexCycle cycles P = .ok K) :
    K.tri = L.tri ∧ K.cls = .curve ∧ K.Consistent ∧ K.Describes K.cls ∧ K.IsVertexCycle L := by
  unfold Lam.vertexCycle at h
  rw [py_bind_eq_ok] at h
  obtain ⟨edges, h1, h⟩ := h
  obtain ⟨c, c1, c2, c3⟩ := firstCurve_spec h
  unfold laminationFromCutSequence at c2
  obtain ⟨k1, k2, k3⟩ := lamination_ok c2
  obtain ⟨-, s2, s3⟩ := (Lam.simple_iff hL h1 c).1 ((hcy edges).1 c c1)
  unfold lamination at c2
  rw [py_bind_eq_ok] at c2
  obtain ⟨_, -, c2⟩ := c2
  rw [if_pos rfl] at c2
  obtain ⟨q1, q2⟩ := Lam.promote_class (L := ⟨L.tri, L.tri.cutSequenceIntersections c, .lamination⟩) ⟨hL.1.1, k1⟩ c2
  have q2 := q2 hT
  exact ⟨k2, c3, q1, q2, Lam.simple_vertexCycle hL s2 s3 k2 k3 (by rw [c3] at q2; exact q2.1)⟩

theorem slice_legal {h : Enc} (hh : h.Legal) {i : Nat} {p : Enc} (hi : 1 ≤ i) (hp : h.slice none (some (i : Int)) = .ok p) : p.Legal := by
  have hne : 1 ≤ h.len := by
    unfold Enc.len
    exact List.length_pos_iff.2 hh.nonempty
  have e : h.slice none (some (i : Int)) = h.slice (some (0 : Nat)) (some ((min i h.len : Nat) : Int)) := by
    unfold Enc.slice
    dsimp only
    have c1 : pySlice h.sequence none (some (i : Int)) = pySlice h.sequence (some ((0 : Nat) : Int)) (some ((min i h.len : Nat) : Int)) := by
      unfold pySlice pyClip Enc.len
      simp only [Nat.cast_nonneg, Int.not_ofNat_neg, ↓reduceIte, Int.toNat_natCast, List.drop_zero, Nat.zero_min]
      congr 1
      omega
    rw [c1, Enc.sliceBound_nat, Enc.sliceBound_nat, Enc.sliceBound_nat]
    have c2 : Enc.sliceBound h.len 0 none = ((0 : Nat) : Int) := rfl
    have c3 : min (i : Int) h.len = min ((min i h.len : Nat) : Int) h.len := by omega
    rw [c2, c3]
  obtain ⟨q, q1, q2, -⟩ := C17_moves h hh 0 (min i h.len) (by omega) (by omega)
  rw [e, q1] at hp
  injection hp with hp
  rw [← hp]
  exact q2

/-- a mapping takes multicurves to multicurves -/
theorem apply_class {h : Enc} (hh : h.Legal) (hL : L.Consistent) (hd : L.Describes L.cls) (ha : h.applyLam L = .ok K) : K.tri = h.target ∧ K.Consistent ∧ K.cls = L.cls ∧ K.Describes K.cls := by
  obtain ⟨h1, h2⟩ := C68_mapping h hh L K hL hd ha
  exact ⟨(hh.undo hL.1 ha).2.1, hL.enc hh ha, h1, h2⟩

theorem quasiconvexLoop_spec {cycles : List (Int × Int) → List (List Int)} (hcy : ListsCycles cycles) (hT : Lam.TellsClass P) {invA invB : Enc} (hA : invA.Legal) (hB : invB.Legal) :
    ∀ {ms : List LMove} {S U : Triangulation} {i : Nat} {L : Lam Int} {s r : List (Lam Int)}, Path S ms U → L.NoArcs → L.tri = S → quasiconvexLoop P cycles invA invB ms i L s = .ok r →
      (∀ K ∈ s, K ∈ r) ∧ ∀ K ∈ r, K ∈ s ∨ K.tri = invA.target ∧ K.cls = .curve ∧ K.Consistent ∧ K.Describes K.cls
  | [], S, U, i, L, s, r, _, _, _, h => by
    unfold quasiconvexLoop at h
    injection h with h
    subst h
    exact ⟨fun _ h => h, fun _ h => .inl h⟩
  | m :: ms, S, U, i, L, s, r, hp, hL, ht, h => by
    unfold quasiconvexLoop at h
    simp only [py_bind_eq_ok] at h
    obtain ⟨tr, h1, vc, h2, back, h3, x, h4, y, h5, h⟩ := h
    obtain ⟨V, p1, p2⟩ : ∃ V, Path S [m] V ∧ Path V ms U := by
      cases hp with
      | cons _ _ _ hm hs => exact ⟨_, .cons _ _ _ hm (.nil _ hs.valid_source), hs⟩
    obtain ⟨n1, n2, -⟩ := Path.noArcs p1 hL ht (L' := tr) (by unfold performLam; rw [h1, py_bind_ok]; rfl)
    obtain ⟨v1, v2, v3, v4, -⟩ := vertexCycle_spec hcy hT n1 h2
    obtain ⟨x1, x2, x3, x4⟩ := apply_class (slice_legal hB (by omega) h3) v3 v4 h4
    obtain ⟨y1, y2, y3, y4⟩ := apply_class hA x2 x4 h5
    obtain ⟨r1, r2⟩ := quasiconvexLoop_spec hcy hT hA hB p2 n1 n2 h
    refine ⟨fun K hK => r1 K (Lam.addTo_sub hK), fun K hK => ?_⟩
    rcases r2 K hK with q | q
    · rcases Lam.mem_addTo q with q | rfl
      · exact .inl q
      · exact .inr ⟨y1, y3.trans (x3.trans v2), y2, y4⟩
    · exact .inr q

theorem quasiconvex_spec {cycles : List (Int × Int) → List (List Int)} (hcy : ListsCycles cycles) (hT : Lam.TellsClass P) (ha : a.Consistent) (hb : b.Consistent) (hda : a.Describes a.cls) (hdb : b.Describes b.cls)
    (h : quasiconvex P dflt fuel cycles T a b = .ok r) : (∃ x ∈ r, Lam.Same x a) ∧ (∃ x ∈ r, Lam.Same x b) ∧ ∀ K ∈ r, K.cls = .curve ∧ MultiCurveOn T K := by
  unfold quasiconvex at h
  rw [py_bind_eq_ok] at h
  obtain ⟨_, h0, h⟩ := h
  obtain ⟨c1, c2, c3, c4⟩ := checkCurves_ok h0
  clear h0
  -- the order does not matter
  have key : ∀ a b : Lam Int, a.Consistent → b.Consistent → a.Describes a.cls → b.Describes b.cls → a.cls = .curve → b.cls = .curve → a.tri = T → b.tri = T →
      (do
        let (_, conjugatorA) ← a.shortenAll P dflt fuel dflt
        let invA ← conjugatorA.inverse
        let shortB ← conjugatorA.applyLam b
        let (_, conjugatorB) ← shortB.shortenAll P dflt fuel dflt
        let invB ← conjugatorB.inverse
        quasiconvexLoop P cycles invA invB conjugatorB.sequence.reverse 0 shortB (Lam.addTo [a] b) : Py _) = .ok r →
      (∃ x ∈ r, Lam.Same x a) ∧ (∃ x ∈ r, Lam.Same x b) ∧ ∀ K ∈ r, K.cls = .curve ∧ MultiCurveOn T K := by
    intro a b ha hb hda hdb c1 c2 c3 c4 h
    simp only [py_bind_eq_ok] at h
    obtain ⟨⟨_, cA⟩, h1, invA, h2, sB, h3, ⟨_, cB⟩, h4, invB, h5, h⟩ := h
    obtain ⟨HA, -⟩ := Lam.shortenAll_spec ha.1 h1
    obtain ⟨b1, b2, b3, b4⟩ := apply_class HA.legal hb hdb h3
    obtain ⟨HB, -⟩ := Lam.shortenAll_spec b2.1 h4
    have lA : invA.Legal ∧ invA.target = T := by
      have e := Enc.inverse_eq HA.legal
      rw [h2] at e
      injection e with e
      subst e
      exact ⟨HA.legal.inv', HA.source.trans c3⟩
    have lB : invB.Legal := by
      have e := Enc.inverse_eq HB.legal
      rw [h5] at e
      injection e with e
      subst e
      exact HB.legal.inv'
    have nB : sB.NoArcs := (Lam.Describes.noArcs b2 b4 (by rw [b3, c2]; rfl)).1
    have hp := HB.legal.path
    unfold Enc.performed at hp
    obtain ⟨r1, r2⟩ := quasiconvexLoop_spec hcy hT lA.1 lB hp nB HB.source.symm h
    refine ⟨⟨a, r1 a (Lam.addTo_sub (by simp)), .refl⟩, ?_, fun K hK => ?_⟩
    · obtain ⟨x, x1, x2⟩ := Lam.addTo_has (L := b) [a]
      exact ⟨x, r1 x x1, x2⟩
    · rcases r2 K hK with q | ⟨k1, k2, k3, k4⟩
      · rcases Lam.mem_addTo q with q | rfl
        · rw [List.mem_singleton.1 q]
          exact ⟨c1, c3, ha, by rw [c1]; rfl, hda⟩
        · exact ⟨c2, c4, hb, by rw [c2]; rfl, hdb⟩
      · exact ⟨k2, k1.trans lA.2, k3, by rw [k2]; rfl, k4⟩
  by_cases q : b.weight < a.weight
  · rw [if_pos q] at h
    obtain ⟨k1, k2, k3⟩ := key b a hb ha hdb hda c2 c1 c4 c3 h
    exact ⟨k2, k1, k3⟩
  · rw [if_neg q] at h
    exact key a b ha hb hda hdb c1 c2 c3 c4 h

end CurveGraph
end Curver
