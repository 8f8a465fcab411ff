import Verif.Proofs.LamParts
import Verif.Props.LamClass

/-!
# C69 - C72: `num_components`, `no_common_component`, `multiarc`, `multicurve`, `skeleton`, `peek_component`, `sublaminations`
-/

namespace Curver
open Triangulation

theorem Lam.ClassRight.enc {L L' : Lam Int} (hc : L.ClassRight) (hL : L.Consistent) {h : Enc} (hh : h.Legal) (ha : h.applyLam L = .ok L') : L'.ClassRight := by
  have u := hh.undo hL.1 ha
  refine ⟨fun e => ?_, fun e => ?_⟩
  · have := hc.1 (u.2.2.1 ▸ e)
    exact ⟨this.1.enc hL hh ha, hh.noArcs this.2 ha⟩
  · have := hc.2 (u.2.2.1 ▸ e)
    exact ⟨this.1.enc hL hh ha, fun q => this.2 (hh.inv'.noArcs q u.2.2.2)⟩

/-! ## C69: `num_components` -/

/-- C69: `num_components()` counts the connected laminations that the lamination consists of. -/
theorem C69_number (P : Lam Int → Py LamClass) (dflt : Int → Int → Bool) (fuel : Nat) (L : Lam Int) (hL : L.Consistent) (hc : L.ClassRight) (n : Int) (h : L.numComponents P dflt fuel = .ok n)
    (D : List (Lam Int)) (hD : L.Unions D) (cD : ∀ X ∈ D, X.Connected) : n = D.length := by
  unfold Lam.numComponents at h
  simp only [py_bind_eq_ok] at h
  obtain ⟨cs, h1, h2⟩ := h
  injection h2 with h2
  have H := Lam.componentsAll_spec hL hc h1
  rw [← h2, ← Lam.flat_length H.mult]
  have := (Lam.Unions.unique H.union hL hD (Lam.flat_connected H) cD).length_eq
  simp only [List.length_map] at this
  rw [← this]
  rfl

/-- C69: it is a topological invariant, as its decorator says: `h(L).num_components() == L.num_components()` for every mapping `h`. -/
theorem C69_mapping (P P' : Lam Int → Py LamClass) (dflt dflt' : Int → Int → Bool) (fuel fuel' : Nat) (h : Enc) (hh : h.Legal) (L L' : Lam Int) (hL : L.Consistent) (hc : L.ClassRight)
    (ha : h.applyLam L = .ok L') (m n : Int) (h1 : L.numComponents P dflt fuel = .ok m) (h2 : L'.numComponents P' dflt' fuel' = .ok n) : m = n := by
  obtain ⟨D, d1, d2⟩ := Lam.exists_unions hL
  obtain ⟨D', e1, e2, e3⟩ := C65_mapping h hh L hL D d1 d2 L' ha
  rw [C69_number P dflt fuel L hL hc m h1 D d1 d2, C69_number P' dflt' fuel' L' (hL.enc hh ha) (hc.enc hL hh ha) n h2 D' e2 e3, (mapM_ok_iff.1 e1).length_eq]

/-- C69: the numbers of components of disjoint laminations add up. -/
theorem C69_union (P : Lam Int → Py LamClass) (dflt : Int → Int → Bool) (fuel : Nat) (L X Y : Lam Int) (hL : L.Consistent) (hu : L.IsUnion X Y) (hc : L.ClassRight) (hX : X.ClassRight) (hY : Y.ClassRight)
    (l m n : Int) (h : L.numComponents P dflt fuel = .ok l) (h1 : X.numComponents P dflt fuel = .ok m) (h2 : Y.numComponents P dflt fuel = .ok n) : l = m + n := by
  have c := hu.consistent hL
  obtain ⟨D, d1, d2⟩ := Lam.exists_unions c.1
  obtain ⟨E, e1, e2⟩ := Lam.exists_unions c.2
  rw [C69_number P dflt fuel L hL hc l h _ (d1.glue hL hu e1) (fun Z hZ => (List.mem_append.1 hZ).elim (d2 Z) (e2 Z)), C69_number P dflt fuel X c.1 hX m h1 D d1 d2,
    C69_number P dflt fuel Y c.2 hY n h2 E e1 e2, List.length_append, Nat.cast_add]

/-! ## C70: `no_common_component` -/

/-- C70: `a.no_common_component(b)` says that no connected lamination is a part of both. -/
theorem C70_no_common (P : Lam Int → Py LamClass) (dflt : Int → Int → Bool) (fuel : Nat) (L M : Lam Int) (hL : L.Consistent) (hM : M.Consistent) (hc : L.ClassRight) (hd : M.ClassRight) (b : Bool)
    (h : L.noCommonComponent P dflt fuel M = .ok b) : b = true ↔ ¬ ∃ X, L.HasPart X ∧ M.HasPart X := by
  unfold Lam.noCommonComponent at h
  simp only [py_bind_eq_ok] at h
  obtain ⟨_, _, cs, h1, ds, h2, h3⟩ := h
  injection h3 with h3
  have H := Lam.componentsAll_spec hL hc h1
  have H' := Lam.componentsAll_spec hM hd h2
  rw [← h3, Bool.not_eq_true', ← Bool.not_eq_true, not_iff_not, List.any_eq_true]
  constructor
  · rintro ⟨q, q1, q2⟩
    rw [List.any_eq_true] at q2
    obtain ⟨p, p1, p2⟩ := q2
    have e := Lam.eqv_spec.1 p2
    exact ⟨q.1, (H.hasPart_iff hL).2 ⟨p, p1, e⟩, (H'.hasPart_iff hM).2 ⟨q, q1, .refl⟩⟩
  · rintro ⟨X, x1, x2⟩
    obtain ⟨p, p1, p2⟩ := (H.hasPart_iff hL).1 x1
    obtain ⟨q, q1, q2⟩ := (H'.hasPart_iff hM).1 x2
    refine ⟨q, q1, ?_⟩
    rw [List.any_eq_true]
    exact ⟨p, p1, Lam.eqv_spec.2 (p2.trans q2.symm)⟩

/-- C70: it is symmetric. -/
theorem C70_symmetric (P : Lam Int → Py LamClass) (dflt : Int → Int → Bool) (fuel : Nat) (L M : Lam Int) (hL : L.Consistent) (hM : M.Consistent) (hc : L.ClassRight) (hd : M.ClassRight) (b b' : Bool)
    (h : L.noCommonComponent P dflt fuel M = .ok b) (h' : M.noCommonComponent P dflt fuel L = .ok b') : b = b' := by
  rw [Bool.eq_iff_iff, C70_no_common P dflt fuel L M hL hM hc hd b h, C70_no_common P dflt fuel M L hM hL hd hc b' h']
  simp only [and_comm]

theorem Lam.HasPart.enc {L X : Lam Int} (hL : L.Consistent) (hx : L.HasPart X) {h : Enc} (hh : h.Legal) {L' : Lam Int} (ha : h.applyLam L = .ok L') : ∃ X', h.applyLam X = .ok X' ∧ L'.HasPart X' := by
  obtain ⟨h1, N, h2⟩ := hx
  obtain ⟨X', Y', a1, a2, a3⟩ := h2.enc hL hh ha
  exact ⟨X', a1, h1.enc (h2.consistent hL).1 hh a1, Y', a3⟩

/-- C70: it does not change under mappings. -/
theorem C70_mapping (P P' : Lam Int → Py LamClass) (dflt dflt' : Int → Int → Bool) (fuel fuel' : Nat) (h : Enc) (hh : h.Legal) (L M L' M' : Lam Int) (hL : L.Consistent) (hM : M.Consistent)
    (hc : L.ClassRight) (hd : M.ClassRight) (hl : h.applyLam L = .ok L') (hm : h.applyLam M = .ok M') (b b' : Bool)
    (h1 : L.noCommonComponent P dflt fuel M = .ok b) (h2 : L'.noCommonComponent P' dflt' fuel' M' = .ok b') : b = b' := by
  rw [Bool.eq_iff_iff, C70_no_common P dflt fuel L M hL hM hc hd b h1,
    C70_no_common P' dflt' fuel' L' M' (hL.enc hh hl) (hM.enc hh hm) (hc.enc hL hh hl) (hd.enc hM hh hm) b' h2, not_iff_not]
  have key : ∀ {h : Enc} {L M L' M' : Lam Int}, h.Legal → L.Consistent → M.Consistent → h.applyLam L = .ok L' → h.applyLam M = .ok M' → (∃ X, L.HasPart X ∧ M.HasPart X) → ∃ X, L'.HasPart X ∧ M'.HasPart X := by
    rintro h L M L' M' hh hL hM hl hm ⟨X, x1, x2⟩
    obtain ⟨Y, y1, y2⟩ := x1.enc hL hh hl
    obtain ⟨Z, z1, z2⟩ := x2.enc hM hh hm
    cases y1.symm.trans z1
    exact ⟨Y, y2, z2⟩
  exact ⟨key hh hL hM hl hm, key hh.inv' (hL.enc hh hl) (hM.enc hh hm) (hh.undo hL.1 hl).2.2.2 (hh.undo hM.1 hm).2.2.2⟩

/-! ## C71: `multiarc` and `multicurve` -/

/-- C71: `multiarc()` and `multicurve()` separate the arcs of a lamination from its curves: the lamination is the disjoint union of the two results, all parts of the first have ends, all parts of the
second are closed, and both results have the right class. -/
theorem C71_separate (P : Lam Int → Py LamClass) (dflt : Int → Int → Bool) (fuel : Nat) (L : Lam Int) (hL : L.Consistent) (hc : L.ClassRight) (A C : Lam Int)
    (h1 : L.multiarc P dflt fuel = .ok A) (h2 : L.multicurve P dflt fuel = .ok C) :
    L.IsUnion A C ∧ (∀ X, A.HasPart X → ¬ X.NoArcs) ∧ (∀ X, C.HasPart X → X.NoArcs) ∧ A.Describes A.cls ∧ C.Describes C.cls := by
  unfold Lam.multiarc at h1
  unfold Lam.multicurve at h2
  simp only [py_bind_eq_ok] at h1 h2
  obtain ⟨cs, a1, a2⟩ := h1
  obtain ⟨cs', b1, b2⟩ := h2
  cases a1.symm.trans b1
  have H := Lam.componentsAll_spec hL hc a1
  have hp : cs.Perm (cs.filter (fun p => p.1.cls == .arc) ++ cs.filter (fun p => p.1.cls == .curve)) := by
    have : cs.filter (fun p => p.1.cls == .curve) = cs.filter (fun p => !(p.1.cls == .arc)) := by
      apply List.filter_congr
      intro p hp
      rcases H.cls p hp with ⟨q, _⟩ | ⟨q, _⟩ <;> rw [q] <;> rfl
    rw [this]
    exact (List.filter_append_perm _ cs).symm
  obtain ⟨M, m1, m2, m3, m4⟩ := H.sub_sum hL hp a2
  obtain ⟨M', n1, n2, n3, n4⟩ := H.sub_sum hL (hp.trans List.perm_append_comm) b2
  have cA := (m1.consistent hL).1
  have cC := (n1.consistent hL).1
  have e : Lam.Same M C := m3.determines n2 (m1.consistent hL).2 cC (by rw [m1.wf.2.2.2, n1.wf.2.2.1]) (.refl _)
  refine ⟨m1.same m1.wf.1 m1.wf.2.1 .refl .refl e, ?_, ?_, m4, n4⟩
  · intro X hX
    obtain ⟨p, p1, p2⟩ := (m2.hasPart_iff cA).1 hX
    rw [List.mem_filter] at p1
    obtain ⟨p1, p3⟩ := p1
    rcases H.cls p p1 with ⟨q, _⟩ | ⟨_, q⟩
    · rw [q] at p3; cases p3
    · exact fun k => q (p2.symm.noArcs k)
  · intro X hX
    obtain ⟨p, p1, p2⟩ := (n2.hasPart_iff cC).1 hX
    rw [List.mem_filter] at p1
    obtain ⟨p1, p3⟩ := p1
    rcases H.cls p p1 with ⟨_, q⟩ | ⟨q, _⟩
    · exact p2.noArcs q
    · rw [q] at p3; cases p3

/-! ## C72: `skeleton`, `peek_component` and `sublaminations` -/

/-- C72: `skeleton()` is the disjoint union of one copy of each component, and it has the right class. -/
theorem C72_skeleton (P : Lam Int → Py LamClass) (dflt : Int → Int → Bool) (fuel : Nat) (L : Lam Int) (hL : L.Consistent) (hc : L.ClassRight) (cs : List (Lam Int × Int))
    (h : L.componentsAll P dflt fuel = .ok cs) (s : Lam Int) (hs : L.skeleton P dflt fuel = .ok s) :
    (∃ N, L.IsUnion s N) ∧ s.Unions (cs.map Prod.fst) ∧ s.Describes s.cls := by
  unfold Lam.skeleton at hs
  rw [h, py_bind_ok] at hs
  obtain ⟨M, m1, m2, m3, m4⟩ := (Lam.componentsAll_spec hL hc h).list_sum (as := cs) (bs := []) hL (by simp) hs
  exact ⟨⟨M, m1⟩, by rw [← Lam.flat_ones]; exact m3.union, m4⟩

/-- C72: the skeleton of the skeleton is the skeleton. -/
theorem C72_idempotent (P P' : Lam Int → Py LamClass) (dflt dflt' : Int → Int → Bool) (fuel fuel' : Nat) (L : Lam Int) (hL : L.Consistent) (hc : L.ClassRight) (s s' : Lam Int)
    (h : L.skeleton P dflt fuel = .ok s) (h' : s.skeleton P' dflt' fuel' = .ok s') : s'.eqv s = true := by
  unfold Lam.skeleton at h h'
  simp only [py_bind_eq_ok] at h h'
  obtain ⟨cs, h1, h2⟩ := h
  obtain ⟨ds, h3, h4⟩ := h'
  obtain ⟨M, m1, m2, m3, m4⟩ := (Lam.componentsAll_spec hL hc h1).list_sum (as := cs) (bs := []) hL (by simp) h2
  have hcs : s.ClassRight := ⟨fun e => by rw [e] at m4; exact m4, fun e => by rw [e] at m4; exact m4⟩
  have H := Lam.componentsAll_spec m2 hcs h3
  obtain ⟨M', n1, n2, n3, n4⟩ := H.list_sum (as := ds) (bs := []) m2 (by simp) h4
  have hp := H.unique m3 m2
  refine Lam.eqv_spec.2 (n3.determines m3 n2 m2 n1.wf.2.2.1 ?_)
  have : (Lam.ones ds).Perm (Lam.ones (Lam.ones cs)) := hp.map _
  refine this.trans (.of_eq ?_)
  unfold Lam.ones
  rw [List.map_map]
  rfl

/-- C72: `h(L).skeleton() == h(L.skeleton())` for every mapping `h`. -/
theorem C72_mapping (P P' : Lam Int → Py LamClass) (dflt dflt' : Int → Int → Bool) (fuel fuel' : Nat) (h : Enc) (hh : h.Legal) (L L' : Lam Int) (hL : L.Consistent) (hc : L.ClassRight)
    (ha : h.applyLam L = .ok L') (s s' t : Lam Int) (h1 : L.skeleton P dflt fuel = .ok s) (h2 : L'.skeleton P' dflt' fuel' = .ok s') (h3 : h.applyLam s = .ok t) : s'.eqv t = true := by
  unfold Lam.skeleton at h1 h2
  simp only [py_bind_eq_ok] at h1 h2
  obtain ⟨cs, a1, a2⟩ := h1
  obtain ⟨ds, b1, b2⟩ := h2
  have H := Lam.componentsAll_spec hL hc a1
  have hL' := hL.enc hh ha
  have H' := Lam.componentsAll_spec hL' (hc.enc hL hh ha) b1
  obtain ⟨M, m1, m2, m3, m4⟩ := H.list_sum (as := cs) (bs := []) hL (by simp) a2
  obtain ⟨M', n1, n2, n3, n4⟩ := H'.list_sum (as := ds) (bs := []) hL' (by simp) b2
  obtain ⟨es, e1, e2⟩ := H.enc hL hh ha
  obtain ⟨es', e3, e4⟩ := m3.enc m2 hh h3
  have hp := e2.unique H' hL'
  have u := hh.undo m2.1 h3
  have u' := hh.undo hL.1 ha
  refine Lam.eqv_spec.2 (n3.determines e4 n2 (m2.enc hh h3) (by rw [n1.wf.2.2.1, u'.2.1, u.2.1]) ?_)
  refine (hp.symm.map _).trans (.of_eq ?_)
  clear hp e2 e4 m3 n3 H H' a1 a2 b1 b2
  unfold Lam.mapComponents at e1 e3
  induction cs generalizing es es' with
  | nil => cases e1; cases e3; rfl
  | cons p cs ih =>
    unfold Lam.ones at e3
    rw [List.map_cons, List.mapM_cons] at e3
    rw [List.mapM_cons] at e1
    simp only [py_bind_eq_ok] at e1 e3
    obtain ⟨q, ⟨c, c1, c2⟩, r, d1, d2⟩ := e1
    obtain ⟨q', ⟨c', c1', c2'⟩, r', d1', d2'⟩ := e3
    cases c2; cases c2'; cases d2; cases d2'
    cases c1.symm.trans c1'
    rw [List.map_cons, ih r d1 r' d1']

/-- C72: `peek_component()` is a component; it raises `StopIteration` if and only if there is none. -/
theorem C72_peek (P : Lam Int → Py LamClass) (dflt : Int → Int → Bool) (fuel : Nat) (L : Lam Int) (hL : L.Consistent) (hc : L.ClassRight) (cs : List (Lam Int × Int))
    (h : L.componentsAll P dflt fuel = .ok cs) : (∀ c, L.peekComponent P dflt fuel = .ok c → L.HasPart c ∧ c.Describes c.cls) ∧ (L.peekComponent P dflt fuel = .error .stopIteration ↔ L.Blank) := by
  have H := Lam.componentsAll_spec hL hc h
  unfold Lam.peekComponent
  rw [h, py_bind_ok, H.union.blank_iff hL (Lam.flat_connected H)]
  cases cs with
  | nil =>
    exact ⟨fun c hc => (by cases hc), fun _ => rfl, fun _ => rfl⟩
  | cons p cs =>
    refine ⟨fun c hc => ?_, fun hc => (by cases hc), fun hc => ?_⟩
    · cases hc
      exact ⟨(H.hasPart_iff hL).2 ⟨p, by simp, .refl⟩, H.describes hL p (by simp)⟩
    · have := Lam.mem_flat (cs := p :: cs) (List.mem_cons_self ..) (H.mult p (by simp))
      exact absurd this (by unfold Lam.flat; rw [hc]; simp)

theorem mem_permutationsOf {α : Type} : ∀ {n : Nat} {l r : List α}, r ∈ Lam.permutationsOf l n ↔ r.length = n ∧ ∃ bs, l.Perm (r ++ bs)
  | 0, l, r => by
    unfold Lam.permutationsOf
    rw [List.mem_singleton]
    constructor
    · rintro rfl
      exact ⟨rfl, l, .refl _⟩
    · exact fun h => List.length_eq_zero_iff.1 h.1
  | n + 1, l, r => by
    unfold Lam.permutationsOf
    rw [List.mem_flatMap]
    constructor
    · rintro ⟨i, i1, i2⟩
      rw [List.mem_range] at i1
      rw [List.getElem?_eq_getElem i1] at i2
      dsimp only at i2
      obtain ⟨r', q1, rfl⟩ := List.mem_map.1 i2
      obtain ⟨q2, bs, q3⟩ := mem_permutationsOf.1 q1
      exact ⟨by simp [q2], bs, (List.getElem_cons_eraseIdx_perm i1).symm.trans (q3.cons _)⟩
    · rintro ⟨h1, bs, h2⟩
      cases r with
      | nil => cases h1
      | cons x r =>
        have hx : x ∈ l := h2.mem_iff.2 (by simp)
        obtain ⟨i, i1, i2⟩ := List.getElem_of_mem hx
        refine ⟨i, List.mem_range.2 i1, ?_⟩
        rw [List.getElem?_eq_getElem i1]
        dsimp only
        rw [i2]
        refine List.mem_map.2 ⟨r, mem_permutationsOf.2 ⟨by simpa using h1, bs, ?_⟩, rfl⟩
        have := (List.getElem_cons_eraseIdx_perm i1).trans h2
        rw [i2] at this
        exact this.cons_inv

/-- C72: the laminations in `sublaminations()` are the disjoint unions of non-empty sets of components, one copy of each: all of them are parts of the lamination, and they have the right classes. -/
theorem C72_sublaminations (P : Lam Int → Py LamClass) (dflt : Int → Int → Bool) (fuel : Nat) (L : Lam Int) (hL : L.Consistent) (hc : L.ClassRight) (cs : List (Lam Int × Int))
    (h : L.componentsAll P dflt fuel = .ok cs) (subs : List (Lam Int)) (hs : L.sublaminations P dflt fuel = .ok subs) :
    (∀ s ∈ subs, (∃ N, L.IsUnion s N) ∧ s.Describes s.cls ∧ ∃ ds, ds.Sublist cs ∧ ds ≠ [] ∧ s.Unions (ds.map Prod.fst)) ∧
    ∀ ds, ds.Sublist cs → ds ≠ [] → ∃ s ∈ subs, s.Unions (ds.map Prod.fst) := by
  unfold Lam.sublaminations at hs
  rw [h, py_bind_ok] at hs
  have H := Lam.componentsAll_spec hL hc h
  constructor
  · intro s h1
    obtain ⟨r, r1, r2⟩ := mapM_mem_right hs h1
    obtain ⟨i, -, r1⟩ := List.mem_flatMap.1 r1
    obtain ⟨r3, bs, r4⟩ := mem_permutationsOf.1 r1
    obtain ⟨Zs, z1, z2⟩ := Lam.perm_lift (g := Prod.fst) r4 cs rfl
    obtain ⟨as, bs', rfl, rfl, rfl⟩ := List.map_eq_append_iff.1 z2
    obtain ⟨M, m1, m2, m3, m4⟩ := H.list_sum hL z1 r2
    refine ⟨⟨M, m1⟩, m4, ?_⟩
    obtain ⟨ds, d1, d2⟩ : as.Subperm cs := (List.sublist_append_left as bs').subperm.trans z1.symm.subperm
    refine ⟨ds, d2, ?_, ?_⟩
    · rintro rfl
      have := d1.length_eq
      rw [List.length_map] at r3
      simp at this
      omega
    · refine Lam.Unions.perm (d1.symm.map _) m2 ?_
      rw [← Lam.flat_ones]; exact m3.union
  · intro ds d1 d2
    have hl : ds.length ≤ cs.length := d1.length_le
    have h0 := List.length_pos_iff.2 d2
    obtain ⟨bs, d3⟩ : ∃ bs, cs.Perm (ds ++ bs) := d1.exists_perm_append
    obtain ⟨s, s1, s2⟩ := mapM_mem_left hs (x := ds.map Prod.fst) (List.mem_flatMap.2 ⟨ds.length - 1, List.mem_range.2 (by omega),
      mem_permutationsOf.2 ⟨by simp; omega, bs.map Prod.fst, by rw [← List.map_append]; exact d3.map _⟩⟩)
    obtain ⟨M, m1, m2, m3, m4⟩ := H.list_sum hL d3 s2
    exact ⟨s, s1, by rw [← Lam.flat_ones]; exact m3.union⟩

/-! ## Examples -/

/-- the hypotheses of C69 - C72 -/
example : torusThree.Consistent ∧ torusThree.ClassRight ∧ torusThree.numComponents anyClass neverSlow 20 = .ok 3 ∧ torusCurve.noCommonComponent anyClass neverSlow 20 torusThree = .ok false ∧
    torusAround.noCommonComponent anyClass neverSlow 20 torusCurve = .ok true ∧ torusThree.skeleton anyClass neverSlow 20 = .ok ⟨torus, [3, 3, 4], .multicurve⟩ ∧
    torusThree.peekComponent anyClass neverSlow 20 = .ok ⟨torus, [2, 2, 2], .curve⟩ ∧ (torus.emptyLamination : Lam Int).peekComponent anyClass neverSlow 20 = .error .stopIteration :=
  ⟨torusThree_consistent, ⟨fun h => (by cases h), fun h => (by cases h)⟩, by decide +kernel, by decide +kernel, by decide +kernel, by decide +kernel, by decide +kernel, by decide +kernel⟩

/-- two copies of an arc and a curve that does not meet it -/
def torusMixed : Lam Int := ⟨torus, [-2, 1, 1], .integral⟩

example : torusMixed.multiarc anyClass neverSlow 20 = .ok ⟨torus, [-2, 0, 0], .multiarc⟩ ∧ torusMixed.multicurve anyClass neverSlow 20 = .ok ⟨torus, [0, 1, 1], .curve⟩ := by decide +kernel

/-- C72: sets of several components are listed several times, although the comment in the code says "powerset": two components give four sublaminations, two of them equal. -/
theorem C72_sublaminations_repeat : torusMixed.sublaminations anyClass neverSlow 20 =
    .ok [⟨torus, [0, 1, 1], .curve⟩, ⟨torus, [-1, 0, 0], .arc⟩, ⟨torus, [-1, 1, 1], .integral⟩, ⟨torus, [-1, 1, 1], .integral⟩] := by decide +kernel

end Curver
