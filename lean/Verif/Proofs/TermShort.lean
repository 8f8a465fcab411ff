import Verif.Proofs.TermMain
import Verif.Proofs.ShortenClass
import Verif.Proofs.PachnerLam

/-!
# What `shorten` builds at the end is short

Here it is shown that the last lines of `shorten` do not raise: the image is put together, and the assertion `is_short` holds.
-/

namespace Curver
open Triangulation

namespace Lam
variable {P : Lam Int → Py LamClass} {L M N K s per : Lam Int} {l : List Item} {D : List (Lam Int)}

theorem pyAllM_total {α : Type} {f : α → Py Bool} : ∀ {l : List α}, (∀ x ∈ l, ∃ b, f x = .ok b) → ∃ b, pyAllM f l = .ok b
  | [], _ => ⟨true, rfl⟩
  | x :: l, h => by
    obtain ⟨b, hb⟩ := h x (by simp)
    obtain ⟨b', hb'⟩ := pyAllM_total (l := l) (fun y hy => h y (by simp [hy]))
    unfold pyAllM
    rw [hb, py_bind_ok]
    cases b with
    | true => exact ⟨b', hb'⟩
    | false => exact ⟨false, rfl⟩

theorem disjointSumDict_total {T : Triangulation} {ls : List (Lam Int × Int)} (h : ∀ p ∈ ls, p.1.tri = T ∧ 0 ≤ p.2 ∧ p.1.Consistent) : ∃ r, T.disjointSumDict P ls = .ok r := by
  unfold disjointSumDict
  rw [if_neg (by
    simp only [List.any_eq_true, bne_iff_ne, ne_eq, not_exists, not_and, not_not]
    exact fun p hp => (h p hp).1), if_neg (by
    simp only [List.any_eq_true, decide_eq_true_eq, not_exists, not_and, not_lt]
    exact fun p hp => (h p hp).2.1)]
  split
  · exact ⟨_, rfl⟩
  · obtain ⟨b, hb⟩ := pyAllM_total (f := fun p : Lam Int × Int => p.1.isIntegral) (l := keepNonempty ls) (fun p hp => isIntegral_ok (h p (List.mem_of_mem_filter hp)).2.2)
    have := pyAllM_isIntegral hb
    subst this
    rw [hb]
    exact ⟨_, rfl⟩

/-- an arc or a curve parallel to an edge -/
def Plain (T : Triangulation) (Y : Lam Int) : Prop := (∃ f, T.IsLabel f ∧ Y = T.edgeArcOf f) ∨ ∃ f β η X, Loop T f β η X ∧ Y = T.curveFromCutSequence X

theorem Plain.basic {T : Triangulation} {Y : Lam Int} (h : Plain T Y) : Basic T Y := by
  rcases h with h | h
  · exact .inr (.inl h)
  · exact .inr (.inr h)

theorem Item.Takes.plain {i : Item} {N N' : Lam Int} (h : i.Takes N N') : Plain N.tri (i.term N.tri).1 := by
  cases i with
  | arc f μ => exact .inl ⟨f, h.2.2.1, rfl⟩
  | curve f k =>
    obtain ⟨h1, h2, h3, h4, β, η, X, h5, h6⟩ := h
    rw [(Item.term_curve h5.loop k).2]
    exact .inr ⟨f, β, η, X, h5.loop, rfl⟩

theorem Chain.plain (h : Chain N l M) {i : Item} (hi : i ∈ l) : Plain N.tri (i.term N.tri).1 ∧ 0 < (i.term N.tri).2 := by
  obtain ⟨J, J', j1, j2⟩ := h.takes_of_mem hi
  have a := j2.plain
  have b := j2.entry.1
  rw [j1] at a b
  exact ⟨a, b⟩

theorem rebuild_total (hN : N.Consistent) (h : Chain N l M) (hp : per.Consistent) (ht : per.tri = N.tri) (hpa : ∀ i ∈ l, per.eqv (i.term N.tri).1 = false) :
    ∃ short, rebuild P N.tri per (arcsOf l) (curvesOf l) = .ok short := by
  obtain ⟨ts, h1, h2, h3⟩ := rebuild_expand P h hpa
  rw [h3]
  refine disjointSumDict_total ?_
  intro p hp'
  rcases List.mem_cons.1 hp' with rfl | hp'
  · exact ⟨ht, by omega, hp⟩
  · obtain ⟨i, hi, rfl⟩ := List.mem_map.1 (h1.mem_iff.2 hp')
    obtain ⟨a, b⟩ := h.plain hi
    have := a.basic.prime hN.1.1
    exact ⟨this.2, b.le, this.1.1⟩

theorem par_tally (hs : s.Consistent) (hu : s.Unions D) (hD : ∀ Y ∈ D, Plain s.tri Y) {par : List (Lam Int × (Int × Int))} (h : s.parallelComponents = .ok par) :
    Tally s.tri (Basic s.tri) id (D.map Lam.geometric) (par.map (fun p => (p.1, p.2.1))) ∧ ∀ g ∈ D.map Lam.geometric, g ∈ keys (par.map (fun p => (p.1, p.2.1))) := by
  obtain ⟨h1, h2, h3⟩ := par_spec hs hu (fun Y hY => (hD Y hY).basic) h
  have hk : keys (par.map (fun p => (p.1, p.2.1))) = keys par := by
    unfold keys; rw [List.map_map]; rfl
  have htri : ∀ p ∈ par, p.1.tri = s.tri := fun p hp => ((h1 p hp).1.prime hs.1.1).2
  constructor
  · refine ⟨?_, ?_, ?_, ?_, ?_⟩
    · intro p hp
      obtain ⟨q, hq, rfl⟩ := List.mem_map.1 hp
      exact htri q hq
    · intro p hp
      obtain ⟨q, hq, rfl⟩ := List.mem_map.1 hp
      exact (h1 q hq).1
    · intro p hp
      obtain ⟨q, hq, rfl⟩ := List.mem_map.1 hp
      exact (h1 q hq).2.1
    · intro p hp
      obtain ⟨q, hq, rfl⟩ := List.mem_map.1 hp
      exact (h1 q hq).2.2
    · rw [List.pairwise_map]
      refine List.Pairwise.imp_of_mem ?_ (parallel_entries hs.1 h).2
      intro p q hp hq hpq e
      rw [eqv_spec.2 ⟨(htri p hp).trans (htri q hq).symm, e⟩] at hpq
      cases hpq
  · intro g hg
    obtain ⟨Y, hY, rfl⟩ := List.mem_map.1 hg
    rw [hk]
    rcases hD Y hY with ⟨f, hf, rfl⟩ | ⟨f, β, η, X, hX, rfl⟩
    · exact h2 f hf hY
    · exact h3 f β η X hX hY

/-- the parallel components are all there is -/
theorem par_sum (hs : s.Consistent) (hu : s.Unions D) (hD : ∀ Y ∈ D, Plain s.tri Y) {par : List (Lam Int × (Int × Int))} (h : s.parallelComponents = .ok par) {x : Int} (hx : s.tri.IsLabel x) :
    s.w x = (par.map (fun p => p.1.w x * p.2.1)).sum := by
  obtain ⟨T, hall⟩ := par_tally hs hu hD h
  have hp := T.perm hall
  have e : ∀ l : List (Lam Int), (l.map (fun X => X.w x)) = (l.map Lam.geometric).map (fun g => (g[(norm x).toNat]?).getD 0) := by
    intro l; rw [List.map_map]; rfl
  rw [hu.w hs.1 hx, e, (hp.map _).sum_eq, ← e, sum_flat (fun p hp => (T.pos p hp).le), List.map_map]
  rfl

theorem foldl_sub : ∀ {par : List (Lam Int × (Int × Int))} {g : List Int} {n : Nat}, g.length = n → (∀ p ∈ par, p.1.geometric.length = n) →
    (par.foldl (fun g p => List.zipWith (fun x y => x - y * p.2.1) g p.1.geometric) g).length = n ∧
    ∀ i : Nat, ((par.foldl (fun g p => List.zipWith (fun x y => x - y * p.2.1) g p.1.geometric) g)[i]?).getD 0 = (g[i]?).getD 0 - (par.map (fun p => (p.1.geometric[i]?).getD 0 * p.2.1)).sum
  | [], g, n, hg, _ => ⟨hg, by simp⟩
  | p :: par, g, n, hg, h => by
    have hp := h p (by simp)
    have hl : (List.zipWith (fun x y => x - y * p.2.1) g p.1.geometric).length = n := by rw [List.length_zipWith, hg, hp, min_self]
    obtain ⟨h1, h2⟩ := foldl_sub (par := par) hl (fun q hq => h q (by simp [hq]))
    refine ⟨h1, ?_⟩
    intro i
    rw [List.foldl_cons, h2 i, List.map_cons, List.sum_cons]
    rcases Nat.lt_or_ge i n with q | q
    · rw [List.getElem?_eq_getElem (by omega), List.getElem?_eq_getElem (by omega), List.getElem?_eq_getElem (by omega), List.getElem_zipWith]
      simp only [Option.getD_some]
      ring
    · rw [List.getElem?_eq_none (by omega), List.getElem?_eq_none (by omega), List.getElem?_eq_none (by omega)]
      simp

theorem isShortLam_true (hs : s.Consistent) (hN : N.Consistent) (ht : N.tri = s.tri) (hw : ∀ x, s.tri.IsLabel x → s.w x = s.mu x + s.mu (Curver.inv x) + N.w x) (hu : N.Unions D)
    (hD : ∀ Y ∈ D, Plain N.tri Y) : s.isShortLam P = .ok true := by
  obtain ⟨p, p1, p2, p3, p4, -⟩ := peripheral_ok P hs
  obtain ⟨N', n1⟩ := C42_non_peripheral_exists P s hs
  obtain ⟨c1, c2, c3⟩ := C42_decomposition P s hs false p N' p1 n1
  have hsame : Same N N' := same_of_w hN.1 c2.1 (ht.trans c1.symm) (fun x hx => by
    rw [ht] at hx
    have a := c3 x hx
    rw [p4 x hx, hw x hx] at a
    omega)
  obtain ⟨par, h1⟩ := c2.parallelComponents_total
  have hu' := hu.same hsame
  have hD' : ∀ Y ∈ D, Plain N'.tri Y := by rw [← hsame.1]; exact hD
  have hsum := fun x hx => par_sum c2 hu' hD' h1 (x := x) hx
  have hlen : ∀ p ∈ par, p.1.geometric.length = N'.tri.zeta := by
    intro p hp
    have := ((par_spec c2 hu' (fun Y hY => (hD' Y hY).basic) h1).1 p hp).1.prime c2.1.1
    rw [this.1.1.1.2, this.2]
  obtain ⟨f1, f2⟩ := foldl_sub (par := par) c2.1.2 hlen
  unfold isShortLam
  rw [n1, py_bind_ok, h1, py_bind_ok]
  congr 1
  rw [List.all_eq_true]
  intro y hy
  obtain ⟨i, hi, rfl⟩ := List.getElem_of_mem hy
  have a := f2 i
  rw [List.getElem?_eq_getElem hi, Option.getD_some] at a
  have hl : N'.tri.IsLabel (i : Int) := by unfold Triangulation.IsLabel; omega
  have b := hsum i hl
  have hn : (norm (i : Int)).toNat = i := by unfold norm Curver.inv; omega
  unfold Lam.w at b
  rw [hn] at b
  rw [a, b, sub_self]
  rfl

theorem sum_nonpos' : ∀ {l : List Int}, (∀ x ∈ l, x ≤ 0) → l.sum ≤ 0
  | [], _ => le_refl 0
  | x :: l, h => by
    have a := h x (by simp)
    have b := sum_nonpos' (l := l) (fun y hy => h y (by simp [hy]))
    rw [List.sum_cons]
    omega

theorem length_flat_le : ∀ {d : List (Lam Int × Int)}, (∀ p ∈ d, 0 < p.2) → d.length ≤ (flat d).length
  | [], _ => le_refl 0
  | p :: d, h => by
    have a := h p (by simp)
    have b := length_flat_le (d := d) (fun q hq => h q (by simp [hq]))
    unfold flat at b ⊢
    rw [List.flatMap_cons, List.length_append, List.length_replicate, List.length_cons]
    omega

theorem isShort_true (hs : s.Consistent) (hN : N.Consistent) (ht : N.tri = s.tri) (hw : ∀ x, s.tri.IsLabel x → s.w x = s.mu x + s.mu (Curver.inv x) + N.w x) (hu : N.Unions D)
    (hD : ∀ Y ∈ D, Plain N.tri Y) (hst : s.Stripped) (hd : s.Describes s.cls) : s.isShort P = .ok true := by
  have lamCase := isShortLam_true (P := P) hs hN ht hw hu hD
  obtain ⟨-, D', u1, u2⟩ := hst.unions
  have hcon : ∀ Y ∈ D', Y.Connected := fun Y hY => (u2 Y hY).connected
  have hk := (u1.describes_iff hs hcon s.cls).1 hd
  have arcCase : (∀ Y ∈ D', ¬ Y.NoArcs) → s.isShortArc = true := by
    intro q
    unfold isShortArc
    rw [List.all_eq_true]
    intro y hy
    obtain ⟨i, hi, rfl⟩ := List.getElem_of_mem hy
    have hl : s.tri.IsLabel (i : Int) := by unfold Triangulation.IsLabel; rw [hs.1.2] at hi; omega
    have b := u1.w hs.1 hl
    have hle : (D'.map (fun X => X.w (i : Int))).sum ≤ 0 := by
      refine sum_nonpos' ?_
      intro z hz
      obtain ⟨Y, hY, rfl⟩ := List.mem_map.1 hz
      rcases u2 Y hY with ⟨v, hv, rfl⟩ | ⟨f, hf, rfl⟩ | ⟨f, β, η, X, hX, rfl⟩
      · exact absurd (Lam.link_noArcs hv.valid hv.ex) (q _ hY)
      · exact (IsEdgeArc.of_edge hf).nonpos hl
      · exact absurd hX.noArcs (q _ hY)
    have hn : (norm (i : Int)).toNat = i := by unfold norm Curver.inv; omega
    rw [← b] at hle
    unfold Lam.w at hle
    rw [hn, List.getElem?_eq_getElem hi, Option.getD_some] at hle
    exact decide_eq_true hle
  unfold isShort
  split
  · rename_i hcls
    rw [hcls] at hd
    have hsc : s.Connected := hd.1
    obtain ⟨p, p1, p2, p3, p4, -⟩ := peripheral_ok P hs
    obtain ⟨pc, -, M', hM'⟩ := peripheral_right hs p1
    unfold isShortCurve isPeripheral
    rw [p1, py_bind_ok, pure_bind]
    by_cases hp : p.eqv s = true
    · rw [if_pos hp]; rfl
    rw [if_neg hp]
    have w' := hM'.wf
    have sN : Same M' N := same_of_w w'.2.1 hN.1 (w'.2.2.2.trans ht.symm) (fun x hx => by
      rw [w'.2.2.2] at hx
      have := hM'.sum hs.1 hx
      rw [p4 x hx, hw x hx] at this
      omega)
    have hpb : p.Blank := by
      rcases hsc.2 p M' hM' with q | q
      · exact q
      · refine absurd ?_ hp
        refine eqv_spec.2 ?_
        exact same_of_w pc.1 hs.1 p2 (fun x hx => by
          rw [p2] at hx
          have a := hM'.sum hs.1 hx
          have b := q x (by rw [w'.2.2.2]; exact hx)
          omega)
    have sNs : Same N s := same_of_w hN.1 hs.1 ht (fun x hx => by
      rw [ht] at hx
      have a := hpb x (by rw [p2]; exact hx)
      rw [p4 x hx] at a
      rw [hw x hx, a, zero_add])
    have hu' := hu.same sNs
    have hD' : ∀ Y ∈ D, Plain s.tri Y := by rw [← ht]; exact hD
    have h1 := (hu'.connected_iff hs (fun Y hY => (hD' Y hY).basic.connected)).1 hsc
    obtain ⟨par, q1⟩ := hs.parallelComponents_total
    obtain ⟨T, hall⟩ := par_tally hs hu' hD' q1
    have hp' := T.perm hall
    rw [q1, py_bind_ok]
    have c1 := hp'.length_eq
    have c2 := length_flat_le T.pos
    rw [List.length_map, List.length_map, h1] at c1
    rw [← c1, List.length_map] at c2
    have c3 : par.length ≠ 0 := by
      intro q
      rw [List.length_eq_zero_iff.1 q] at c1
      simp [flat] at c1
    have c4 : par.length = 1 := by omega
    rw [c4]
    rfl
  · rename_i hcls
    rw [hcls] at hk
    rw [arcCase hk.2]
    rfl
  · rename_i hcls
    rw [hcls] at hk
    rw [arcCase hk.2]
    rfl
  · exact lamCase

end Lam
end Curver
