import Verif.Proofs.LamComponents
import Verif.Props.Union
import Verif.Props.Shorten

/-!
# C66, C67: `components()`
-/

namespace Curver
open Triangulation

/-! ## C66 -/

/-- C66: `components()` decomposes the lamination: whenever it returns, the lamination is the disjoint union of the connected laminations that it lists, each taken as often as its multiplicity
says; the multiplicities are positive, no component is listed twice, and the components have the class `Curve` or `Arc` according to whether they are closed.  (When the object itself is of class
`Curve` or `Arc` the method does not look at it, and so it has to be one.) -/
theorem C66_components (P : Lam Int → Py LamClass) (dflt : Int → Int → Bool) (fuel : Nat) (L : Lam Int) (hL : L.Consistent) (hc : L.ClassRight) (cs : List (Lam Int × Int))
    (h : L.componentsAll P dflt fuel = .ok cs) : L.IsComponents cs :=
  Lam.componentsAll_spec hL hc h

/-- C66: all components are found: a connected lamination is a part of `L` if and only if it is equal to one in the dictionary. -/
theorem C66_complete (P : Lam Int → Py LamClass) (dflt : Int → Int → Bool) (fuel : Nat) (L : Lam Int) (hL : L.Consistent) (hc : L.ClassRight) (cs : List (Lam Int × Int))
    (h : L.componentsAll P dflt fuel = .ok cs) (X : Lam Int) (hX : X.Connected) : (∃ N, L.IsUnion X N) ↔ ∃ p ∈ cs, p.1.eqv X = true := by
  have H := Lam.componentsAll_spec hL hc h
  constructor
  · rintro ⟨N, hN⟩
    obtain ⟨Ys1, Y, Ys2, e, hs, -⟩ := H.union.find hL (fun Y hY => by
      obtain ⟨q, hq, e⟩ := List.mem_flatMap.1 hY
      rw [List.eq_of_mem_replicate e]
      exact H.connected q hq) hN hX
    have hY : Y ∈ Lam.flat cs := by
      unfold Lam.flat
      rw [e]; simp
    obtain ⟨q, hq, e⟩ := List.mem_flatMap.1 hY
    have e := List.eq_of_mem_replicate e
    exact ⟨q, hq, Lam.eqv_spec.2 ⟨by rw [← e]; exact hs.1.symm, by rw [← e]; exact hs.2.symm⟩⟩
  · rintro ⟨p, hp, e⟩
    obtain ⟨N, hN⟩ := H.union.pull hL (Lam.mem_flat hp (H.mult p hp))
    exact ⟨N, hN.same hN.wf.1 hN.wf.2.1 .refl (Lam.eqv_spec.1 e) .refl⟩

/-- C66: the weights of the lamination are the sums of the weights of its components. -/
theorem C66_sum (P : Lam Int → Py LamClass) (dflt : Int → Int → Bool) (fuel : Nat) (L : Lam Int) (hL : L.Consistent) (hc : L.ClassRight) (cs : List (Lam Int × Int))
    (h : L.componentsAll P dflt fuel = .ok cs) (x : Int) (hx : L.tri.IsLabel x) : L.w x = (cs.map (fun p => p.2 * p.1.w x)).sum := by
  have H := Lam.componentsAll_spec hL hc h
  have key : ∀ {Xs : List (Lam Int)} {L : Lam Int}, L.Unions Xs → L.WellFormed → L.tri.IsLabel x → L.w x = (Xs.map (fun X => X.w x)).sum := by
    intro Xs L hu
    induction hu with
    | nil hb => intro _ hx; exact hb x hx
    | cons h1 _ ih =>
      intro hw hx
      rw [h1.sum hw hx, ih h1.wf.2.1 (by rw [h1.wf.2.2.2]; exact hx)]
      rfl
  rw [key H.union hL.1 hx]
  have hm := H.mult
  clear H h
  induction cs with
  | nil => rfl
  | cons p cs ih =>
    rw [List.flatMap_cons, List.map_append, List.sum_append, ih (fun q hq => hm q (by simp [hq])), List.map_cons, List.sum_cons, List.map_replicate, List.sum_replicate]
    have := hm p (by simp)
    rw [nsmul_eq_mul]
    congr 2
    omega

/-! ## C67 -/

/-- C67: `h(L).components()` is the dictionary `{h(c): m for c, m in L.components().items()}`, for every mapping `h`, as long as both calls return; the order of the entries may differ.
The result depends neither on the parameters of the implementation nor on how the objects were made. -/
theorem C67_mapping (P P' : Lam Int → Py LamClass) (dflt dflt' : Int → Int → Bool) (fuel fuel' : Nat) (h : Enc) (hh : h.Legal) (L L' : Lam Int) (hL : L.Consistent) (hc : L.ClassRight)
    (ha : h.applyLam L = .ok L') (cs ds : List (Lam Int × Int)) (h1 : L.componentsAll P dflt fuel = .ok cs) (h2 : L'.componentsAll P' dflt' fuel' = .ok ds) :
    ∃ es, (cs.mapM (fun p => do let c ← h.applyLam p.1; return (c, p.2)) : Py (List (Lam Int × Int))) = .ok es ∧ es.Perm ds := by
  have hL' := hL.enc hh ha
  have u := hh.undo hL.1 ha
  have hc' : L'.ClassRight := by
    refine ⟨fun e => ?_, fun e => ?_⟩
    · have := hc.1 (u.2.2.1 ▸ e)
      exact ⟨this.1.enc hL hh ha, hh.noArcs this.2 ha⟩
    · have := hc.2 (u.2.2.1 ▸ e)
      exact ⟨this.1.enc hL hh ha, fun q => this.2 (hh.inv'.noArcs q u.2.2.2)⟩
  obtain ⟨es, e1, e2⟩ := (Lam.componentsAll_spec hL hc h1).enc hL hh ha
  exact ⟨es, e1, e2.unique (Lam.componentsAll_spec hL' hc' h2) hL'⟩

/-- C67: the dictionary depends only on the lamination: neither on its class, nor on the way the implementation happens to shorten it. -/
theorem C67_unique (P P' : Lam Int → Py LamClass) (dflt dflt' : Int → Int → Bool) (fuel fuel' : Nat) (L L' : Lam Int) (hL : L.Consistent) (hc : L.ClassRight) (hc' : L'.ClassRight)
    (he : L.eqv L' = true) (cs ds : List (Lam Int × Int)) (h1 : L.componentsAll P dflt fuel = .ok cs) (h2 : L'.componentsAll P' dflt' fuel' = .ok ds) : cs.Perm ds := by
  have he := Lam.eqv_spec.1 he
  have hL' : L'.Consistent := by
    have : L' = ⟨L.tri, L.geometric, L'.cls⟩ := by rw [he.1, he.2]
    rw [this]; exact hL
  have H := Lam.componentsAll_spec hL hc h1
  have H' := Lam.componentsAll_spec hL' hc' h2
  have : L.IsComponents ds := ⟨H'.union.same ⟨he.1.symm, he.2.symm⟩, H'.connected, H'.mult, H'.apart, H'.cls⟩
  exact H.unique this hL

/-- C67: the multiplicities of the components, and with them the number of components, do not change under mappings. -/
theorem C67_number (P P' : Lam Int → Py LamClass) (dflt dflt' : Int → Int → Bool) (fuel fuel' : Nat) (h : Enc) (hh : h.Legal) (L L' : Lam Int) (hL : L.Consistent) (hc : L.ClassRight)
    (ha : h.applyLam L = .ok L') (cs ds : List (Lam Int × Int)) (h1 : L.componentsAll P dflt fuel = .ok cs) (h2 : L'.componentsAll P' dflt' fuel' = .ok ds) :
    (cs.map Prod.snd).Perm (ds.map Prod.snd) := by
  obtain ⟨es, e1, e2⟩ := C67_mapping P P' dflt dflt' fuel fuel' h hh L L' hL hc ha cs ds h1 h2
  have : cs.map Prod.snd = es.map Prod.snd := by
    clear e2 h1
    induction cs generalizing es with
    | nil => cases e1; rfl
    | cons p cs ih =>
      rw [List.mapM_cons] at e1
      simp only [py_bind_eq_ok] at e1
      obtain ⟨q, ⟨c, c1, c2⟩, es', d1, d2⟩ := e1
      cases c2
      cases d2
      rw [List.map_cons, List.map_cons, ih es' d1]
  rw [this]
  exact e2.map _

/-! ## Examples -/

/-- two copies of the curve `[1, 1, 2]` and a curve around the puncture -/
def torusThree : Lam Int := ⟨torus, [4, 4, 6], .multicurve⟩

theorem torusThree_consistent : torusThree.Consistent := by
  rw [Lam.consistent_iff]
  refine ⟨⟨torus_valid, by decide⟩, ?_⟩
  intro a b c h
  rcases h with h | h | h <;> simp [torusThree, torus] at h <;>
    rcases h with ⟨rfl, rfl, rfl⟩ | ⟨rfl, rfl, rfl⟩ <;> intro _ _ _ <;> decide

theorem torusThree_components : torusThree.componentsAll anyClass neverSlow 20 = .ok [(⟨torus, [2, 2, 2], .curve⟩, 1), (⟨torus, [1, 1, 2], .curve⟩, 2)] := by decide +kernel

/-- the hypotheses of C66 and C67 are met, and so are those of C65 with connected parts -/
example : torusThree.Consistent ∧ torusThree.ClassRight ∧ torusThree.IsComponents [(⟨torus, [2, 2, 2], .curve⟩, 1), (⟨torus, [1, 1, 2], .curve⟩, 2)] ∧
    torusTwist.Legal ∧ ∃ K ds, torusTwist.applyLam torusThree = .ok K ∧ K.componentsAll anyClass neverSlow 20 = .ok ds := by
  have hc : torusThree.ClassRight := ⟨fun h => (by cases h), fun h => (by cases h)⟩
  exact ⟨torusThree_consistent, hc, C66_components _ _ _ _ torusThree_consistent hc _ torusThree_components, torusTwist_spec.2.1,
    ⟨torus, [4, 8, 6], .multicurve⟩, [(⟨torus, [2, 2, 2], .curve⟩, 1), (⟨torus, [1, 3, 2], .curve⟩, 2)], by decide +kernel, by decide +kernel⟩

/-- two parallel arcs are one component of multiplicity two -/
example : (⟨torus, [-2, 0, 0], .multicurve⟩ : Lam Int).componentsAll anyClass neverSlow 20 = .ok [(⟨torus, [-1, 0, 0], .arc⟩, 2)] := by decide +kernel

end Curver
