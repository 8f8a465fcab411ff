import Verif.Proofs.Vertices3
import Verif.Proofs.HalfSpare
import Verif.Props.Vertices
import Verif.Props.Filling

/-!
# Half twists about multiarcs
-/

namespace Curver
open Triangulation

namespace Enc
variable {R : Type} [CommRing R] [LinearOrder R] [IsStrictOrderedRing R] [Halvable R] {T : Triangulation} {A : Lam R → Prop} {g h k : Enc}

/-- a mapping class of `T` that fixes the laminations in `A` -/
structure Holds (T : Triangulation) (A : Lam R → Prop) (h : Enc) : Prop where
  legal : h.Legal
  source : h.source = T
  target : h.target = T
  kind : h.kind = .mappingClass
  fixes : ∀ X, A X → h.applyLam X = .ok X

theorem holds_id (hT : T.Valid) (hA : ∀ X, A X → X.WellFormed ∧ X.tri = T) (hi : T.idEncoding = .ok h) : h.Holds T A := by
  obtain ⟨j, j1, j2, j3, j4, j5, j6, -⟩ := C14_identity T hT
  cases hi.symm.trans j1
  exact ⟨j2, j4, j5, j3, fun X hX => j6 R X (hA X hX).1 (hA X hX).2⟩

theorem Holds.mul (hA : ∀ X, A X → X.WellFormed ∧ X.tri = T) (hg : g.Holds T A) (hh : h.Holds T A) (hm : g.mul h = .ok k) : k.Holds T A := by
  obtain ⟨h1, h2, h3, h4, h5⟩ := mul_ok hg.legal hh.legal hm
  refine ⟨h1, h2.source.trans hh.source, h2.target.trans hg.target, h5 (by rw [hg.kind]; simp) (by rw [hh.kind]; simp) (hg.target.trans hh.source.symm), fun X hX => ?_⟩
  rw [h2.lam R X (hA X hX).1, hh.fixes X hX, py_bind_ok, hg.fixes X hX]

theorem holds_product (hA : ∀ X, A X → X.WellFormed ∧ X.tri = T) {start : Enc} {hs : List Enc} (h0 : start.Holds T A) (h1 : ∀ h ∈ hs, h.Holds T A) (hp : Lam.encProduct start hs = .ok k) : k.Holds T A := by
  cases hs with
  | nil => cases hp; exact h0
  | cons h l =>
    refine foldlM_inv (fun h => h.Holds T A) (h1 h (by simp)) ?_ hp
    intro b x c hx hb hm
    exact (h1 x (by simp [hx])).mul hA hb hm

theorem Holds.conj (hg : g.Holds T A) {c : Enc} (hc : c.Legal) (hk : c.kind ≠ .encoding) (ht : c.target = T) (hm : g.conjugateBy c = .ok k) :
    k.Legal ∧ k.kind = .mappingClass ∧ k.source = c.source ∧ k.target = c.source ∧ ∀ X Y : Lam R, X.WellFormed → c.applyLam X = .ok Y → A Y → k.applyLam X = .ok X := by
  obtain ⟨k', i, h1, h2, h3, h4, h5, h6, h7, -⟩ := C15_conjugate g c hg.legal hc hg.kind hk (ht.trans hg.source.symm)
  cases hm.symm.trans h1
  refine ⟨h3, h4, h5, h6, fun X Y hX hY hA => ?_⟩
  rw [h7 R X hX, hY, py_bind_ok, hg.fixes Y hA, py_bind_ok]
  rw [Enc.inverse_eq hc] at h2
  cases h2
  exact (hc.undo hX hY).2.2.2

end Enc

namespace Lam
variable {P : Lam Int → Py LamClass} {dflt : Int → Int → Bool} {fuel : Nat} {L X Y s B arc : Lam Int} {D : List (Lam Int)} {T : Triangulation} {i f : Int}

theorem DistinctEnds.all (h : L.DistinctEnds) (hL : L.Consistent) (hD : L.Unions D) (cD : ∀ X ∈ D, X.Connected) : (∀ X ∈ D, X.TwoEnds) ∧ D.Pairwise EndApart := by
  obtain ⟨D', d1, d2, d3⟩ := h
  obtain ⟨vs, l, a1, a2, a3, a4⟩ := C82_vertices L hL
  rw [← distinct_iff hL a1 a3 a4 hD cD]
  have h1 := (distinct_iff hL a1 a3 a4 d1 (fun X hX => (d2 X hX).1)).2 ⟨fun X hX => (d2 X hX).2, d3⟩
  have := (Unions.unique hD hL d1 cD (fun X hX => (d2 X hX).1)).length_eq
  simp only [List.length_map] at this
  rw [h1, this]

theorem EndApart.symm (h : EndApart X Y) (ht : X.tri = Y.tri) : EndApart Y X := fun vs hvs v hv q => h vs (by rw [ht]; exact hvs) v hv q.symm

theorem EndApart.same {X' Y' : Lam Int} (h : EndApart X Y) (hX : Same X X') (hY : Same Y Y') : EndApart X' Y' :=
  fun vs hvs v hv q => h vs (by rw [hX.1]; exact hvs) v hv ⟨q.1.same hX.symm, q.2.same hY.symm⟩

theorem arc_consistent (hT : T.Valid) (hf : T.IsLabel f) : (T.edgeArcOf f : Lam Int).Consistent := (IsEdgeArc.of_edge hf).consistent hT

/-- an edge ends at its own vertex -/
theorem IsEdgeArc.reaches (h : arc.IsEdgeArc T i) (hT : T.Valid) {vs : List (List Int)} (hvs : T.vertices = .ok vs) {v : List Int} (hv : v ∈ vs) (hi : i ∈ v ∨ inv i ∈ v) : arc.Reaches v := by
  have t := h.tri
  subst t
  rw [reaches_iff (h.consistent hT) (star_of_mem hT hvs hv)]
  rcases hi with hi | hi
  · exact ⟨i, hi, .inl (by rw [h.at_edge]; decide)⟩
  · exact ⟨inv i, hi, .inl (by rw [w_inv, h.at_edge]; decide)⟩

theorem EndApart.clear (h : EndApart arc (T.edgeArcOf f)) (hT : T.Valid) (ha : arc.IsEdgeArc T i) (hf : T.IsLabel f) {x y : Int} (hx : x = i ∨ x = inv i) (hy : y = f ∨ y = inv f) : ¬ T.SV x y := by
  rintro ⟨v, hv, hm⟩
  have lx : T.IsLabel x := by rcases hx with rfl | rfl; exacts [ha.label, isLabel_inv.2 ha.label]
  obtain ⟨v', vs, v1, v2, v3, v4, -⟩ := hT.comp.vertexOf_ok lx
  rw [hv] at v1; cases v1
  have t := ha.tri
  subst t
  exact h vs v2 v v3 ⟨ha.reaches hT v2 v3 (by rcases hx with rfl | rfl <;> tauto), (IsEdgeArc.of_edge hf).reaches hT v2 v3 (by rcases hy with rfl | rfl <;> tauto)⟩

theorem TwoEnds.distinct (h : arc.TwoEnds) (hT : T.Valid) (ha : arc.IsEdgeArc T i) : arc.arcDistinctEndpoints = .ok true := by
  obtain ⟨b, h1, h2⟩ := ha.distinctEndpoints hT
  rw [h1]
  congr 1
  rw [h2]
  rintro ⟨v, hv, hm⟩
  obtain ⟨vs, x, y, a1, a2, a3, a4, a5⟩ := h
  rw [ha.tri] at a1
  have key : ∀ z ∈ vs, arc.Reaches z → z = v := by
    obtain ⟨q1, q2, q3, q4⟩ := hT.comp.vertices_mem a1
    obtain ⟨v', vs', v1, v2, v3, v4, -⟩ := hT.comp.vertexOf_ok ha.label
    rw [hv] at v1; cases v1
    rw [a1] at v2; cases v2
    intro z hz hr
    have hst := star_of_mem hT a1 hz
    have t := ha.tri
    rw [← t] at hst
    rw [reaches_iff (ha.consistent hT) hst] at hr
    obtain ⟨e, e1, e2⟩ := hr
    have le := hst.basic.2.1 e e1
    have e2' : arc.w e < 0 := by
      rcases e2 with e2 | e2
      · exact e2
      · have h5 := ha.left hT (t ▸ le)
        have h6 := (ha.consistent hT).left le
        rw [h5] at h6
        injection h6 with h6
        omega
    have : e = i ∨ e = inv i := by
      by_contra q
      push Not at q
      rw [ha.other e (t ▸ le) q.1 q.2] at e2'
      omega
    rcases this with rfl | rfl
    · exact q3 z hz v v3 _ e1 v4
    · exact q3 z hz v v3 _ e1 hm
  exact a4 ((key x a2 ((a5 x a2).2 (.inl rfl))).trans (key y a3 ((a5 y a3).2 (.inr rfl))).symm)

/-- the boundary of a neighbourhood of an edge does not cross the edges that end elsewhere -/
theorem boundary_off (hT : T.Valid) (ha : arc.IsEdgeArc T i) (hB : arc.boundary P dflt fuel = .ok B) :
    B.tri = T ∧ B.NoArcs ∧ B.w i = 0 ∧ ∀ f, T.IsLabel f → EndApart arc (T.edgeArcOf f) → B.w f = 0 := by
  have hc := ha.consistent hT
  have hw := ha.wellFormed hT
  have hb : arc.arcBoundary P dflt fuel = .ok B := by
    unfold boundary boundaryWith at hB
    rw [ha.cls, if_pos (show LamClass.arc.isMultiArc = true from rfl)] at hB
    exact hB
  have hsm : Same arc (T.edgeArcOf i) := by
    refine same_of_w hw (arc_wf hT i) ha.tri (fun x hx => ?_)
    rw [ha.tri] at hx
    rw [arc_w hx]
    by_cases q : x = i ∨ x = inv i
    · rw [if_pos q]
      rcases q with rfl | rfl
      · exact ha.at_edge
      · rw [w_inv]; exact ha.at_edge
    · rw [if_neg q]
      push Not at q
      exact ha.other x hx q.1 q.2
  have hcon : arc.Connected := (arc_connected ha.label).same hsm.symm
  have hna : ¬ arc.NoArcs := fun q => by
    have := q.nonneg (x := i) (by rw [ha.tri]; exact ha.label)
    rw [ha.at_edge] at this
    omega
  have hA : arc.OnlyHasArcs := by
    intro X hX hX'
    obtain ⟨q, N, hN⟩ := hX
    rcases hcon.2 _ _ hN with b | b
    · exact q.1 b
    · exact hna ((hN.symm.same_of_blank hw b).noArcs hX')
  obtain ⟨s, g, K, K', h1, l, hs, hle, k1, k2, k3, a1, a2, a3, a4, a5, a6, a7⟩ := arcBoundary_spec hc hA hb
  obtain ⟨b1, b2, b3, -⟩ := C80_disjoint P dflt fuel arc hc hA B hb
  refine ⟨b1.trans ha.tri, b2, b3.zero b2 (by rw [ha.tri]; exact ha.label) (by rw [ha.at_edge]; decide), fun f hf hE => ?_⟩
  obtain ⟨H, -⟩ := shortenAll_spec hw h1
  have hf0 : arc.w f ≤ 0 := ha.nonpos hf
  have hsp := H.spares f (by rw [ha.tri]; exact hf) hf0
  have lf : s.tri.IsLabel f := (H.w hw (by rw [ha.tri]; exact hf) hf0).2
  have e1 := hsp.edgeArc H.legal (H.source.trans ha.tri) H.target hf
  have hBw : K'.w f = B.w f := (Enc.spares_w H.legal hsp (by rw [b1, ha.tri]; exact hf) b2.1 a6).1
  have hE' := (hE.enc hc (arc_consistent hT hf) l k1 e1).same k2 .refl
  rw [← hBw]
  by_cases hsh : s.Sheltered f
  · exact a2.sheltered f lf hsh
  · rw [a2.outside f lf hsh]
    have hsT := hs.1.1
    have none : ∀ x, s.tri.IsLabel x → (x = f ∨ x = inv f) → ¬ s.EndsAt x := by
      rintro x lx hx ⟨v, v1, y, y1, y2⟩
      obtain ⟨v', vs, u1, u2, u3, u4, -⟩ := hsT.comp.vertexOf_ok lx
      rw [v1] at u1; cases u1
      refine hE' vs u2 v u3 ⟨?_, (IsEdgeArc.of_edge lf).reaches hsT u2 u3 (by rcases hx with rfl | rfl <;> tauto)⟩
      rw [reaches_iff hs (star_of_mem hsT u2 u3)]
      exact ⟨y, y1, .inl y2⟩
    rw [if_neg (none f lf (.inl rfl)), if_neg (none _ (isLabel_inv.2 lf) (.inr rfl))]
    rfl

/-- what a half twist about an edge fixes -/
theorem halftwist_holds (hT : T.Valid) (ha : arc.IsEdgeArc T i) (h2 : arc.TwoEnds) {power : Int} {t : HalfTwist} (ht : HalfTwist.create (boundaryTwist P dflt fuel) arc power = .ok t) :
    t.encodingPower.Holds T (fun X : Lam Int => X = arc ∨ ∃ f, T.IsLabel f ∧ EndApart arc (T.edgeArcOf f) ∧ X = T.edgeArcOf f) := by
  have hA : ∀ X : Lam Int, (X = arc ∨ ∃ f, T.IsLabel f ∧ EndApart arc (T.edgeArcOf f) ∧ X = T.edgeArcOf f) → X.WellFormed ∧ X.tri = T := by
    rintro X (rfl | ⟨f, _, -, rfl⟩)
    · exact ⟨ha.wellFormed hT, ha.tri⟩
    · exact ⟨arc_wf hT f, rfl⟩
  have hd := h2.distinct hT ha
  have hp0 : power ≠ 0 := by
    rintro rfl
    obtain ⟨e, he⟩ := C56_power_zero (boundaryTwist P dflt fuel) arc
    rw [he] at ht; cases ht
  obtain ⟨a, ns, T1, e1, c, hh, k, k1, k2, k3⟩ := HalfTwist.made hT ha hd
  have es : k.source = T := k3.conj.source.trans k3.csource
  have et : k.target = T := k3.conj.target.trans k3.csource
  have la : T.IsLabel a := by rcases k1 with rfl | rfl; exacts [ha.label, isLabel_inv.2 ha.label]
  have hki : k.applyLam arc = .ok arc := by
    rcases k1 with rfl | rfl
    · exact k3.arc ha
    · exact k3.arc ha.inv'
  have hkf : ∀ f, T.IsLabel f → EndApart arc (T.edgeArcOf f) → k.Spares f := by
    intro f hf hE
    have h1 : ∀ x y, (x = i ∨ x = inv i) → (y = f ∨ y = inv f) → ¬ T.SV x y := fun x y hx hy => hE.clear hT ha hf hx hy
    have hai : a = i ∨ a = inv i := k1
    have hai' : inv a = i ∨ inv a = inv i := by rcases k1 with rfl | rfl <;> simp [inv_inv]
    exact k3.spares hT la hf ⟨h1 _ _ hai (.inl rfl), h1 _ _ hai (.inr rfl)⟩ ⟨h1 _ _ hai' (.inl rfl), h1 _ _ hai' (.inr rfl)⟩
  have hk : k.Holds T (fun X : Lam Int => X = arc ∨ ∃ f, T.IsLabel f ∧ EndApart arc (T.edgeArcOf f) ∧ X = T.edgeArcOf f) := by
    refine ⟨k3.conj.legal, es, et, k3.conj.kind, ?_⟩
    rintro X (rfl | ⟨f, hf, hE, rfl⟩)
    · exact hki
    · exact (hkf f hf hE).edgeArc k3.conj.legal es et hf
  have hBt : ∀ p u, boundaryTwist P dflt fuel arc p = .ok u → u.Holds T (fun X : Lam Int => X = arc ∨ ∃ f, T.IsLabel f ∧ EndApart arc (T.edgeArcOf f) ∧ X = T.edgeArcOf f) := by
    intro p u hu
    unfold boundaryTwist at hu
    rw [py_bind_eq_ok] at hu
    obtain ⟨B, b1, b2⟩ := hu
    obtain ⟨c1, c2, c3, c4⟩ := boundary_off hT ha b1
    obtain ⟨d1, d2, d3, d4, d5⟩ := C60_mapping_class P dflt fuel B c2 p u b2
    rw [c1] at d3 d4 d5
    refine ⟨d1, d3, d4, d2, ?_⟩
    rintro X (rfl | ⟨f, hf, hE, rfl⟩)
    · have hsm : X = ⟨(T.edgeArcOf i : Lam Int).tri, (T.edgeArcOf i : Lam Int).geometric, X.cls⟩ := by
        refine ext_w ha.tri rfl (ha.wellFormed hT).2 (arc_wf hT i).2 (fun x hx => ?_)
        rw [ha.tri] at hx
        change _ = (T.edgeArcOf i : Lam Int).w x
        rw [arc_w hx]
        by_cases q : x = i ∨ x = inv i
        · rw [if_pos q]
          rcases q with rfl | rfl
          · exact ha.at_edge
          · rw [w_inv]; exact ha.at_edge
        · rw [if_neg q]
          push Not at q
          exact ha.other x hx q.1 q.2
      have := Enc.applyLam_cls (N := X) (d5 i ha.label c3).1 (by rw [hsm]) (by rw [hsm])
      rw [this, ← hsm]
    · exact (d5 f hf (c4 f hf hE)).1
  rw [HalfTwist.create_eq _ hT ha hp0, k2, py_bind_ok] at ht
  by_cases q1 : |power| ≤ 1
  · rw [if_pos q1, py_bind_eq_ok] at ht
    obtain ⟨p, p1, p2⟩ := ht
    injection p2 with p2
    subst p2
    dsimp only
    obtain ⟨p', r1, r2, r3, r4, r5, r6, -⟩ := Enc.pow_eq k3.conj.legal k3.conj.kind power
    rw [p1] at r1; cases r1
    refine ⟨r2, r4.trans es, r5.trans es, r3, ?_⟩
    have hp1 : power = 1 ∨ power = -1 := by rw [abs_le] at q1; omega
    intro X hX
    have := HalfTwist.fixes (boundaryTwist P dflt fuel) hT ha hd hp1 (t := ⟨arc, power, k, p⟩) (by rw [HalfTwist.create_eq _ hT ha hp0, k2, py_bind_ok, if_pos q1, p1]; rfl) k2 (hA X hX).1 (hk.fixes X hX) (hk.fixes X hX)
    exact this
  · rw [if_neg q1] at ht
    by_cases q2 : Int.fmod power 2 = 0
    · rw [if_pos q2, py_bind_eq_ok] at ht
      obtain ⟨p, p1, p2⟩ := ht
      injection p2 with p2
      subst p2
      exact hBt _ _ p1
    · rw [if_neg q2] at ht
      simp only [py_bind_eq_ok] at ht
      obtain ⟨u, u1, p, p1, p2⟩ := ht
      injection p2 with p2
      subst p2
      exact (hBt _ _ u1).mul hA hk p1

end Lam
end Curver
