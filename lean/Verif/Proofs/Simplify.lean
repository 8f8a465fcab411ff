import Verif.Spec.Simplify
import Verif.Proofs.Torelli
import Verif.Proofs.MultiArc
import Verif.Proofs.MappingEq
import Verif.Proofs.IsometriesTo
import Verif.Proofs.TwistEnc
import Verif.Proofs.TermAll
import Verif.Proofs.Slice
import Verif.Proofs.FlipGraph

namespace Curver
open Triangulation Lam

namespace Enc
variable {h g c : Enc} {S T : Triangulation} {f : Int → Int}

/-- what the encoding of an isometry does -/
theorem isometry_spec {m : LMove} (hm : m.Legal) (hf : m.IsIsometryMove S T f) : ∃ c, m.encode = .ok c ∧ c.Legal ∧ c.source = S ∧ c.target = T ∧
    c.applyLam S.asLamination = .ok T.asLamination ∧ ∀ x : Hom, x.WellFormed → x.tri = S → x.MapsTo f (c.act x) := by
  obtain ⟨i, i1, iA⟩ := hm.isometry_acts hf
  obtain ⟨-, -, -, -, -, fi⟩ := hf
  have ms : m.move.source = S := by rw [i1]; exact iA.source
  have mt : m.move.target = T := by rw [i1]; exact iA.target
  have ln : Path m.move.source [m] m.move.target := Path.single hm
  have hl : Enc.Legal ⟨if m.move.source = m.move.target then .mappingClass else .mapping, [m], m.move.source, m.move.target⟩ := by
    refine ⟨by simp, ln, fun q => ?_⟩
    dsimp only at q ⊢
    by_contra hn
    rw [if_neg hn] at q
    cases q
  refine ⟨_, hm.encode, hl, ms, mt, ?_, ?_⟩
  · have vS : S.Valid := by rw [← ms]; exact ln.valid_source
    have vT : T.Valid := by rw [← mt]; exact ln.valid_target
    have wS := vS.asLamination_consistent.1
    have wT := vT.asLamination_consistent.1
    have : i.applyLam S.asLamination = .ok T.asLamination := by
      refine (iA.applyLam_iff fi wS rfl).2 ⟨rfl, rfl, by rw [wT.2, wS.2]; exact fi.zeta, fun e he => ?_⟩
      have he' : S.IsLabel e := he
      rw [asLamination_w he', asLamination_w (fi.maps e he')]
    unfold Enc.applyLam
    rw [if_neg (by rw [Triangulation.eq_decide]; simp [ms, Triangulation.asLamination])]
    dsimp only
    rw [List.reverse_singleton, List.foldlM_cons, i1]
    show (i.applyLam S.asLamination >>= _) = _
    rw [this, py_bind_ok]
    rfl
  · intro x hx tx
    obtain ⟨y, y1, y2, y3⟩ := iA.applyHom fi hx tx
    have key : Enc.applyHom ⟨if m.move.source = m.move.target then .mappingClass else .mapping, [m], m.move.source, m.move.target⟩ x = .ok y := by
      unfold Enc.applyHom
      rw [if_neg (by rw [Triangulation.eq_decide]; simp [ms, tx])]
      dsimp only
      rw [List.reverse_singleton, List.foldlM_cons, i1]
      show (i.applyHom x >>= _) = _
      rw [y1, py_bind_ok]
      rfl
    have := (hl.act_ok hx (by rw [tx]; exact ms.symm)).1
    rw [key] at this
    injection this with this
    rw [← this]
    exact y3

theorem homs_eq (S : Triangulation) : S.edgeHomologies = .ok (S.indices.map (Hom.unit S)) := by
  unfold edgeHomologies
  apply mapM_ok
  intro i _
  exact Hom.create_ok (by simp)

/-- maps that agree on the edges agree -/
theorem agree_of_edges {F G : Hom → Hom} (hF : GoodMap S T F) (hG : GoodMap S T G) (hS : S.Valid) (hT : T.Valid) (hh : ∀ i ∈ S.indices, (F (Hom.unit S i)).Homologous (G (Hom.unit S i))) {x : Hom}
    (hx : x.WellFormed) (tx : x.tri = S) : (F x).Homologous (G x) := by
  obtain ⟨_, tS, htS, _⟩ := hS.comp.dualTree_ok []
  obtain ⟨_, tT, htT, _⟩ := hT.comp.dualTree_ok []
  refine (mat_eq_iff hF hG hS hT htS htT).1 ?_ x hx tx
  unfold mat
  apply List.map_congr_left
  intro j _
  apply List.map_congr_left
  intro i hi
  have hw := Hom.unit_wf hS i
  rw [(Hom.cn_congr (hF.wf _ hw rfl).1 (hG.wf _ hw rfl).1).2 (hh i (mem_cotree.1 hi).1)]

theorem pyAllM_total {α : Type _} {f : α → Py Bool} {l : List α} (h : ∀ x ∈ l, ∃ b, f x = .ok b) : ∃ b, pyAllM f l = .ok b := by
  induction l with
  | nil => exact ⟨true, rfl⟩
  | cons a l ih =>
    obtain ⟨b, hb⟩ := h a (by simp)
    unfold pyAllM
    rw [hb, py_bind_ok]
    cases b with
    | true => exact ih (fun x hx => h x (by simp [hx]))
    | false => exact ⟨false, rfl⟩

/-- the test for one candidate -/
theorem closes_spec (hh : h.Legal) (hg : g.Legal) (hgh : g.source = h.target) (hc : c.Legal) (cs : c.source = h.source) (ct : c.target = g.target) :
    ∃ b, closes (h.source.indices.map (Hom.unit h.source)) ((h.source.indices.map (Hom.unit h.source)).map (fun x => g.act (h.act x))) c = .ok b ∧
      (b = true ↔ ∀ x : Hom, x.WellFormed → x.tri = h.source → (c.act x).Homologous (g.act (h.act x))) := by
  have vS := hh.path.valid_source
  have vT := hg.path.valid_target
  have G1 : GoodMap h.source g.target c.act := by rw [← cs, ← ct]; exact hc.good
  have G2 : GoodMap h.source g.target (fun x => g.act (h.act x)) := hh.good.comp (by rw [← hgh]; exact hg.good)
  have one : ∀ i ∈ h.source.indices, ∃ b, (do let y ← c.applyHom (Hom.unit h.source i); y.eq (g.act (h.act (Hom.unit h.source i))) : Py Bool) = .ok b ∧
      (b = true ↔ (c.act (Hom.unit h.source i)).Homologous (g.act (h.act (Hom.unit h.source i)))) := by
    intro i _
    have hw := Hom.unit_wf vS i
    rw [(hc.act_ok hw cs.symm).1, py_bind_ok]
    exact Hom.eq_ok (hc.act_ok hw cs.symm).2.1 (G2.wf _ hw rfl).1
  have zz : (h.source.indices.map (Hom.unit h.source)).zip ((h.source.indices.map (Hom.unit h.source)).map (fun x => g.act (h.act x))) =
      h.source.indices.map (fun i => (Hom.unit h.source i, g.act (h.act (Hom.unit h.source i)))) := by
    rw [List.map_map]
    generalize h.source.indices = l
    induction l with
    | nil => rfl
    | cons a l ih => simp only [List.map_cons, List.zip_cons_cons, ih]; rfl
  unfold closes
  rw [zz]
  obtain ⟨b, hb⟩ := pyAllM_total (f := fun (p : Hom × Hom) => do
    let y ← c.applyHom p.1
    y.eq p.2) (l := h.source.indices.map (fun i => (Hom.unit h.source i, g.act (h.act (Hom.unit h.source i))))) (by
      intro p hp
      obtain ⟨i, hi, rfl⟩ := List.mem_map.1 hp
      obtain ⟨b, hb, -⟩ := one i hi
      exact ⟨b, hb⟩)
  refine ⟨b, hb, ?_⟩
  have key : b = true ↔ ∀ i ∈ h.source.indices, (c.act (Hom.unit h.source i)).Homologous (g.act (h.act (Hom.unit h.source i))) := by
    have : b = true ↔ pyAllM (fun (p : Hom × Hom) => do
        let y ← c.applyHom p.1
        y.eq p.2) (h.source.indices.map (fun i => (Hom.unit h.source i, g.act (h.act (Hom.unit h.source i))))) = .ok true := by
      rw [hb]
      exact ⟨fun e => by rw [e], fun e => by injection e⟩
    rw [this, pyAllM_ok_iff]
    constructor
    · intro H i hi
      obtain ⟨b, hb, q⟩ := one i hi
      have := H _ (List.mem_map.2 ⟨i, hi, rfl⟩)
      dsimp only at this
      rw [hb] at this
      injection this with this
      exact q.1 this
    · intro H p hp
      obtain ⟨i, hi, rfl⟩ := List.mem_map.1 hp
      obtain ⟨b, hb, q⟩ := one i hi
      dsimp only
      rw [hb, q.2 (H i hi)]
  rw [key]
  exact ⟨fun H x hx tx => agree_of_edges G1 G2 vS vT H hx tx, fun H i _ => H _ (Hom.unit_wf vS i) rfl⟩

theorem unit_ind1 {i u : Int} (hi : 0 ≤ i) (hu : S.IsLabel u) : (Hom.unit S i).v u = ind1 i u := by
  rw [Hom.unit_v hi hu]
  unfold ind1 inv
  rcases lt_or_ge u 0 with q | q
  · rw [norm_of_neg q, sign_of_neg q]
    unfold inv
    split_ifs <;> omega
  · rw [norm_of_nonneg q, sign_of_nonneg q]
    split_ifs <;> omega

/-- isometries that agree on homology are the same -/
theorem isometry_unique {f1 f2 : Int → Int} {F1 F2 : Hom → Hom} (hS : S.Valid) (hT : T.Valid) (h1 : S.IsIsometry T f1) (h2 : S.IsIsometry T f2)
    (m1 : ∀ x : Hom, x.WellFormed → x.tri = S → x.MapsTo f1 (F1 x)) (m2 : ∀ x : Hom, x.WellFormed → x.tri = S → x.MapsTo f2 (F2 x))
    (t1 : ∀ x : Hom, x.WellFormed → x.tri = S → (F1 x).tri = T)
    (hh : ∀ x : Hom, x.WellFormed → x.tri = S → (F1 x).Homologous (F2 x)) {e0 : Int} (he0 : S.IsLabel e0) : f1 e0 = f2 e0 := by
  obtain ⟨g1, hg1, a1, b1⟩ := h1.exists_inverse hS.comp hT.comp
  have hf : S.IsIsometry S (fun e => g1 (f2 e)) := h2.comp hg1
  have pos : ∀ i, 0 ≤ i → S.IsLabel i → S.NullHomologous (fun u => ind1 i u - ind1 (g1 (f2 i)) u) := by
    intro i hi li
    have hw := Hom.unit_wf hS i
    obtain ⟨-, n⟩ := hh _ hw rfl
    rw [t1 _ hw rfl] at n
    have n' : S.NullHomologous (fun u => (F1 (Hom.unit S i)).v (f1 u) - (F2 (Hom.unit S i)).v (f1 u)) :=
      hg1.null hT.comp hS.comp (fun e he => by rw [b1 e he]) n
    refine n'.congr (fun u hu => ?_)
    obtain ⟨w, lw, ew⟩ := h2.surj (h1.maps u hu)
    have e1 := (m1 _ hw rfl).2 u hu
    have e2 := (m2 _ hw rfl).2 w lw
    rw [e1, ← ew, e2, unit_ind1 hi hu, unit_ind1 hi lw]
    congr 1
    have q : u = g1 (f2 w) := by rw [ew, a1 u hu]
    unfold ind1
    have k1 : w = i ↔ u = g1 (f2 i) := by
      rw [q]
      exact ⟨fun e => by rw [e], fun e => hf.inj _ _ lw li e⟩
    have k2 : w = inv i ↔ u = inv (g1 (f2 i)) := by
      rw [q, ← hf.inverts i li]
      exact ⟨fun e => by rw [e], fun e => hf.inj _ _ lw (isLabel_inv.2 li) e⟩
    simp only [k1, k2]
  have all : ∀ e, S.IsLabel e → S.NullHomologous (fun u => ind1 e u - ind1 (g1 (f2 e)) u) := by
    intro e he
    rcases lt_or_ge e 0 with q | q
    · have := (pos (inv e) (by unfold inv; omega) (isLabel_inv.2 he)).neg
      refine this.congr (fun u _ => ?_)
      have r := hf.inverts e he
      rw [r]
      unfold ind1
      rw [Curver.inv_inv, Curver.inv_inv]
      ring
    · exact pos e q he
  have := hf.eq_id_of_homologous hS all he0
  rw [← b1 _ (h2.maps e0 he0), this]

/-- `c` does on homology what `h` followed by `g` does -/
def HomAgrees (c g h : Enc) : Prop := ∀ x : Hom, x.WellFormed → x.tri = h.source → (c.act x).Homologous (g.act (h.act x))

/-- the candidates that are kept -/
theorem closers_spec (hh : h.Legal) (hg : g.Legal) (hgh : g.source = h.target) : ∃ l, h.closers g = .ok l ∧ l.length ≤ 1 ∧
    (∀ c ∈ l, c.IsIsometryFrom h.source g.target ∧ c.HomAgrees g h) ∧ ∀ c : Enc, c.IsIsometryFrom h.source g.target → c.HomAgrees g h → l ≠ [] := by
  classical
  have vS := hh.path.valid_source
  have vT := hg.path.valid_target
  obtain ⟨isoms, o1, o2, o3⟩ := vS.isometriesTo_main vT
  obtain ⟨E, hE⟩ : ∃ E : LMove → Enc, ∀ m ∈ isoms, m.encode = .ok (E m) := by
    refine ⟨fun m => if hm : m ∈ isoms then (isometry_spec (o2 m hm).1 (o2 m hm).2.choose_spec).choose else h, fun m hm => ?_⟩
    dsimp only
    rw [dif_pos hm]
    exact (isometry_spec (o2 m hm).1 (o2 m hm).2.choose_spec).choose_spec.1
  have spec : ∀ m ∈ isoms, ∀ f, m.IsIsometryMove h.source g.target f → (E m).Legal ∧ (E m).source = h.source ∧ (E m).target = g.target ∧
      ∀ x : Hom, x.WellFormed → x.tri = h.source → x.MapsTo f ((E m).act x) := by
    intro m hm f hf
    obtain ⟨c, c1, c2, c3, c4, -, c6⟩ := isometry_spec (o2 m hm).1 hf
    have := c1.symm.trans (hE m hm)
    injection this with this
    subst this
    exact ⟨c2, c3, c4, c6⟩
  let good : LMove → Bool := fun m => decide ((E m).HomAgrees g h)
  have hk : h.closers g = .ok ((isoms.filter good).map E) := by
    unfold closers
    rw [o1, py_bind_ok, mapM_ok (g := E) hE, py_bind_ok, homs_eq, py_bind_ok, mapM_ok (g := fun x => g.act (h.act x)) (by
      intro x hx
      obtain ⟨i, hi, rfl⟩ := List.mem_map.1 hx
      have hw := Hom.unit_wf vS i
      obtain ⟨q1, q2, q3⟩ := hh.act_ok hw rfl
      rw [q1, py_bind_ok, (hg.act_ok q2 (q3.trans hgh.symm)).1]), py_bind_ok]
    have fl : (isoms.map E).mapM (closes (h.source.indices.map (Hom.unit h.source)) ((h.source.indices.map (Hom.unit h.source)).map (fun x => g.act (h.act x)))) =
        (.ok ((isoms.map E).map (fun c => decide (c.HomAgrees g h))) : Py _) := by
      apply mapM_ok
      intro c hc
      obtain ⟨m, hm, rfl⟩ := List.mem_map.1 hc
      obtain ⟨l1, l2, l3, -⟩ := spec m hm _ (o2 m hm).2.choose_spec
      obtain ⟨b, b1, b2⟩ := closes_spec hh hg hgh l1 l2 l3
      rw [b1]
      congr 1
      rw [Bool.eq_iff_iff, b2, decide_eq_true_eq]
      rfl
    rw [fl, py_bind_ok]
    show (.ok _ : Py _) = _
    congr 1
    simp only [good]
    generalize isoms = l
    clear * -
    induction l with
    | nil => rfl
    | cons a l ih =>
      simp only [List.map_cons, List.zip_cons_cons, List.filter_cons]
      by_cases q : (E a).HomAgrees g h
      · simp only [q, decide_true, if_true, List.map_cons, ih]
      · simp only [q, decide_false, Bool.false_eq_true, if_false]
        exact ih
  have same : ∀ (m m' : LMove) (f f' : Int → Int), m ∈ isoms → m' ∈ isoms → m.IsIsometryMove h.source g.target f → m'.IsIsometryMove h.source g.target f' → good m = true → good m' = true →
      ∀ e, h.source.IsLabel e → f e = f' e := by
    intro m m' f f' hm hm' hf hf' q q' e he
    obtain ⟨a1, a2, a3, a4⟩ := spec m hm f hf
    obtain ⟨b1, b2, b3, b4⟩ := spec m' hm' f' hf'
    refine isometry_unique vS vT hf.choose_spec.2.2.2.2 hf'.choose_spec.2.2.2.2 a4 b4 (fun x hx tx => (a1.act_ok hx (tx.trans a2.symm)).2.2.trans a3) (fun x hx tx => ?_) he
    exact ((of_decide_eq_true q) x hx tx).trans ((of_decide_eq_true q') x hx tx).symm
  refine ⟨_, hk, ?_, ?_, ?_⟩
  · rw [List.length_map]
    by_contra! hn
    obtain ⟨m, hm⟩ : ∃ m, m ∈ isoms.filter good := List.exists_mem_of_length_pos (by omega)
    obtain ⟨hm1, hm2⟩ := List.mem_filter.1 hm
    obtain ⟨f, hf⟩ := (o2 m hm1).2
    obtain ⟨l₁, m1, l₂, e, d1, d2⟩ := o3 f hf.choose_spec.2.2.2.2
    have none : ∀ m' ∈ l₁ ++ l₂, good m' ≠ true := by
      intro m' hm' q
      have hi : m' ∈ isoms := by
        rw [e]
        rcases List.mem_append.1 hm' with r | r
        · exact List.mem_append_left _ r
        · exact List.mem_append_right _ (List.mem_cons_of_mem _ r)
      obtain ⟨f', hf'⟩ := (o2 m' hi).2
      have ag := same m m' f f' hm1 hi hf hf' hm2 q
      obtain ⟨i, r1, r2, r3, r4, r5⟩ := hf'
      refine d2 m' hm' (show LMove.IsIsometryMove _ _ _ _ from ⟨i, r1, r2, r3, ⟨r4.1, fun x v => ?_⟩, hf.choose_spec.2.2.2.2⟩)
      rw [r4.2]
      exact ⟨fun z => ⟨z.1, by rw [ag x z.1]; exact z.2⟩, fun z => ⟨z.1, by rw [← ag x z.1]; exact z.2⟩⟩
    refine absurd hn (not_lt.2 ?_)
    rw [e, List.filter_append, List.filter_cons, List.filter_eq_nil_iff.2 (fun a ha => none a (List.mem_append_left _ ha)), List.filter_eq_nil_iff.2 (fun a ha => none a (List.mem_append_right _ ha))]
    split <;> simp
  · intro c hc
    obtain ⟨m, hm, rfl⟩ := List.mem_map.1 hc
    obtain ⟨hm1, hm2⟩ := List.mem_filter.1 hm
    exact ⟨⟨m, _, (o2 m hm1).1, (o2 m hm1).2.choose_spec, hE m hm1⟩, of_decide_eq_true hm2⟩
  · intro c hc hag e
    obtain ⟨m, f, m1, m2, m3⟩ := hc
    obtain ⟨c', c1, c2, c3, c4, -, c6⟩ := isometry_spec m1 m2
    have cc := c1.symm.trans m3
    injection cc with cc
    subst cc
    have fi := m2.choose_spec.2.2.2.2
    obtain ⟨l₁, m', l₂, e', d1, -⟩ := o3 f fi
    have hi : m' ∈ isoms := by rw [e']; simp
    obtain ⟨s1, s2, s3, s4⟩ := spec m' hi f d1
    have : good m' = true := by
      refine decide_eq_true (fun x hx tx => ?_)
      have u : (E m').act x = c'.act x := Hom.MapsTo.unique hx (tx ▸ fi) (s4 x hx tx) (c6 x hx tx) ((s1.act_ok hx (tx.trans s2.symm)).2.2.trans s3) ((c2.act_ok hx (tx.trans c3.symm)).2.2.trans c4)
      rw [u]
      exact hag x hx tx
    have : E m' ∈ (isoms.filter good).map E := List.mem_map.2 ⟨m', List.mem_filter.2 ⟨hi, this⟩, rfl⟩
    rw [e] at this
    simp at this

/-- after the image of the edges has been shortened -/
theorem shorten_edges {P : Lam Int → Py LamClass} {dflt slow : Int → Int → Bool} {n : Nat} {L s : Lam Int} (hh : h.Legal) (hL : h.selfImage = .ok L) (hs : L.shortenAll P dflt n slow = .ok (s, g)) :
    g.Legal ∧ g.source = h.target ∧ g.applyLam L = .ok g.target.asLamination := by
  have vS := hh.path.valid_source
  have cS := vS.asLamination_consistent
  have tS : h.source.asLamination.IsTriangulation := isTriangulation_of_edges cS (fun x hx => asLamination_w hx)
  have hL' : h.applyLam h.source.asLamination = .ok L := hL
  obtain ⟨u1, u2, u3, -⟩ := hh.undo cS.1 hL'
  have cL : L.Consistent := cS.enc hh hL'
  have tL := tS.enc cS hh hL'
  obtain ⟨a1, a2, a3, a4, K, k1, k2, k3, -⟩ := shorten_same cL hs
  have neg := (tL.onlyArcs cL).short cL hs
  have tK := tL.enc cL a1 k1
  have ts := tK.same k3
  have ws := edges_of_isTriangulation a4 neg ts
  obtain ⟨v1, v2, v3, -⟩ := a1.undo cL.1 k1
  refine ⟨a1, a2.trans u2, ?_⟩
  rw [k1]
  congr 1
  have vT := a1.path.valid_target
  have wT := vT.asLamination_consistent.1
  refine Lam.ext_w v2 (v3.trans u3) v1.2 wT.2 (fun e he => ?_)
  rw [k3.w, ws e (by rw [← a3, ← v2]; exact he), asLamination_w (T := g.target) (by rw [← v2]; exact he)]

/-- what `simplify` gives -/
theorem simplifyWith_spec {P : Lam Int → Py LamClass} {dflt slow : Int → Int → Bool} {n : Nat} {m : Enc} (hh : h.Legal) (hm : h.simplifyWith (Lam.shortenAll P dflt n slow) = .ok m) :
    m.Legal ∧ m.Agree h := by
  unfold simplifyWith at hm
  simp only [py_bind_eq_ok] at hm
  obtain ⟨L, hL, ⟨s, g⟩, hs, kept, hk, hm⟩ := hm
  obtain ⟨g1, g2, g3⟩ := shorten_edges hh hL hs
  obtain ⟨l, l1, -, l3, -⟩ := closers_spec hh g1 g2
  cases l1.symm.trans hk
  split at hm
  swap
  · cases hm
  rename_i c
  obtain ⟨⟨mv, f, m1, m2, m3⟩, c0⟩ := l3 c (by simp)
  obtain ⟨c', c1, c2, c3, c4, c5, c6⟩ := isometry_spec m1 m2
  cases c1.symm.trans m3
  simp only [py_bind_eq_ok] at hm
  obtain ⟨i, hi, hm⟩ := hm
  have ei : i = g.inv' := by
    rw [inverse_eq g1] at hi
    injection hi with hi
    rw [← hi]
    rfl
  subst ei
  obtain ⟨k, k1, k2, k3, -⟩ := mul_spec g1.inv' c2 (show g.target = _ from c4.symm)
  cases k1.symm.trans hm
  have vS := hh.path.valid_source
  refine ⟨k2, k3.source.trans c3, k3.target.trans g2, ?_, ?_⟩
  · rw [k3.source, c3]
    rw [k3.lam Int _ vS.asLamination_consistent.1, c5, py_bind_ok]
    have wL := (hh.undo vS.asLamination_consistent.1 hL).1
    rw [(g1.undo wL g3).2.2.2]
    exact hL.symm
  · intro x y z hx hy hz
    rw [k3.hom x hx] at hy
    simp only [py_bind_eq_ok] at hy
    obtain ⟨x', a1, a2⟩ := hy
    have tx : x.tri = h.source := by
      rw [applyHom_eq] at hz; split at hz
      · rename_i q; exact q.symm
      · cases hz
    obtain ⟨b1, b2, b3⟩ := c2.act_ok hx (tx.trans c3.symm)
    cases a1.symm.trans b1
    obtain ⟨d1, d2, d3⟩ := hh.act_ok hx tx
    cases hz.symm.trans d1
    obtain ⟨e1, e2, e3⟩ := g1.act_ok d2 (d3.trans g2.symm)
    have ag := c0 x hx tx
    obtain ⟨y', r1, r2⟩ := g1.hom_undo d2 e1
    exact ((g1.inv'.hom_congr b2 e2 a2 r1).2 ag).trans r2.symm

/-- agreement of an isometry is agreement on homology -/
theorem agreesWith_iff {L : Lam Int} (hh : h.Legal) (hg : g.Legal) (hgh : g.source = h.target) (hL : h.selfImage = .ok L) (gL : g.applyLam L = .ok g.target.asLamination)
    (hc : c.IsIsometryFrom h.source g.target) : c.AgreesWith g h ↔ c.HomAgrees g h := by
  obtain ⟨m, f, m1, m2, m3⟩ := hc
  obtain ⟨c', c1, c2, c3, c4, c5, -⟩ := isometry_spec m1 m2
  have cc := c1.symm.trans m3
  injection cc with cc
  subst cc
  have vS := hh.path.valid_source
  constructor
  · rintro ⟨k, k0, k1, k2⟩ x hx tx
    obtain ⟨b1, -, -⟩ := c2.act_ok hx (tx.trans c3.symm)
    obtain ⟨d1, d2, d3⟩ := hh.act_ok hx tx
    obtain ⟨e1, -, -⟩ := hg.act_ok d2 (d3.trans hgh.symm)
    exact k2.homology x _ _ hx b1 (by rw [k1.hom x hx, d1, py_bind_ok, e1])
  · intro H
    obtain ⟨k, -, k2, k3, -⟩ := mul_spec hg hh hgh
    refine ⟨k, k2, k3, c3.trans k3.source.symm, c4.trans k3.target.symm, ?_, ?_⟩
    · rw [c3, c5, k3.lam Int _ vS.asLamination_consistent.1]
      have : h.applyLam h.source.asLamination = .ok L := hL
      rw [this, py_bind_ok, gL]
    · intro x y z hx hy hz
      have tx : x.tri = h.source := by
        rw [applyHom_eq] at hy; split at hy
        · rename_i q; exact q.symm.trans c3
        · cases hy
      obtain ⟨b1, -, -⟩ := c2.act_ok hx (tx.trans c3.symm)
      obtain ⟨d1, d2, d3⟩ := hh.act_ok hx tx
      obtain ⟨e1, -, -⟩ := hg.act_ok d2 (d3.trans hgh.symm)
      rw [k3.hom x hx, d1, py_bind_ok, e1] at hz
      cases b1.symm.trans hy
      injection hz with hz
      rw [← hz]
      exact H x hx tx

/-- when the shortening comes back -/
theorem simplifyWith_returns {P : Lam Int → Py LamClass} {dflt slow : Int → Int → Bool} {n : Nat} {L s : Lam Int} (hh : h.Legal) (hL : h.selfImage = .ok L) (hs : L.shortenAll P dflt n slow = .ok (s, g)) :
    ((∃ c : Enc, c.IsIsometryFrom h.source g.target ∧ c.AgreesWith g h) ∧ ∃ c k : Enc, h.closers g = .ok [c] ∧ g.inv'.mul c = .ok k ∧ h.simplifyWith (Lam.shortenAll P dflt n slow) = .ok k) ∨
    ((¬ ∃ c : Enc, c.IsIsometryFrom h.source g.target ∧ c.AgreesWith g h) ∧ h.simplifyWith (Lam.shortenAll P dflt n slow) = .error .valueError) := by
  obtain ⟨g1, g2, g3⟩ := shorten_edges hh hL hs
  obtain ⟨l, l1, l2, l3, l4⟩ := closers_spec hh g1 g2
  have ev : ∀ l, h.closers g = .ok l → h.simplifyWith (Lam.shortenAll P dflt n slow) = (match l with
      | [closer] => do
        let i ← g.inverse
        i.mul closer
      | _ => .error .valueError : Py Enc) := by
    intro l l1
    unfold simplifyWith
    rw [hL, py_bind_ok, hs, py_bind_ok]
    show (h.closers g >>= _) = _
    rw [l1, py_bind_ok]
    rcases l with _ | ⟨c, _ | ⟨d, l⟩⟩ <;> rfl
  rcases l with _ | ⟨c, _ | ⟨d, l⟩⟩
  · right
    refine ⟨?_, ev _ l1⟩
    rintro ⟨c, c1, c2⟩
    exact l4 c c1 ((agreesWith_iff hh g1 g2 hL g3 c1).1 c2) rfl
  · left
    obtain ⟨⟨mv, f, m1, m2, m3⟩, c0⟩ := l3 c (by simp)
    refine ⟨⟨c, ⟨mv, f, m1, m2, m3⟩, (agreesWith_iff hh g1 g2 hL g3 ⟨mv, f, m1, m2, m3⟩).2 c0⟩, ?_⟩
    obtain ⟨c', c1, c2, c3, c4, -, -⟩ := isometry_spec m1 m2
    have cc := c1.symm.trans m3
    injection cc with cc
    subst cc
    obtain ⟨k, k1, -⟩ := mul_spec g1.inv' c2 (show g.target = _ from c4.symm)
    refine ⟨c', k, l1, k1, ?_⟩
    rw [ev _ l1]
    dsimp only
    rw [inverse_eq g1, py_bind_ok]
    exact k1
  · simp at l2

end Enc
end Curver
