import Verif.Proofs.VertexMap2
import Verif.Props.Peripheral
import Verif.Props.Encoding
import Verif.Props.Permutation
import Verif.Props.Flips
import Verif.Props.IsometriesTo

/-!
# C43: mappings act on the vertices and respect peripheral components
-/

namespace Curver
open Triangulation

/-- C43: `vertex_map()` is defined for every mapping built from flips, multiflips and isometries.  Its keys are the vertices of the source,
its values are the vertices of the target, each exactly once, and the mapping takes the curve around a vertex to the curve around its image. -/
theorem C43_vertex_map (h : Enc) (hh : h.Legal) : ∃ vm vs ws, h.vertexMap = .ok vm ∧ h.source.vertices = .ok vs ∧ h.target.vertices = .ok ws ∧
    vm.keys = vs ∧ vm.values.Perm ws ∧ vm.values.Nodup ∧
    ∀ v w, (v, w) ∈ vm → h.applyLam (h.source.curveFromCutSequence v : Lam Int) = .ok (h.target.curveFromCutSequence w) := by
  obtain ⟨C, hC, hR⟩ := hh.carries
  obtain ⟨vs, ws, hvs, hws, f, hf, hvm⟩ := hh.vertexMap_ok hC (hR Int)
  have hS := hh.path.valid_source.comp
  have hT := hh.path.valid_target.comp
  obtain ⟨a1, a2, a3, a4⟩ := hS.vertices_mem hvs
  obtain ⟨b1, b2, b3, b4⟩ := hT.vertices_mem hws
  have hn : (vs.map f).Nodup := by
    refine List.Nodup.map_on ?_ (hS.nodup_vertices hvs)
    intro v hv w hw hvw
    obtain ⟨x, hx⟩ := List.exists_mem_of_ne_nil _ (a2 v hv).1.ne
    obtain ⟨y, hy⟩ := hC.total x ((a2 v hv).2.2 x hx)
    have h1 := ((hf v hv).2 x y hy).1 hx
    rw [hvw] at h1
    exact a3 v hv w hw x hx (((hf w hw).2 x y hy).2 h1)
  refine ⟨_, vs, ws, hvm, hvs, hws, ?_, ?_, ?_, ?_⟩
  · simp [PyDict.keys, Function.comp_def]
  · have e : PyDict.values (vs.map (fun v => (v, f v))) = vs.map f := by simp [PyDict.values, Function.comp_def]
    rw [e, List.perm_ext_iff_of_nodup hn (hT.nodup_vertices hws)]
    intro w
    constructor
    · intro hw
      obtain ⟨v, hv, rfl⟩ := List.mem_map.1 hw
      exact (hf v hv).1
    · intro hw
      obtain ⟨y, hy⟩ := List.exists_mem_of_ne_nil _ (b2 w hw).1.ne
      obtain ⟨x, hxy⟩ := hC.surj y ((b2 w hw).2.2 y hy)
      obtain ⟨v, hv, hxv⟩ := a1 x (hC.lab _ _ hxy).1
      have := ((hf v hv).2 x y hxy).1 hxv
      rw [b3 w hw _ (hf v hv).1 y hy this]
      exact List.mem_map_of_mem hv
  · have e : PyDict.values (vs.map (fun v => (v, f v))) = vs.map f := by simp [PyDict.values, Function.comp_def]
    rw [e]; exact hn
  · intro v w hvw
    obtain ⟨u, hu, e⟩ := List.mem_map.1 hvw
    injection e with e1 e2
    subst e1; subst e2
    rw [Enc.applyLam_on h (L := h.source.curveFromCutSequence u) rfl]
    exact hh.path.link hC (hR Int) hvs hws hu (hf u hu).1 (hf u hu).2

/-- C43: the entries of `vertex_map()` are exactly the pairs of vertices whose surrounding curves correspond. -/
theorem C43_characterised (h : Enc) (hh : h.Legal) (vm : PyDict (List Int) (List Int)) (vs ws : List (List Int)) (hvm : h.vertexMap = .ok vm)
    (hvs : h.source.vertices = .ok vs) (hws : h.target.vertices = .ok ws) (v w : List Int) : (v, w) ∈ vm ↔ v ∈ vs ∧ w ∈ ws ∧
      h.applyLam (h.source.curveFromCutSequence v : Lam Int) = .ok (h.target.curveFromCutSequence w) := by
  obtain ⟨vm', vs', ws', h1, h2, h3, h4, h5, h6, h7⟩ := C43_vertex_map h hh
  rw [hvm] at h1; cases h1
  rw [hvs] at h2; cases h2
  rw [hws] at h3; cases h3
  constructor
  · intro hm
    refine ⟨?_, ?_, h7 v w hm⟩
    · rw [← h4]; exact List.mem_map_of_mem (f := Prod.fst) hm
    · rw [← h5.mem_iff]; exact List.mem_map_of_mem (f := Prod.snd) hm
  · rintro ⟨hv, hw, ha⟩
    rw [← h4] at hv
    obtain ⟨⟨v', w'⟩, hm, rfl⟩ := List.mem_map.1 hv
    have := h7 _ _ hm
    dsimp only at ha
    rw [ha] at this
    have hw' : w' ∈ ws := by rw [← h5.mem_iff]; exact List.mem_map_of_mem (f := Prod.snd) hm
    have e : w = w' := by
      injection this with this
      exact hh.path.valid_target.comp.link_inj (R := Int) hws hw hw' (by unfold curveFromCutSequence at this; injection this)
    rw [e]; exact hm

/-- C43: the vertex map of a composition is the composition of the vertex maps. -/
theorem C43_compose (g h k : Enc) (hg : g.Legal) (hh : h.Legal) (hk : g.mul h = .ok k) (a b c : PyDict (List Int) (List Int))
    (ha : g.vertexMap = .ok a) (hb : h.vertexMap = .ok b) (hc : k.vertexMap = .ok c) (u w : List Int) :
    (u, w) ∈ c ↔ ∃ v, (u, v) ∈ b ∧ (v, w) ∈ a := by
  have he : g.source = h.target := by
    by_contra hne
    rw [C14_compose_mismatch g h hne] at hk; cases hk
  obtain ⟨k', h1, h2, h3⟩ := C14_composition g h hg hh he
  rw [hk] at h1; cases h1
  obtain ⟨_, vs, us, e1, hvs, hus, _⟩ := C43_vertex_map g hg
  obtain ⟨b', ts, vs', e2, hts, hvs', e3, e4, e5, e6⟩ := C43_vertex_map h hh
  rw [hb] at e2; cases e2
  rw [C43_characterised k h2 c ts us hc (by rw [h3.source]; exact hts) (by rw [h3.target]; exact hus)]
  have hlam := h3.lam Int
  constructor
  · rintro ⟨hu, hw, hl⟩
    rw [← e3] at hu
    obtain ⟨⟨u', v⟩, hm, rfl⟩ := List.mem_map.1 hu
    dsimp only at hl ⊢
    refine ⟨v, hm, ?_⟩
    have hu' : u' ∈ ts := by rw [← e3]; exact List.mem_map_of_mem (f := Prod.fst) hm
    have hv : v ∈ vs' := by rw [← e4.mem_iff]; exact List.mem_map_of_mem (f := Prod.snd) hm
    rw [C43_characterised g hg a vs us ha hvs hus]
    refine ⟨by rw [he] at hvs; rw [hvs] at hvs'; cases hvs'; exact hv, hw, ?_⟩
    rw [h3.source, hlam _ ⟨hh.path.valid_source, cut_length u'⟩, e6 _ _ hm, py_bind_ok] at hl
    rw [he, hl, h3.target]
  · rintro ⟨v, hm, hm'⟩
    have hu' : u ∈ ts := by rw [← e3]; exact List.mem_map_of_mem (f := Prod.fst) hm
    rw [C43_characterised g hg a vs us ha hvs hus] at hm'
    refine ⟨hu', hm'.2.1, ?_⟩
    rw [h3.source, hlam _ ⟨hh.path.valid_source, cut_length u⟩, e6 _ _ hm, py_bind_ok, ← he, hm'.2.2, h3.target]

/-- C43: the vertex map of the inverse is the inverse of the vertex map. -/
theorem C43_inverse (h g : Enc) (hh : h.Legal) (hg : h.inverse = .ok g) (a b : PyDict (List Int) (List Int))
    (ha : h.vertexMap = .ok a) (hb : g.vertexMap = .ok b) (v w : List Int) : (w, v) ∈ b ↔ (v, w) ∈ a := by
  rw [Enc.inverse_eq hh] at hg
  injection hg with hg
  have hgi : g = h.inv' := hg.symm
  subst hgi
  obtain ⟨_, vs, ws, _, hvs, hws, _⟩ := C43_vertex_map h hh
  rw [C43_characterised h hh a vs ws ha hvs hws, C43_characterised h.inv' hh.inv' b ws vs hb hws hvs]
  have w1 : ∀ v, (h.source.curveFromCutSequence v : Lam Int).WellFormed := fun v => ⟨hh.path.valid_source, cut_length v⟩
  have w2 : ∀ w, (h.target.curveFromCutSequence w : Lam Int).WellFormed := fun w => ⟨hh.path.valid_target, cut_length w⟩
  constructor
  · rintro ⟨h1, h2, h3⟩
    exact ⟨h2, h1, (hh.undo' (w2 w) h3).2.2.2⟩
  · rintro ⟨h1, h2, h3⟩
    exact ⟨h2, h1, (hh.undo (w1 v) h3).2.2.2⟩

/-- The entry of the dictionary for the vertex with an edge leaving it. -/
theorem vertexMap_match {h : Enc} {C : Int → Int → Prop} (hh : h.Legal) (hC : VCorr h.source h.target C)
    (hR : Carries (R := Int) h.source h.target (performLam h.performed) C) {vm : PyDict (List Int) (List Int)} (hvm : h.vertexMap = .ok vm)
    {v w : List Int} (hm : (v, w) ∈ vm) : VMatch C v w ∧ (∃ vs, h.source.vertices = .ok vs ∧ v ∈ vs) ∧ ∃ ws, h.target.vertices = .ok ws ∧ w ∈ ws := by
  obtain ⟨vs, ws, hvs, hws, f, hf, e⟩ := hh.vertexMap_ok hC hR
  rw [hvm] at e; injection e with e
  rw [e] at hm
  obtain ⟨u, hu, e2⟩ := List.mem_map.1 hm
  injection e2 with e3 e4
  subst e3; subst e4
  exact ⟨(hf u hu).2, ⟨vs, hvs, hu⟩, ws, hws, (hf u hu).1⟩

section
variable {R : Type} [CommRing R] [LinearOrder R] [IsStrictOrderedRing R] [Halvable R] [IntTest R]

/-- C43: a mapping takes a lamination that runs `m` times around a vertex to one that runs `m` times around the image of the vertex. -/
theorem C43_multiplicity (h : Enc) (hh : h.Legal) (vm : PyDict (List Int) (List Int)) (hvm : h.vertexMap = .ok vm) (L L' : Lam R) (hL : L.Consistent)
    (ha : h.applyLam L = .ok L') (v w : List Int) (hvw : (v, w) ∈ vm) (m : R) : L'.Multiplicity w m ↔ L.Multiplicity v m := by
  obtain ⟨C, hC, hR⟩ := hh.carries
  obtain ⟨hm, ⟨vs, hvs, hv⟩, ws, hws, hw⟩ := vertexMap_match hh hC (hR Int) hvm hvw
  have hS := hh.path.valid_source.comp
  have hT := hh.path.valid_target.comp
  obtain ⟨a1, a2, a3, a4⟩ := hS.vertices_mem hvs
  obtain ⟨x, hx⟩ := List.exists_mem_of_ne_nil _ (a2 v hv).1.ne
  have lx := (a2 v hv).2.2 x hx
  obtain ⟨y, hy⟩ := hC.total x lx
  have ly := (hC.lab _ _ hy).2
  have hyw := (hm x y hy).1 hx
  have ht : L.tri = h.source := by
    rw [Enc.applyLam_eq] at ha
    by_contra hne
    rw [if_neg (fun k => hne k.symm)] at ha; cases ha
  obtain ⟨L₁, t1, t2, t3, -⟩ := hh.path.performLam_total hL ht
  rw [← Enc.applyLam_on h ht.symm, ha] at t1; cases t1
  have hmu := Lam.isMult_mu hL
  obtain ⟨m', p1, p2⟩ := hC.push (α := R) hT (m := L.mu) (fun e f he hs => hmu.const e f (by rw [ht]; exact he) (by rw [ht]; exact hs))
  have hm' := hh.isMult hC hR hL ht ha hmu p1 p2
  rw [Lam.mult_iff hL (by rw [ht]; exact lx) (by rw [ht]; exact hS.vertexOf_of_mem hvs hv hx),
    Lam.mult_iff t3 (by rw [t2]; exact ly) (by rw [t2]; exact hT.vertexOf_of_mem hws hw hyw),
    (Lam.isMult_mu t3).unique hm' t3.1.1.comp (by rw [t2]; exact ly), p1 x y hy]

/-- C43: mappings commute with taking the peripheral and the non-peripheral part. -/
theorem C43_parts (h : Enc) (hh : h.Legal) (P : Lam R → Py LamClass) (b : Bool) (L L' : Lam R) (hL : L.Consistent) (ha : h.applyLam L = .ok L') (p p' q q' : Lam R)
    (hp : L.peripheral P = .ok p) (hp' : L'.peripheral P = .ok p') (hq : L.nonPeripheral P b = .ok q) (hq' : L'.nonPeripheral P b = .ok q') :
    (∃ k, h.applyLam p = .ok k ∧ k.eqv p' = true) ∧ ∃ k, h.applyLam q = .ok k ∧ k.eqv q' = true := by
  obtain ⟨C, hC, hR⟩ := hh.carries
  have hT := hh.path.valid_target.comp
  have ht : L.tri = h.source := by
    rw [Enc.applyLam_eq] at ha
    by_contra hne
    rw [if_neg (fun k => hne k.symm)] at ha; cases ha
  obtain ⟨L₁, t1, t2, t3, -⟩ := hh.path.performLam_total hL ht
  have ha' := ha
  rw [Enc.applyLam_on h ht.symm] at ha'
  rw [ha'] at t1; cases t1
  have hmu := Lam.isMult_mu hL
  have hmu' := Lam.isMult_mu t3
  obtain ⟨m', p1, p2⟩ := hC.push (α := R) hT (m := L.mu) (fun e f he hs => hmu.const e f (by rw [ht]; exact he) (by rw [ht]; exact hs))
  have hm' := hh.isMult hC hR hL ht ha hmu p1 p2
  have same : ∀ e, h.target.IsLabel e → m' e = L'.mu e := fun e he => hm'.unique hmu' t3.1.1.comp (by rw [t2]; exact he)
  obtain ⟨p₁, a1, a2, a3, a4, _⟩ := Lam.peripheral_ok P hL
  rw [hp] at a1; cases a1
  obtain ⟨p₁, b1, b2, b3, b4, _⟩ := Lam.peripheral_ok P t3
  rw [hp'] at b1; cases b1
  obtain ⟨c1, c2, c3⟩ := C42_decomposition P L hL b p q hp hq
  obtain ⟨d1, d2, d3⟩ := C42_decomposition P L' t3 b p' q' hp' hq'
  constructor
  · -- the peripheral part is all around vertices
    have hpc := Lam.isMult_links (M := p) (m := L.mu) ⟨by rw [a2]; exact hL.1.1, by rw [a2, a3]⟩ (by rw [a2]; exact hmu.nonneg) (by rw [a2]; exact hmu.const)
      (by rw [a2]; exact a4)
    have htp : p.tri = h.source := a2.trans ht
    obtain ⟨k, k1, k2, k3, _⟩ := hh.path.performLam_total hpc.1 htp
    refine ⟨k, by rw [Enc.applyLam_on h htp.symm]; exact k1, ?_⟩
    have hfit := hpc.2.2.fits hpc.1
    obtain ⟨f1, f2⟩ := (hR R).fits p k L.mu m' hpc.1 htp k1 hfit p1 p2
    obtain ⟨N, hN⟩ := Lam.exists_removes hpc.1.1 L.mu
    obtain ⟨N', g1, g2⟩ := f2 N hN
    have hz := (hR R).zero N N' (hN.consistent hpc.1 hfit) (hN.tri.trans htp) g1 (fun e he => by
      have he' : L.tri.IsLabel e := by rw [ht]; exact he
      rw [hN.w e (by rw [a2]; exact he'), a4 e he']; ring)
    rw [Lam.eqv_iff (L := p') ⟨by rw [b2]; exact t3.1.1, by rw [b2, b3]⟩ (by rw [k2, b2, t2]) (by rw [k3.1.2, k2, b2, t2])]
    intro e he
    have he' : h.target.IsLabel e := by rw [b2, t2] at he; exact he
    have := g2.w e (by rw [k2]; exact he')
    rw [hz e he', same e he', same _ (isLabel_inv.2 he')] at this
    rw [b4 e (by rw [t2]; exact he')]
    linarith
  · obtain ⟨f1, f2⟩ := (hR R).fits L L' L.mu m' hL ht ha' (hmu.fits hL) p1 p2
    have hrem : q.Removes L L.mu := ⟨c1, by rw [c2.1.2, c1, hL.1.2], fun e he => by rw [← a4 e he, c3 e he]; ring⟩
    obtain ⟨k, k1, k2⟩ := f2 q hrem
    refine ⟨k, by rw [Enc.applyLam_on h (by rw [c1, ht])]; exact k1, ?_⟩
    rw [Lam.eqv_iff (L := q') d2.1 (by rw [k2.tri, d1]) (by rw [k2.length, t3.1.2, d1])]
    intro e he
    rw [d1] at he
    have he' : h.target.IsLabel e := by rw [t2] at he; exact he
    rw [k2.w e he, same e he', same _ (isLabel_inv.2 he'), ← b4 e he, d3 e he]; ring

end

/-- The vertices are listed in increasing order. -/
theorem Triangulation.Complete.vertices_sorted {T : Triangulation} (hT : T.Complete) {vs : List (List Int)} (h : T.vertices = .ok vs) :
    vs.insertionSort Enc.tupleLe = vs := by
  obtain ⟨vs', h1, h2, h3, h4⟩ := hT.vertices_ok
  rw [h] at h1; cases h1
  apply List.Pairwise.insertionSort_eq
  rw [List.pairwise_map] at h4
  refine h4.imp ?_
  rintro v w ⟨x, y, hx, hy, hlt⟩
  unfold Enc.tupleLe
  cases v with
  | nil => simp at hx
  | cons a v =>
    cases w with
    | nil => simp at hy
    | cons b w =>
      simp only [List.head?_cons, Option.some.injEq] at hx hy
      subst hx; subst hy
      exact List.le_of_lt (List.cons_lt_cons_iff.2 (.inl hlt))

/-- The mapping class moves the `i`-th vertex to the `σ i`-th one. -/
def Enc.PermutesVertices (h : Enc) {n : Nat} (σ : Equiv.Perm (Fin n)) : Prop :=
  ∃ vs : List (List Int), h.source.vertices = .ok vs ∧ ∃ hn : vs.length = n, ∀ i : Fin n,
    h.applyLam (h.source.curveFromCutSequence vs[i] : Lam Int) = .ok (h.target.curveFromCutSequence vs[σ i])

/-- C43: `vertex_permutation()` of a mapping class is defined and is the permutation of the vertices (in increasing order) that the action on the
curves around them describes. -/
theorem C43_permutation (h : Enc) (hh : h.Legal) (hk : h.kind = .mappingClass) (n : Nat) (hn : h.source.numVertices = .ok n) :
    ∃ p, ∃ σ : Equiv.Perm (Fin n), h.vertexPermutation = .ok p ∧ p.Represents σ ∧ h.PermutesVertices σ := by
  have hst := hh.mappingClass hk
  obtain ⟨vm, vs, ws, h1, h2, h3, h4, h5, h6, h7⟩ := C43_vertex_map h hh
  have hS := hh.path.valid_source.comp
  have hwv : ws = vs := by rw [← hst, h2] at h3; injection h3 with h3; exact h3.symm
  subst hwv
  have hlen : ws.length = n := by
    unfold numVertices at hn
    rw [h2] at hn; injection hn
  subst hlen
  have nd := hS.nodup_vertices h2
  have hl : vm.length = ws.length := by rw [← h4]; simp [PyDict.keys]
  have hpos : ∀ i : Fin ws.length, ∃ j : Fin ws.length, (ws[i], ws[j]) ∈ vm := by
    intro i
    have : ws[i] ∈ PyDict.keys vm := by rw [h4]; exact List.getElem_mem _
    obtain ⟨⟨a, b⟩, hm, e⟩ := List.mem_map.1 this
    dsimp only at e; subst e
    have hb : b ∈ ws := by rw [← h5.mem_iff]; exact List.mem_map_of_mem (f := Prod.snd) hm
    obtain ⟨j, hj, rfl⟩ := List.getElem_of_mem hb
    exact ⟨⟨j, hj⟩, hm⟩
  choose f hf using hpos
  have ndk : (PyDict.keys vm).Nodup := by rw [h4]; exact nd
  have ndv : (PyDict.values vm).Nodup := h6
  have inj : Function.Injective f := by
    intro i j hij
    have e1 := hf i
    have e2 := hf j
    rw [hij] at e1
    have := List.inj_on_of_nodup_map ndv e1 e2 rfl
    injection this with this _
    exact Fin.ext ((List.Nodup.getElem_inj_iff nd).1 this)
  let σ : Equiv.Perm (Fin ws.length) := Equiv.ofBijective f (Finite.injective_iff_bijective.1 inj)
  have hσ : ∀ i, (ws[i], ws[σ i]) ∈ vm := hf
  have sorted := hS.vertices_sorted h2
  obtain ⟨p, hp1, hp2⟩ := Permutation.C24_from_dict vm ws nd rfl σ (fun i => PyDict.get?_of_mem ndk (hσ i))
  refine ⟨p, σ, ?_, hp2, ws, h2, rfl, fun i => h7 _ _ (hσ i)⟩
  unfold Enc.vertexPermutation
  rw [h1, py_bind_ok, h4, sorted]
  exact hp1

/-- C43: there is only one such permutation. -/
theorem C43_permutation_unique (h : Enc) (hh : h.Legal) (hk : h.kind = .mappingClass) {n : Nat} (σ τ : Equiv.Perm (Fin n)) (hσ : h.PermutesVertices σ)
    (hτ : h.PermutesVertices τ) : σ = τ := by
  obtain ⟨vs, h1, hn, h2⟩ := hσ
  obtain ⟨ws, k1, hn', k2⟩ := hτ
  rw [h1] at k1; cases k1
  have hst := hh.mappingClass hk
  ext i
  have := (h2 i).symm.trans (k2 i)
  injection this with this
  have := hh.path.valid_target.comp.link_inj (R := Int) (by rw [← hst]; exact h1) (List.getElem_mem _) (List.getElem_mem _)
    (by unfold curveFromCutSequence at this; injection this)
  exact (List.Nodup.getElem_inj_iff (hh.path.valid_source.comp.nodup_vertices h1)).1 this

/-- C43: taking the permutation of the vertices is a homomorphism. -/
theorem C43_permutation_compose (g h k : Enc) (hg : g.Legal) (hh : h.Legal) (hgk : g.kind = .mappingClass) (hhk : h.kind = .mappingClass) (hk : g.mul h = .ok k)
    {n : Nat} (σ τ : Equiv.Perm (Fin n)) (hσ : g.PermutesVertices σ) (hτ : h.PermutesVertices τ) : k.PermutesVertices (σ * τ) := by
  have he : g.source = h.target := by
    by_contra hne
    rw [C14_compose_mismatch g h hne] at hk; cases hk
  obtain ⟨k', h1, h2, h3⟩ := C14_composition g h hg hh he
  rw [hk] at h1; cases h1
  obtain ⟨vs, a1, hn, a2⟩ := hσ
  obtain ⟨ws, b1, hn', b2⟩ := hτ
  have hst := hh.mappingClass hhk
  rw [he, ← hst, b1] at a1; cases a1
  refine ⟨_, by rw [h3.source]; exact b1, hn, ?_⟩
  intro i
  rw [h3.source, h3.lam Int _ ⟨hh.path.valid_source, cut_length _⟩, b2 i, py_bind_ok, ← he, a2 (τ i), h3.target]
  rfl

/-! ## the hypotheses are met -/

/-- flipping an edge of the sphere with four punctures, a mapping between different triangulations -/
def sphereFlip : Enc :=
  match sphere4.encodeFlip 0 with
  | .ok m => ⟨.mapping, [m], sphere4, m.move.target⟩
  | .error _ => ⟨.mapping, [], sphere4, sphere4⟩

example : ∃ m, sphere4.encodeFlip 0 = .ok m ∧ sphereFlip = ⟨.mapping, [m], sphere4, m.move.target⟩ ∧ sphereFlip.Legal := by
  obtain ⟨m, hm⟩ : ∃ m, sphere4.encodeFlip 0 = .ok m := ⟨_, rfl⟩
  have hl : m.Legal := .flip sphere4 0 m sphere4_valid hm
  refine ⟨m, hm, by unfold sphereFlip; rw [hm], ?_⟩
  have hs : m.move.source = sphere4 := by cases hm; rfl
  unfold sphereFlip
  rw [hm]
  refine ⟨by simp, ?_, fun h => by cases h⟩
  have := Path.single hl
  rw [hs] at this
  exact this


/-- four vertices, some with more edges than before -/
example : sphereFlip.vertexMap = .ok [([-6, 3, -5], [-6, 3, -1, -5]), ([-4, 1, -1], [-4, 1]), ([-3, 4, 0], [-3, 4]), ([-2, 5, 2], [-2, 5, 2, 0])] := by
  decide +kernel

/-- a lamination with one curve around the first vertex and an arc, and its image -/
example : (⟨sphere4, [0, -1, 0, 1, 1, 1], .lamination⟩ : Lam Int).vertexMultiplicity [-6, 3, -5] = .ok 1 ∧
    sphereFlip.applyLam (⟨sphere4, [0, -1, 0, 1, 1, 1], .lamination⟩ : Lam Int) = .ok ⟨sphereFlip.target, [1, -1, 0, 1, 1, 1], .lamination⟩ ∧
    (⟨sphereFlip.target, [1, -1, 0, 1, 1, 1], .lamination⟩ : Lam Int).vertexMultiplicity [-6, 3, -1, -5] = .ok 1 := by
  decide +kernel

def turnMap (e : Int) : Int := if 0 ≤ e then (e + 1) % 3 else inv ((inv e + 1) % 3)

/-- the rotation of the sphere with three punctures -/
theorem turn_legal : ∃ m, threePunctures.encodeRelabel [(0, 1), (1, 2), (2, 0)] = .ok m ∧ m.Legal ∧ m.move.source = threePunctures ∧ m.move.target = threePunctures := by
  have hv : threePunctures.Valid := ⟨by decide, by decide, by decide⟩
  have hb : threePunctures.SignedBij turnMap := by
    have h1 : ∀ e ∈ threePunctures.labels, turnMap e ∈ threePunctures.labels ∧ turnMap (inv e) = inv (turnMap e) ∧
        ∀ e' ∈ threePunctures.labels, turnMap e = turnMap e' → e = e' := by decide
    exact ⟨fun e he => mem_labels.1 (h1 e (mem_labels.2 he)).1, fun e e' he he' => (h1 e (mem_labels.2 he)).2.2 e' (mem_labels.2 he'),
      fun e he => (h1 e (mem_labels.2 he)).2.1⟩
  obtain ⟨m, h1, h2⟩ := hb.encodeRelabel_legal hv (d := [(0, 1), (1, 2), (2, 0)]) (by decide) (by
    have : ∀ p ∈ ([(0, 1), (1, 2), (2, 0)] : PyDict Int Int), threePunctures.IsLabel p.1 ∧ p.2 = turnMap p.1 := by decide
    exact fun e v hv => this _ hv) (by decide)
  refine ⟨m, h1, h2, ?_⟩
  have : threePunctures.encodeRelabel [(0, 1), (1, 2), (2, 0)] = .ok m → m.move.source = threePunctures ∧ m.move.target = threePunctures := by
    intro h
    have h' : (do let m ← threePunctures.encodeRelabel [(0, 1), (1, 2), (2, 0)]; return (m.move.source, m.move.target) : Py _) = .ok (threePunctures, threePunctures) := by
      decide +kernel
    rw [h, py_bind_ok] at h'
    injection h' with h'
    injection h' with a b
    exact ⟨a, b⟩
  exact this h1

/-- a mapping class that moves all three vertices -/
example : ∃ m, threePunctures.encodeRelabel [(0, 1), (1, 2), (2, 0)] = .ok m ∧ (⟨.mappingClass, [m], threePunctures, threePunctures⟩ : Enc).Legal ∧
    (⟨.mappingClass, [m], threePunctures, threePunctures⟩ : Enc).vertexPermutation = .ok ⟨[2, 0, 1]⟩ := by
  obtain ⟨m, h1, h2, h3, h4⟩ := turn_legal
  refine ⟨m, h1, ⟨by simp, ?_, fun _ => rfl⟩, ?_⟩
  · have := Path.single h2
    rw [h3, h4] at this; exact this
  · have h' : (do
        let m ← threePunctures.encodeRelabel [(0, 1), (1, 2), (2, 0)]
        (⟨.mappingClass, [m], threePunctures, threePunctures⟩ : Enc).vertexPermutation : Py _) = .ok ⟨[2, 0, 1]⟩ := by decide +kernel
    rw [h1, py_bind_ok] at h'
    exact h'

end Curver
