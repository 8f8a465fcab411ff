import Verif.Spec.Isometry
import Verif.Proofs.HomFlip
import Mathlib.Data.List.Perm.Subperm

namespace Curver
open Triangulation

namespace Triangulation
variable {S T U : Triangulation} {f g : Int → Int}

namespace IsIsometry

theorem perm (h : S.IsIsometry T f) : (S.labels.map f).Perm T.labels := by
  have hn : (S.labels.map f).Nodup := by
    rw [List.nodup_map_iff_inj_on nodup_labels]
    intro x hx y hy
    exact h.inj x y (mem_labels.1 hx) (mem_labels.1 hy)
  have hsub : S.labels.map f ⊆ T.labels := by
    intro x hx
    rw [List.mem_map] at hx
    obtain ⟨e, he, rfl⟩ := hx
    exact mem_labels.2 (h.maps e (mem_labels.1 he))
  exact (List.subperm_of_subset hn hsub).perm_of_length_le (by simp [length_labels, h.zeta])

theorem surj (h : S.IsIsometry T f) {x : Int} (hx : T.IsLabel x) : ∃ e, S.IsLabel e ∧ f e = x := by
  have := h.perm.mem_iff.2 (mem_labels.2 hx)
  rw [List.mem_map] at this
  obtain ⟨e, he, rfl⟩ := this
  exact ⟨e, mem_labels.1 he, rfl⟩

theorem isLabel (h : S.IsIsometry T f) {e : Int} : T.IsLabel e ↔ S.IsLabel e := by unfold IsLabel; rw [h.zeta]

theorem id (T : Triangulation) : T.IsIsometry T (fun e => e) :=
  ⟨rfl, fun _ h => h, fun _ _ _ _ h => h, fun _ _ => rfl, fun _ _ _ h => h⟩

theorem comp (h : S.IsIsometry T f) (h' : T.IsIsometry U g) : S.IsIsometry U (fun e => g (f e)) :=
  ⟨h'.zeta.trans h.zeta, fun e he => h'.maps _ (h.maps e he),
    fun e e' he he' h1 => h.inj e e' he he' (h'.inj _ _ (h.maps e he) (h.maps e' he') h1),
    fun e he => by rw [h.inverts e he, h'.inverts _ (h.maps e he)],
    fun a b c hg => h'.glues _ _ _ (h.glues _ _ _ hg)⟩

theorem congr (h : S.IsIsometry T f) (hS : S.Complete) (hfg : ∀ e, S.IsLabel e → f e = g e) : S.IsIsometry T g := by
  refine ⟨h.zeta, fun e he => hfg e he ▸ h.maps e he, ?_, ?_, ?_⟩
  · intro e e' he he' h'
    rw [← hfg e he, ← hfg e' he'] at h'
    exact h.inj e e' he he' h'
  · intro e he
    rw [← hfg e he, ← hfg _ (isLabel_inv.2 he), h.inverts e he]
  · intro a b c hg
    have := hS.label_of_glues hg
    rw [← hfg a this.1, ← hfg b this.2.1, ← hfg c this.2.2]
    exact h.glues a b c hg

/-- the inverse isometry -/
theorem exists_inverse (h : S.IsIsometry T f) (hS : S.Complete) (hT : T.Complete) : ∃ g, T.IsIsometry S g ∧
    (∀ e, S.IsLabel e → g (f e) = e) ∧ (∀ e, T.IsLabel e → f (g e) = e) := by
  classical
  let g : Int → Int := fun x => if hx : T.IsLabel x then (h.surj hx).choose else x
  have hg1 : ∀ x, T.IsLabel x → S.IsLabel (g x) ∧ f (g x) = x := by
    intro x hx
    have := (h.surj hx).choose_spec
    simp only [g, dif_pos hx]; exact this
  have hg2 : ∀ e, S.IsLabel e → g (f e) = e := by
    intro e he
    have := hg1 (f e) (h.maps e he)
    exact h.inj _ _ this.1 he this.2
  refine ⟨g, ⟨h.zeta.symm, fun e he => (hg1 e he).1, ?_, ?_, ?_⟩, hg2, fun e he => (hg1 e he).2⟩
  · intro e e' he he' h'
    rw [← (hg1 e he).2, ← (hg1 e' he').2, h']
  · intro e he
    have h1 := hg1 e he
    have h2 := hg1 (inv e) (isLabel_inv.2 he)
    apply h.inj _ _ h2.1 (isLabel_inv.2 h1.1)
    rw [h2.2, h.inverts _ h1.1, h1.2]
  · intro a b c hgl
    have l := hT.label_of_glues hgl
    have ha := hg1 a l.1
    have hh := hS.glues_nxt ha.1
    have hh' := h.glues _ _ _ hh
    rw [ha.2] at hh'
    obtain ⟨rfl, rfl⟩ := hT.glues_unique hgl hh'
    have ls := hS.label_of_glues hh
    rw [hg2 _ ls.2.1, hg2 _ ls.2.2]
    exact hh

theorem nxt (h : S.IsIsometry T f) (hS : S.Complete) (hT : T.Complete) {e : Int} (he : S.IsLabel e) :
    f (S.nxt e) = T.nxt (f e) := (hT.nxt_of_glues (h.glues _ _ _ (hS.glues_nxt he))).symm

end IsIsometry
end Triangulation

/-- an isometry acts as `f` -/
structure Isometry.Acts (m : Isometry) (S T : Triangulation) (f : Int → Int) : Prop where
  source : m.source = S
  target : m.target = T
  label : m.labelMap.IsFun S f
  index : ∀ i ∈ S.indices, m.indexMap.get? i = some (norm (f i))
  invLabel : ∀ e, S.IsLabel e → m.inverseLabelMap.get? (f e) = some e
  invIndex : ∀ i ∈ S.indices, m.inverseIndexMap.get? (norm (f i)) = some i

variable {S T : Triangulation} {f g : Int → Int} {d : PyDict Int Int}

theorem PyDict.IsFun.get? (h : d.IsFun S f) {e : Int} (he : S.IsLabel e) : d.get? e = some (f e) :=
  PyDict.get?_of_mem h.1 ((h.2 e (f e)).2 ⟨he, rfl⟩)

theorem PyDict.IsFun.keys (h : d.IsFun S f) {e : Int} : e ∈ d.keys ↔ S.IsLabel e := by
  unfold PyDict.keys
  rw [List.mem_map]
  constructor
  · rintro ⟨⟨a, b⟩, hm, rfl⟩; exact ((h.2 a b).1 hm).1
  · intro he; exact ⟨(e, f e), (h.2 e (f e)).2 ⟨he, rfl⟩, rfl⟩

theorem PyDict.IsFun.values_nodup (h : d.IsFun S f) (hf : S.IsIsometry T f) :
    ((d.map (fun p => (p.2, p.1))).map Prod.fst).Nodup := by
  rw [List.map_map]
  apply List.Nodup.map_on
  · intro p hp q hq hpq
    obtain ⟨a, b⟩ := p
    obtain ⟨a', b'⟩ := q
    obtain ⟨h1, rfl⟩ := (h.2 a b).1 hp
    obtain ⟨h2, rfl⟩ := (h.2 a' b').1 hq
    simp only [Function.comp] at hpq
    have := hf.inj a a' h1 h2 hpq
    subst this; rfl
  · exact h.1.of_map

theorem PyDict.IsFun.inverse (h : d.IsFun S f) (hf : S.IsIsometry T f) (hg : T.IsIsometry S g)
    (hgf : ∀ e, S.IsLabel e → g (f e) = e) (hfg : ∀ e, T.IsLabel e → f (g e) = e) :
    (PyDict.ofList (d.map (fun p => (p.2, p.1)))).IsFun T g := by
  have hv := h.values_nodup hf
  rw [PyDict.ofList_of_nodup _ hv]
  refine ⟨hv, ?_⟩
  intro e v
  rw [List.mem_map]
  constructor
  · rintro ⟨⟨a, b⟩, hm, hab⟩
    simp only [Prod.mk.injEq] at hab
    obtain ⟨rfl, rfl⟩ := hab
    obtain ⟨h1, rfl⟩ := (h.2 a b).1 hm
    exact ⟨hf.maps a h1, (hgf a h1).symm⟩
  · rintro ⟨h1, rfl⟩
    exact ⟨(g e, e), (h.2 _ _).2 ⟨hg.maps e h1, (hfg e h1).symm⟩, rfl⟩

theorem mem_indices_isLabel {i : Int} (h : i ∈ S.indices) : S.IsLabel i := by
  rw [mem_indices] at h; unfold IsLabel; omega

theorem norm_eq_of_index {i : Int} (h : i ∈ S.indices) : norm i = i := norm_of_nonneg (mem_indices.1 h).1

theorem nodup_indices : S.indices.Nodup := by
  unfold indices
  exact List.Nodup.map (fun a b h => Int.ofNat.inj h) List.nodup_range

theorem Isometry.create_ok (hd : d.IsFun S f) (hf : S.IsIsometry T f) : ∃ m, Isometry.create S T d = .ok m ∧
    m.Acts S T f ∧ m.labelMap = d := by
  have hof : PyDict.ofList d = d := PyDict.ofList_of_nodup d hd.1
  have hpairs : S.indices.mapM (fun i => do
      let v ← d.get i
      return (i, norm v) : Int → Py (Int × Int)) = .ok (S.indices.map (fun i => (i, norm (f i)))) := by
    apply mapM_ok
    intro i hi
    rw [PyDict.get_eq_ok_iff.2 (hd.get? (mem_indices_isLabel hi))]; rfl
  have hnd : ((S.indices.map (fun i => (i, norm (f i)))).map Prod.fst).Nodup := by
    simpa [List.map_map, Function.comp_def] using nodup_indices
  have hnd2 : ((S.indices.map (fun i => (norm (f i), i))).map Prod.fst).Nodup := by
    rw [List.map_map]
    apply List.Nodup.map_on _ nodup_indices
    intro i hi j hj hij
    simp only [Function.comp] at hij
    have li := mem_indices_isLabel hi
    have lj := mem_indices_isLabel hj
    have := norm_eq_iff.1 hij
    rw [← hf.inverts j lj] at this
    have hi0 := (mem_indices.1 hi).1
    have hj0 := (mem_indices.1 hj).1
    rcases this with h | h
    · exact hf.inj i j li lj h
    · have := hf.inj i (inv j) li (isLabel_inv.2 lj) h
      unfold inv at this; omega
  refine ⟨⟨S, T, d, S.indices.map (fun i => (i, norm (f i))), PyDict.ofList (d.map (fun p => (p.2, p.1))),
    PyDict.ofList ((S.indices.map (fun i => (i, norm (f i)))).map (fun p => (p.2, p.1)))⟩, ?_, ⟨rfl, rfl, hd, ?_, ?_, ?_⟩, rfl⟩
  · unfold Isometry.create
    simp only [hof]
    have hall : S.labels.all (fun x => PyDict.contains d x) = true := by
      rw [List.all_eq_true]
      intro e he
      rw [PyDict.contains_iff, hd.keys]; exact mem_labels.1 he
    rw [hall]
    simp only [pyAssert, if_true, py_bind_ok]
    rw [hpairs]
    simp only [py_bind_ok, py_pure, PyDict.ofList_of_nodup _ hnd]
  · intro i hi
    apply PyDict.get?_of_mem hnd
    exact List.mem_map.2 ⟨i, hi, rfl⟩
  · intro e he
    have hv := hd.values_nodup hf
    rw [PyDict.ofList_of_nodup _ hv]
    apply PyDict.get?_of_mem hv
    exact List.mem_map.2 ⟨(e, f e), (hd.2 _ _).2 ⟨he, rfl⟩, rfl⟩
  · intro i hi
    simp only [List.map_map, Function.comp_def]
    rw [PyDict.ofList_of_nodup _ hnd2]
    apply PyDict.get?_of_mem hnd2
    exact List.mem_map.2 ⟨i, hi, rfl⟩

/-- a linked pair of isometries -/
theorem LMove.isometry_ok (hS : S.Complete) (hT : T.Complete) (hd : d.IsFun S f) (hf : S.IsIsometry T f) :
    ∃ m m' g, LMove.isometry S T d = .ok ⟨.isometry m, .isometry m'⟩ ∧ m.Acts S T f ∧ m'.Acts T S g ∧ m.labelMap = d ∧
      T.IsIsometry S g ∧ (∀ e, S.IsLabel e → g (f e) = e) ∧ (∀ e, T.IsLabel e → f (g e) = e) := by
  obtain ⟨g, hg, hgf, hfg⟩ := hf.exists_inverse hS hT
  obtain ⟨m, h1, h2, h3⟩ := Isometry.create_ok hd hf
  obtain ⟨m', h4, h5, _⟩ := Isometry.create_ok (hd.inverse hf hg hgf hfg) hg
  refine ⟨m, m', g, ?_, h2, h5, h3, hg, hgf, hfg⟩
  unfold LMove.isometry
  simp only [h1, h4, py_bind_ok, py_pure]

theorem Isometry.Acts.isIdentity_iff {m : Isometry} (h : m.Acts S T f) : m.isIdentity = true ↔ ∀ e, S.IsLabel e → f e = e := by
  unfold Isometry.isIdentity
  rw [List.all_eq_true]
  constructor
  · intro h' e he
    have := h' (e, f e) ((h.label.2 _ _).2 ⟨he, rfl⟩)
    simp only [beq_iff_eq] at this; exact this.symm
  · rintro h' ⟨a, b⟩ hp
    obtain ⟨h1, rfl⟩ := (h.label.2 a b).1 hp
    simp [h' a h1]

theorem idIsometry_eq (hT : T.Complete) : ∃ m m', T.idIsometry = .ok ⟨.isometry m, .isometry m'⟩ ∧ m.Acts T T (fun e => e) ∧
    m'.Acts T T (fun e => e) ∧ m.isIdentity = true ∧ m'.isIdentity = true := by
  have hd : PyDict.IsFun (T.labels.map (fun i => (i, i))) T (fun e => e) := by
    refine ⟨by simpa [PyDict.keys, List.map_map, Function.comp_def] using nodup_labels, ?_⟩
    intro e v
    rw [List.mem_map]
    constructor
    · rintro ⟨i, hi, h⟩
      simp only [Prod.mk.injEq] at h
      obtain ⟨rfl, rfl⟩ := h
      exact ⟨mem_labels.1 hi, rfl⟩
    · rintro ⟨h, rfl⟩; exact ⟨v, mem_labels.2 h, rfl⟩
  obtain ⟨m, m', g, h1, h2, h3, _, h4, h5, h6⟩ := LMove.isometry_ok hT hT hd (IsIsometry.id T)
  have hg : ∀ e, T.IsLabel e → g e = e := fun e he => h5 e he
  have h3' : m'.Acts T T (fun e => e) := by
    refine ⟨h3.source, h3.target, ⟨h3.label.1, ?_⟩, ?_, ?_, ?_⟩
    · intro e v
      rw [h3.label.2]
      constructor
      · rintro ⟨a, rfl⟩; exact ⟨a, hg e a⟩
      · rintro ⟨a, b⟩; exact ⟨a, by rw [hg e a]; exact b⟩
    · intro i hi; rw [h3.index i hi, hg i (mem_indices_isLabel hi)]
    · intro e he
      have := h3.invLabel e he
      rwa [hg e he] at this
    · intro i hi
      have := h3.invIndex i hi
      rwa [hg i (mem_indices_isLabel hi)] at this
  exact ⟨m, m', h1, h2, h3', h2.isIdentity_iff.2 (fun _ _ => rfl), h3'.isIdentity_iff.2 (fun _ _ => rfl)⟩

section
variable {R : Type} [CommRing R] [LinearOrder R] [Halvable R]

/-- the image lamination -/
def Lam.MapsTo (f : Int → Int) (L L' : Lam R) : Prop :=
  L'.cls = L.cls ∧ L'.geometric.length = L.geometric.length ∧ ∀ e, L.tri.IsLabel e → L'.w (f e) = L.w e

theorem Lam.ext_w {L L' : Lam R} (ht : L.tri = L'.tri) (hc : L.cls = L'.cls) (hl : L.geometric.length = L.tri.zeta)
    (hl' : L'.geometric.length = L'.tri.zeta) (hw : ∀ e, L.tri.IsLabel e → L.w e = L'.w e) : L = L' := by
  have : L.geometric = L'.geometric := by
    apply List.ext_getElem (by rw [hl, hl', ht])
    intro i h1 h2
    have := hw i (by unfold IsLabel; omega)
    unfold w at this
    rw [norm_of_nonneg (by omega)] at this
    simpa [h1, h2] using this
  cases L; cases L'; simp_all

theorem Isometry.Acts.applyLam {m : Isometry} (h : m.Acts S T f) (hf : S.IsIsometry T f) {L : Lam R} (hL : L.WellFormed)
    (ht : L.tri = S) : ∃ L', m.applyLam L = .ok L' ∧ L'.tri = T ∧ L.MapsTo f L' := by
  have hlk : ∀ x ∈ T.indices, ∃ i ∈ S.indices, m.inverseIndexMap.get? x = some i ∧ norm (f i) = x := by
    intro x hx
    obtain ⟨e, he, rfl⟩ := hf.surj (mem_indices_isLabel hx)
    have hi : norm e ∈ S.indices := norm_mem_indices.2 he
    refine ⟨norm e, hi, ?_⟩
    have hn : norm (f (norm e)) = f e := by
      rw [← norm_eq_of_index hx]
      rcases lt_or_ge e 0 with h0 | h0
      · rw [norm_of_neg h0, hf.inverts e he, norm_inv]
      · rw [norm_of_nonneg h0]
    refine ⟨?_, hn⟩
    have := h.invIndex (norm e) hi
    rwa [hn] at this
  have hv : ∀ x ∈ T.indices, (do
      let j ← m.inverseIndexMap.get x
      L.wt j : Py R) = .ok ((do
      let j ← m.inverseIndexMap.get? x
      L.geometric[(norm j).toNat]?).getD 0) := by
    intro x hx
    obtain ⟨i, hi, h1, _⟩ := hlk x hx
    rw [PyDict.get_eq_ok_iff.2 h1, py_bind_ok, Lam.wt_eq hL.2 (ht ▸ mem_indices_isLabel hi), h1]
    rfl
  refine ⟨⟨T, T.indices.map (fun x => (do
      let j ← m.inverseIndexMap.get? x
      L.geometric[(norm j).toNat]?).getD 0), L.cls⟩, ?_, rfl, rfl, ?_, ?_⟩
  · unfold Isometry.applyLam
    rw [h.target, mapM_ok hv]; rfl
  · simp only [List.length_map, indices, List.length_range, hL.2, ht, hf.zeta]
  · intro e he
    rw [ht] at he
    have hfe := hf.maps e he
    have hx : norm (f e) ∈ T.indices := norm_mem_indices.2 hfe
    obtain ⟨i, hi, h1, h2⟩ := hlk _ hx
    have hie : norm i = norm e := by
      have := norm_eq_iff.1 h2
      rw [← hf.inverts e he] at this
      rcases this with h | h
      · rw [hf.inj _ _ (mem_indices_isLabel hi) he h]
      · rw [hf.inj _ _ (mem_indices_isLabel hi) (isLabel_inv.2 he) h, norm_inv]
    have hidx : (norm (f e)).toNat < T.zeta := idx_lt hfe
    unfold Lam.w
    simp only [indices, List.map_map]
    rw [List.getElem?_map, List.getElem?_range hidx]
    simp only [Option.map_some, Option.getD_some, Function.comp]
    have : ((Int.ofNat (norm (f e)).toNat) : Int) = norm (f e) := by
      have := norm_nonneg (f e); simp [this]
    rw [this, h1]
    simp only [Option.bind_eq_bind, Option.bind_some, hie]

theorem Lam.MapsTo.unique {L L₁ L₂ : Lam R} (hL : L.WellFormed) (hf : L.tri.IsIsometry T f) (h₁ : L.MapsTo f L₁)
    (h₂ : L.MapsTo f L₂) (t₁ : L₁.tri = T) (t₂ : L₂.tri = T) : L₁ = L₂ := by
  apply Lam.ext_w (t₁.trans t₂.symm) (by rw [h₁.1, h₂.1]) (by rw [h₁.2.1, t₁, hf.zeta, hL.2]) (by rw [h₂.2.1, t₂, hf.zeta, hL.2])
  intro x hx
  rw [t₁] at hx
  obtain ⟨e, he, rfl⟩ := hf.surj hx
  rw [h₁.2.2 e he, h₂.2.2 e he]

theorem Isometry.Acts.applyLam_iff {m : Isometry} (h : m.Acts S T f) (hf : S.IsIsometry T f) {L L' : Lam R} (hL : L.WellFormed)
    (ht : L.tri = S) : m.applyLam L = .ok L' ↔ L'.tri = T ∧ L.MapsTo f L' := by
  obtain ⟨L₁, h1, h2, h3⟩ := h.applyLam hf hL ht
  rw [h1]
  constructor
  · intro h'; cases h'; exact ⟨h2, h3⟩
  · rintro ⟨h4, h5⟩
    rw [Lam.MapsTo.unique hL (ht ▸ hf) h3 h5 h2 h4]

theorem Lam.MapsTo.inverse {L L' : Lam R} (h : L.MapsTo f L') (hg : L'.tri.IsIsometry L.tri g) (hfg : ∀ e, L'.tri.IsLabel e → f (g e) = e) : L'.MapsTo g L := by
  refine ⟨h.1.symm, h.2.1.symm, ?_⟩
  intro e he
  rw [← h.2.2 (g e) (hg.maps e he), hfg e he]

end

/-- the image homology class -/
def Hom.MapsTo (f : Int → Int) (h h' : Hom) : Prop :=
  h'.algebraic.length = h.algebraic.length ∧ ∀ e, h.tri.IsLabel e → h'.v (f e) = h.v e

theorem Isometry.Acts.applyHom {m : Isometry} (h : m.Acts S T f) (hf : S.IsIsometry T f) {x : Hom} (hx : x.WellFormed)
    (ht : x.tri = S) : ∃ x', m.applyHom x = .ok x' ∧ x'.tri = T ∧ x.MapsTo f x' := by
  have hlk : ∀ y ∈ T.indices, ∃ e, S.IsLabel e ∧ m.inverseLabelMap.get? y = some e ∧ f e = y := by
    intro y hy
    obtain ⟨e, he, rfl⟩ := hf.surj (mem_indices_isLabel hy)
    exact ⟨e, he, h.invLabel e he, rfl⟩
  have hv : ∀ y ∈ T.indices, (do
      let j ← m.inverseLabelMap.get y
      x.val j : Py Int) = .ok (x.v ((m.inverseLabelMap.get? y).getD 0)) := by
    intro y hy
    obtain ⟨e, he, h1, _⟩ := hlk y hy
    rw [PyDict.get_eq_ok_iff.2 h1, py_bind_ok, Hom.val_eq hx (ht ▸ he), h1]
    rfl
  refine ⟨⟨T, T.indices.map (fun y => x.v ((m.inverseLabelMap.get? y).getD 0))⟩, ?_, rfl, ?_, ?_⟩
  · unfold Isometry.applyHom
    rw [h.target, mapM_ok hv]
    simp [Hom.create, pyAssert, indices]
  · simp only [List.length_map, indices, List.length_range, hx.2, ht, hf.zeta]
  · have key : ∀ e, S.IsLabel e → 0 ≤ f e → gv (T.indices.map (fun y => x.v ((m.inverseLabelMap.get? y).getD 0))) (f e) = x.v e := by
      intro e he h0
      have hidx : (norm (f e)).toNat < T.zeta := idx_lt (hf.maps e he)
      unfold gv
      simp only [indices, List.map_map]
      rw [List.getElem?_map, List.getElem?_range hidx]
      simp only [Option.map_some, Option.getD_some, Function.comp]
      have : ((Int.ofNat (norm (f e)).toNat) : Int) = f e := by
        rw [norm_of_nonneg h0]; simp [h0]
      rw [this, h.invLabel e he, sign_of_nonneg h0]
      simp
    intro e he
    rw [ht] at he
    show gv (T.indices.map (fun y => x.v ((m.inverseLabelMap.get? y).getD 0))) _ = _
    rcases lt_or_ge (f e) 0 with h0 | h0
    · have h1 := key (inv e) (isLabel_inv.2 he) (by rw [hf.inverts e he]; unfold inv; omega)
      rw [hf.inverts e he, gv_inv, Hom.v_inv] at h1
      omega
    · exact key e he h0

theorem Hom.MapsTo.unique {x x₁ x₂ : Hom} (hx : x.WellFormed) (hf : x.tri.IsIsometry T f) (h₁ : x.MapsTo f x₁)
    (h₂ : x.MapsTo f x₂) (t₁ : x₁.tri = T) (t₂ : x₂.tri = T) : x₁ = x₂ := by
  have : x₁.algebraic = x₂.algebraic := by
    apply gv_ext (by rw [h₁.1, h₂.1])
    intro i hi
    rw [h₁.1, hx.2, ← hf.zeta] at hi
    obtain ⟨e, he, hfe⟩ := hf.surj (x := (i : Int)) (by unfold IsLabel; omega)
    rw [← hfe]
    exact (h₁.2 e he).trans (h₂.2 e he).symm
  cases x₁; cases x₂; simp_all

end Curver
