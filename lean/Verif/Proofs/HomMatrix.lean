import Verif.Model.MappingEq
import Verif.Proofs.Action

namespace Curver
open Triangulation

namespace Hom

/-- the chain with the given values at the positive edges -/
def mk' (T : Triangulation) (f : Int → Int) : Hom := ⟨T, (List.range T.zeta).map (fun (k : Nat) => f k)⟩

theorem mk'_wf {T : Triangulation} (hT : T.Valid) (f : Int → Int) : (mk' T f).WellFormed := ⟨hT, by simp [mk']⟩

theorem mk'_v {T : Triangulation} {f : Int → Int} {e : Int} (he : T.IsLabel e) : (mk' T f).v e = f (norm e) * sign e := by
  have h := idx_lt he
  have h0 := norm_nonneg e
  change gv ((List.range T.zeta).map (fun (k : Nat) => f k)) e = _
  unfold gv
  rw [List.getElem?_map, List.getElem?_range h, Option.map_some, Option.getD_some, Int.toNat_of_nonneg h0]

theorem mk'_v_odd {T : Triangulation} {f : Int → Int} (hf : ∀ e, T.IsLabel e → f (inv e) = - f e) {e : Int} (he : T.IsLabel e) :
    (mk' T f).v e = f e := by
  rw [mk'_v he]
  rcases lt_or_ge e 0 with h | h
  · rw [norm_of_neg h, sign_of_neg h, hf e he]; ring
  · rw [norm_of_nonneg h, sign_of_nonneg h]; ring

theorem ext_vl {x y : Hom} (hx : x.WellFormed) (hy : y.WellFormed) (ht : x.tri = y.tri) (h : ∀ e, x.tri.IsLabel e → x.v e = y.v e) : x = y := by
  have : x.algebraic = y.algebraic := by
    apply gv_ext (by rw [hx.2, hy.2, ht])
    intro i hi
    rw [hx.2] at hi
    exact h i (by unfold IsLabel; omega)
  cases x; cases y; simp_all

/-- the chain of an edge -/
def unit (T : Triangulation) (i : Int) : Hom :=
  ⟨T, (List.range T.zeta).map (fun (k : Nat) => if (k : Int) ≠ norm i then 0 else sign i)⟩

theorem unit_wf {T : Triangulation} (hT : T.Valid) (i : Int) : (unit T i).WellFormed := ⟨hT, by simp [unit]⟩

theorem unit_v {T : Triangulation} {i e : Int} (hi : 0 ≤ i) (he : T.IsLabel e) : (unit T i).v e = if norm e = i then sign e else 0 := by
  have : (unit T i).v e = (mk' T (fun k => if k ≠ norm i then 0 else sign i)).v e := rfl
  rw [this, mk'_v he, norm_of_nonneg hi, sign_of_nonneg hi]
  by_cases h : norm e = i <;> simp [h]

/-- the canonical representative -/
def cn (x : Hom) : Hom := (x.canonical).toOption.getD x

theorem cn_spec {x : Hom} (hx : x.WellFormed) {tree : List Int} (ht : x.tri.dualTree [] = .ok tree) : x.canonical = .ok x.cn ∧ x.cn.WellFormed ∧
    x.Homologous x.cn ∧ ∀ e, x.tri.IsLabel e → norm e ∈ tree → x.cn.v e = 0 := by
  obtain ⟨c, tree', h1, h2, h3, h4, h5⟩ := canonical_ok hx
  rw [ht] at h2; cases h2
  have : x.cn = c := by unfold cn; rw [h1]; rfl
  rw [this]; exact ⟨h1, h3, h4, h5⟩

theorem cn_eq_of {x c : Hom} (hx : x.WellFormed) (hc : c.WellFormed) {tree : List Int} (ht : x.tri.dualTree [] = .ok tree)
    (h : x.Homologous c) (h0 : ∀ e, x.tri.IsLabel e → norm e ∈ tree → c.v e = 0) : x.cn = c := by
  obtain ⟨_, h1, h2, h3⟩ := cn_spec hx ht
  exact eq_of_homologous h1 hc (h2.symm.trans h) (by rw [← h2.1]; exact ht) (by rw [← h2.1]; exact h3) (by rw [← h2.1]; exact h0)

theorem cn_congr {x y : Hom} (hx : x.WellFormed) (hy : y.WellFormed) : x.cn = y.cn ↔ x.Homologous y := by
  obtain ⟨_, tree, _, ht, _⟩ := canonical_ok hx
  obtain ⟨_, tree', _, ht', _⟩ := canonical_ok hy
  obtain ⟨_, h1, h2, h3⟩ := cn_spec hx ht
  obtain ⟨_, k1, k2, k3⟩ := cn_spec hy ht'
  constructor
  · intro h; exact h2.trans (h ▸ k2.symm)
  · intro h
    have : tree = tree' := by rw [h.1, ht'] at ht; cases ht; rfl
    subst this
    exact cn_eq_of hx k1 ht (h.trans k2) (by rw [h.1]; exact k3)

end Hom

/-- a linear map on chains that respects homology -/
structure GoodMap (S T : Triangulation) (F : Hom → Hom) : Prop where
  wf : ∀ x : Hom, x.WellFormed → x.tri = S → (F x).WellFormed ∧ (F x).tri = T
  lin : ∀ (x y z : Hom) (k l : Int), x.WellFormed → y.WellFormed → z.WellFormed → x.tri = S → y.tri = S → z.tri = S →
    (∀ e, S.IsLabel e → z.v e = k * x.v e + l * y.v e) → ∀ e, T.IsLabel e → (F z).v e = k * (F x).v e + l * (F y).v e
  hom : ∀ x y : Hom, x.WellFormed → y.WellFormed → x.tri = S → y.tri = S → x.Homologous y → (F x).Homologous (F y)

namespace GoodMap
variable {S T U : Triangulation} {F G : Hom → Hom}

theorem id (T : Triangulation) : GoodMap T T (fun x => x) := ⟨fun _ h t => ⟨h, t⟩, fun _ _ _ _ _ _ _ _ _ _ _ h => h, fun _ _ _ _ _ _ h => h⟩

theorem comp (hF : GoodMap S T F) (hG : GoodMap T U G) : GoodMap S U (fun x => G (F x)) := by
  refine ⟨fun x hx tx => ?_, fun x y z k l hx hy hz tx ty tz h => ?_, fun x y hx hy tx ty h => ?_⟩
  · exact hG.wf _ (hF.wf x hx tx).1 (hF.wf x hx tx).2
  · exact hG.lin _ _ _ k l (hF.wf x hx tx).1 (hF.wf y hy ty).1 (hF.wf z hz tz).1 (hF.wf x hx tx).2 (hF.wf y hy ty).2 (hF.wf z hz tz).2
      (hF.lin x y z k l hx hy hz tx ty tz h)
  · exact hG.hom _ _ (hF.wf x hx tx).1 (hF.wf y hy ty).1 (hF.wf x hx tx).2 (hF.wf y hy ty).2 (hF.hom x y hx hy tx ty h)

theorem iterate (hF : GoodMap T T F) (n : Nat) : GoodMap T T (F^[n]) := by
  induction n with
  | zero => exact id T
  | succ n ih => rw [Function.iterate_succ']; exact ih.comp hF

theorem cn (hT : T.Valid) : GoodMap T T Hom.cn := by
  obtain ⟨_, tree, ht, _⟩ := hT.comp.dualTree_ok []
  refine ⟨fun x hx tx => ?_, fun x y z k l hx hy hz tx ty tz h => ?_, fun x y hx hy tx ty h => ?_⟩
  · subst tx
    obtain ⟨_, h1, h2, h3⟩ := Hom.cn_spec hx ht
    exact ⟨h1, h2.1.symm⟩
  · obtain ⟨_, x1, x2, x3⟩ := Hom.cn_spec hx (by rw [tx]; exact ht)
    obtain ⟨_, y1, y2, y3⟩ := Hom.cn_spec hy (by rw [ty]; exact ht)
    have hodd : ∀ e, T.IsLabel e → k * x.cn.v (inv e) + l * y.cn.v (inv e) = -(k * x.cn.v e + l * y.cn.v e) := by
      intro e _; rw [Hom.v_inv, Hom.v_inv]; ring
    have hv : ∀ e, T.IsLabel e → (Hom.mk' T (fun e => k * x.cn.v e + l * y.cn.v e)).v e = k * x.cn.v e + l * y.cn.v e :=
      fun e he => Hom.mk'_v_odd hodd he
    have : z.cn = Hom.mk' T (fun e => k * x.cn.v e + l * y.cn.v e) := by
      refine Hom.cn_eq_of hz (Hom.mk'_wf hT _) (by rw [tz]; exact ht) ⟨tz, ?_⟩ ?_
      · rw [tz]
        have h1 := x2.2; have h2 := y2.2
        rw [tx] at h1; rw [ty] at h2
        refine ((h1.smul k).add (h2.smul l)).congr ?_
        intro e he
        rw [hv e he, h e he]; ring
      · intro e he hm
        rw [tz] at he
        rw [hv e he, x3 e (by rw [tx]; exact he) hm, y3 e (by rw [ty]; exact he) hm]; ring
    rw [this]; exact hv
  · rw [(Hom.cn_congr hx hy).2 h]; exact .refl _

theorem lin_sum (hF : GoodMap S T F) (hS : S.Valid) (c : Int → Int) (u : Int → Hom) (hu : ∀ i, (u i).WellFormed) (tu : ∀ i, (u i).tri = S) :
    ∀ (l : List Int) (z : Hom), z.WellFormed → z.tri = S → (∀ e, S.IsLabel e → z.v e = (l.map (fun i => c i * (u i).v e)).sum) →
      ∀ e, T.IsLabel e → (F z).v e = (l.map (fun i => c i * (F (u i)).v e)).sum := by
  intro l
  induction l with
  | nil =>
    intro z hz tz h e he
    have := hF.lin z z z 0 0 hz hz hz tz tz tz (fun e he => by rw [h e he]; simp) e he
    rw [this]; simp
  | cons i l ih =>
    intro z hz tz h e he
    have hodd : ∀ e, S.IsLabel e → (l.map (fun i => c i * (u i).v (inv e))).sum = -(l.map (fun i => c i * (u i).v e)).sum := by
      intro e _
      clear ih h
      induction l with
      | nil => simp
      | cons j l ih => simp only [List.map_cons, List.sum_cons, Hom.v_inv] at ih ⊢; rw [ih]; ring
    have hv : ∀ e, S.IsLabel e → (Hom.mk' S (fun e => (l.map (fun i => c i * (u i).v e)).sum)).v e = (l.map (fun i => c i * (u i).v e)).sum :=
      fun e he => Hom.mk'_v_odd (f := fun e => (l.map (fun i => c i * (u i).v e)).sum) hodd he
    have hw := Hom.mk'_wf hS (fun e => (l.map (fun i => c i * (u i).v e)).sum)
    have h1 := ih _ hw rfl hv e he
    have h2 := hF.lin (u i) _ z (c i) 1 (hu i) hw hz (tu i) rfl tz (fun e he => by rw [hv e he, h e he]; simp) e he
    rw [h2, h1]; simp

end GoodMap

namespace Triangulation

/-- the edges outside the dual tree -/
def cotree (T : Triangulation) (tree : List Int) : List Int := T.indices.filter (fun i => decide (i ∉ tree))

theorem nodup_cotree {T : Triangulation} {tree : List Int} : (T.cotree tree).Nodup := nodup_indices.filter _

theorem mem_cotree {T : Triangulation} {tree : List Int} {i : Int} : i ∈ T.cotree tree ↔ i ∈ T.indices ∧ i ∉ tree := by
  unfold cotree; rw [List.mem_filter]; simp

end Triangulation

theorem sum_delta (f : Int → Int) (a s : Int) : ∀ l : List Int, l.Nodup →
    (l.map (fun i => f i * (if a = i then s else 0))).sum = if a ∈ l then f a * s else 0 := by
  intro l
  induction l with
  | nil => simp
  | cons i l ih =>
    intro h
    rw [List.nodup_cons] at h
    rw [List.map_cons, List.sum_cons, ih h.2]
    by_cases hi : a = i
    · subst hi; simp [h.1]
    · simp [hi]

section
variable {S T U : Triangulation} {F G : Hom → Hom} {tS tT tU : List Int}

theorem Hom.cn_sum {x : Hom} (hx : x.WellFormed) {tree : List Int} (ht : x.tri.dualTree [] = .ok tree) {e : Int} (he : x.tri.IsLabel e) :
    x.cn.v e = ((x.tri.cotree tree).map (fun i => x.cn.v i * (Hom.unit x.tri i).v e)).sum := by
  have h1 : ((x.tri.cotree tree).map (fun i => x.cn.v i * (Hom.unit x.tri i).v e)).sum =
      ((x.tri.cotree tree).map (fun i => x.cn.v i * (if norm e = i then sign e else 0))).sum := by
    congr 1
    apply List.map_congr_left
    intro i hi
    rw [Hom.unit_v (mem_indices.1 (mem_cotree.1 hi).1).1 he]
  rw [h1, sum_delta _ _ _ _ nodup_cotree]
  by_cases hm : norm e ∈ tree
  · rw [if_neg (fun h => (mem_cotree.1 h).2 hm), (Hom.cn_spec hx ht).2.2.2 e he hm]
  · rw [if_pos (mem_cotree.2 ⟨norm_mem_indices.2 he, hm⟩)]
    rcases lt_or_ge e 0 with h | h
    · rw [norm_of_neg h, sign_of_neg h, Hom.v_inv]; ring
    · rw [norm_of_nonneg h, sign_of_nonneg h]; ring

/-- the matrix of a map, with respect to the edges outside the dual trees -/
def mat (S T : Triangulation) (tS tT : List Int) (F : Hom → Hom) : List (List Int) :=
  (T.cotree tT).map (fun j => (S.cotree tS).map (fun i => (F (Hom.unit S i)).cn.v j))

theorem GoodMap.coords (hF : GoodMap S T F) (hS : S.Valid) (hT : T.Valid) (htS : S.dualTree [] = .ok tS) {x : Hom} (hx : x.WellFormed)
    (tx : x.tri = S) {j : Int} (hj : T.IsLabel j) :
    (F x).cn.v j = ((S.cotree tS).map (fun i => x.cn.v i * (F (Hom.unit S i)).cn.v j)).sum := by
  have hG := hF.comp (GoodMap.cn hT)
  obtain ⟨_, h1, h2, h3⟩ := Hom.cn_spec hx (by rw [tx]; exact htS)
  have e1 : (F x).cn = (F x.cn).cn := by
    rw [Hom.cn_congr (hF.wf x hx tx).1 (hF.wf _ h1 (h2.1.symm.trans tx)).1]
    exact hF.hom _ _ hx h1 tx (h2.1.symm.trans tx) h2
  rw [e1]
  refine hG.lin_sum hS (fun i => x.cn.v i) (fun i => Hom.unit S i) (fun i => Hom.unit_wf hS i) (fun _ => rfl) _ x.cn h1 (h2.1.symm.trans tx) ?_ j hj
  intro e he
  subst tx
  exact Hom.cn_sum hx htS he

theorem cn_unit (hT : T.Valid) (htT : T.dualTree [] = .ok tT) {i : Int} (hi : i ∈ T.cotree tT) : (Hom.unit T i).cn = Hom.unit T i := by
  refine Hom.cn_eq_of (Hom.unit_wf hT i) (Hom.unit_wf hT i) htT (.refl _) ?_
  intro e he hm
  replace he : T.IsLabel e := he
  rw [Hom.unit_v (mem_indices.1 (mem_cotree.1 hi).1).1 he, if_neg]
  rintro rfl
  exact (mem_cotree.1 hi).2 hm

theorem mat_eq_iff (hF : GoodMap S T F) (hG : GoodMap S T G) (hS : S.Valid) (hT : T.Valid) (htS : S.dualTree [] = .ok tS)
    (htT : T.dualTree [] = .ok tT) : mat S T tS tT F = mat S T tS tT G ↔ ∀ x : Hom, x.WellFormed → x.tri = S → (F x).Homologous (G x) := by
  constructor
  · intro h x hx tx
    have hFx := hF.wf x hx tx
    have hGx := hG.wf x hx tx
    rw [← Hom.cn_congr hFx.1 hGx.1]
    obtain ⟨_, a1, a2, a3⟩ := Hom.cn_spec hFx.1 (by rw [hFx.2]; exact htT)
    obtain ⟨_, b1, b2, b3⟩ := Hom.cn_spec hGx.1 (by rw [hGx.2]; exact htT)
    refine Hom.ext_vl a1 b1 (by rw [← a2.1, ← b2.1, hFx.2, hGx.2]) ?_
    intro e he
    rw [← a2.1, hFx.2] at he
    by_cases hm : norm e ∈ tT
    · rw [a3 e (by rw [hFx.2]; exact he) hm, b3 e (by rw [hGx.2]; exact he) hm]
    · have hc : norm e ∈ T.cotree tT := mem_cotree.2 ⟨norm_mem_indices.2 he, hm⟩
      have key : (F x).cn.v (norm e) = (G x).cn.v (norm e) := by
        have hl : T.IsLabel (norm e) := mem_indices_isLabel (mem_cotree.1 hc).1
        rw [hF.coords hS hT htS hx tx hl, hG.coords hS hT htS hx tx hl]
        have h1 := List.map_inj_left.1 h _ hc
        congr 1
        apply List.map_congr_left
        intro i hi
        have h2 := List.map_inj_left.1 h1 i hi
        rw [h2]
      rcases lt_or_ge e 0 with h | h
      · rw [norm_of_neg h, Hom.v_inv, Hom.v_inv] at key; omega
      · rwa [norm_of_nonneg h] at key
  · intro h
    unfold mat
    apply List.map_congr_left
    intro j _
    apply List.map_congr_left
    intro i hi
    have hw := Hom.unit_wf hS i
    rw [(Hom.cn_congr (hF.wf _ hw rfl).1 (hG.wf _ hw rfl).1).2 (h _ hw rfl)]

theorem getD_map_range {α : Type} (f : Int → α) (l : List Int) (d : α) {n : Nat} (h : n < l.length) : ((l.map f)[n]?).getD d = f l[n] := by
  rw [List.getElem?_map, List.getElem?_eq_getElem h]; rfl

theorem map_range_length {α : Type} (f : Int → α) (l : List Int) : (List.range l.length).map (fun n => f (l[n]?.getD 0)) = l.map f := by
  apply List.ext_getElem (by simp)
  intro n h1 h2
  simp only [List.length_map, List.length_range] at h1
  simp [h1]

theorem pyDot_map (f g : Int → Int) (l : List Int) : pyDot (l.map f) (l.map g) = (l.map (fun i => f i * g i)).sum := by
  unfold pyDot
  congr 1
  induction l with
  | nil => rfl
  | cons a l ih => simp [ih]

theorem mat_comp (hF : GoodMap S T F) (hG : GoodMap T U G) (hS : S.Valid) (hT : T.Valid) (hU : U.Valid) (htS : S.dualTree [] = .ok tS)
    (htT : T.dualTree [] = .ok tT) (htU : U.dualTree [] = .ok tU) :
    matDot (mat T U tT tU G) (mat S T tS tT F) (S.cotree tS).length = mat S U tS tU (fun x => G (F x)) := by
  unfold matDot
  conv_lhs => unfold mat
  conv_rhs => unfold mat
  rw [List.map_map]
  apply List.map_congr_left
  intro j hj
  simp only [Function.comp]
  rw [← map_range_length (fun i => (G (F (Hom.unit S i))).cn.v j) (S.cotree tS)]
  apply List.map_congr_left
  intro n hn
  rw [List.mem_range] at hn
  have h1 : (List.map (fun j => List.map (fun i => (F (Hom.unit S i)).cn.v j) (S.cotree tS)) (T.cotree tT)).map (fun r => (r[n]?).getD 0) =
      (T.cotree tT).map (fun k => (F (Hom.unit S ((S.cotree tS)[n]?.getD 0))).cn.v k) := by
    rw [List.map_map]
    apply List.map_congr_left
    intro k _
    simp only [Function.comp]
    rw [getD_map_range _ _ _ hn, List.getElem?_eq_getElem hn]; rfl
  rw [h1, pyDot_map]
  have hw := Hom.unit_wf hS ((S.cotree tS)[n]?.getD 0)
  rw [hG.coords hT hU htT (hF.wf _ hw rfl).1 (hF.wf _ hw rfl).2 (mem_indices_isLabel (mem_cotree.1 hj).1)]
  congr 1
  apply List.map_congr_left
  intro i _
  ring

theorem mat_id (hT : T.Valid) (htT : T.dualTree [] = .ok tT) : mat T T tT tT (fun x => x) = identityMatrix (T.cotree tT).length := by
  unfold mat identityMatrix
  rw [← map_range_length _ (T.cotree tT)]
  apply List.map_congr_left
  intro n hn
  rw [List.mem_range] at hn
  rw [← map_range_length _ (T.cotree tT)]
  apply List.map_congr_left
  intro m hm
  rw [List.mem_range] at hm
  rw [List.getElem?_eq_getElem hn, List.getElem?_eq_getElem hm, Option.getD_some, Option.getD_some]
  have h1 := List.getElem_mem hm
  have h2 := List.getElem_mem hn
  have hn0 := mem_indices.1 (mem_cotree.1 h2).1
  rw [cn_unit hT htT h1, Hom.unit_v (mem_indices.1 (mem_cotree.1 h1).1).1 (mem_indices_isLabel (mem_cotree.1 h2).1), norm_of_nonneg hn0.1,
    sign_of_nonneg hn0.1]
  simp only [nodup_cotree.getElem_inj_iff]

theorem mat_length (S T : Triangulation) (tS tT : List Int) (F : Hom → Hom) : (mat S T tS tT F).length = (T.cotree tT).length := by simp [mat]

/-- the basis consists of the edges outside the tree -/
theorem homologyBasis_ok (hT : T.Valid) (htT : T.dualTree [] = .ok tT) : T.homologyBasis = .ok ((T.cotree tT).map (Hom.unit T)) := by
  have h1 : T.edgeHomologies = .ok (T.indices.map (Hom.unit T)) := by
    unfold edgeHomologies
    apply mapM_ok
    intro i _
    exact Hom.create_ok (by simp)
  have h2 : ((T.indices.map (Hom.unit T)).mapM Hom.isCanonical : Py _) = .ok ((T.indices.map (Hom.unit T)).map (fun x => decide (x.cn = x))) := by
    apply mapM_ok
    intro x hx
    rw [List.mem_map] at hx
    obtain ⟨i, _, rfl⟩ := hx
    obtain ⟨a, b, c, d⟩ := Hom.cn_spec (Hom.unit_wf hT i) htT
    unfold Hom.isCanonical
    rw [a, py_bind_ok, py_pure]
    congr 1
    rw [Bool.eq_iff_iff, beq_iff_eq, decide_eq_true_eq]
    constructor
    · intro h
      have ht := c.1
      generalize (Hom.unit T i).cn = y at *
      cases y
      simp only at h ht
      subst h; rw [← ht]
    · intro h; rw [h]
  unfold homologyBasis
  rw [h1, py_bind_ok, h2, py_bind_ok]
  have h3 : ∀ i ∈ T.indices, ((Hom.unit T i).cn = Hom.unit T i ↔ i ∉ tT) := by
    intro i hi
    constructor
    · intro h hm
      have hn := mem_indices.1 hi
      have := (Hom.cn_spec (Hom.unit_wf hT i) htT).2.2.2 i (mem_indices_isLabel hi) (by rw [norm_of_nonneg hn.1]; exact hm)
      rw [h, Hom.unit_v hn.1 (mem_indices_isLabel hi), norm_of_nonneg hn.1, sign_of_nonneg hn.1, if_pos rfl] at this
      exact absurd this (by decide)
    · intro h; exact cn_unit hT htT (mem_cotree.2 ⟨hi, h⟩)
  rw [py_pure]
  congr 1
  unfold cotree
  generalize T.indices = l at *
  clear h1 h2
  induction l with
  | nil => rfl
  | cons i l ih =>
    have hi := h3 i (by simp)
    have := ih (fun j hj => h3 j (by simp [hj]))
    simp only [List.map_cons, List.zip_cons_cons, List.filter_cons]
    by_cases hm : i ∈ tT
    · have : ¬ (Hom.unit T i).cn = Hom.unit T i := fun h => hi.1 h hm
      simp only [this, decide_false, hm, not_true_eq_false, Bool.false_eq_true, if_false]
      assumption
    · have hc := hi.2 hm
      simp only [hc, decide_true, hm, not_false_eq_true, if_true, List.map_cons]
      rw [this]

theorem pyDot_unit {c : Hom} (hc : c.WellFormed) {j : Int} (hj : j ∈ c.tri.indices) : pyDot c.algebraic (Hom.unit c.tri j).algebraic = c.v j := by
  have hj0 := mem_indices.1 hj
  have h1 : c.algebraic = (List.range c.tri.zeta).map (fun (k : Nat) => c.v k) := by
    apply List.ext_getElem (by simp [hc.2])
    intro n h1 h2
    simp only [List.getElem_map, List.getElem_range]
    change _ = gv c.algebraic n
    unfold gv
    rw [norm_of_nonneg (by omega), sign_of_nonneg (by omega)]
    simp [h1]
  have h2 : (Hom.unit c.tri j).algebraic = (List.range c.tri.zeta).map (fun (k : Nat) => if j = (k : Int) then 1 else 0) := by
    unfold Hom.unit
    apply List.map_congr_left
    intro k _
    rw [norm_of_nonneg hj0.1, sign_of_nonneg hj0.1]
    by_cases h : (k : Int) = j
    · simp [h]
    · simp [h, Ne.symm h]
  have h3 : ∀ f : Int → Int, (List.range c.tri.zeta).map (fun (k : Nat) => f k) = c.tri.indices.map f := by
    intro f; unfold indices; rw [List.map_map]; rfl
  conv_lhs => rw [h1, h2, h3 c.v, h3 (fun k => if j = k then 1 else 0)]
  rw [pyDot_map, sum_delta _ _ _ _ nodup_indices, if_pos hj]; ring

end

namespace Enc
variable {h : Enc}

/-- the action on chains -/
def act (h : Enc) (x : Hom) : Hom := (h.applyHom x).toOption.getD x

theorem Legal.act_ok (hh : h.Legal) {x : Hom} (hx : x.WellFormed) (tx : x.tri = h.source) : h.applyHom x = .ok (h.act x) ∧
    (h.act x).WellFormed ∧ (h.act x).tri = h.target := by
  obtain ⟨⟨y, h1, h2⟩, h3⟩ := hh.applyHom_total ⟨x, hx, tx⟩
  have h3 : h.applyHom x = .ok y := h3
  have : h.act x = y := by unfold act; rw [h3]; rfl
  rw [this]; exact ⟨h3, h1, h2⟩

theorem _root_.Curver.Path.hom_add {S T : Triangulation} {ms : List LMove} (h : Path S ms T) : ∀ {x y z x' y' z' : Hom}, x.WellFormed →
    y.WellFormed → z.WellFormed → x.tri = S → y.tri = S → z.tri = S → performHom ms x = .ok x' → performHom ms y = .ok y' →
    performHom ms z = .ok z' → ∀ k l : Int, (∀ e, S.IsLabel e → z.v e = k * x.v e + l * y.v e) →
    ∀ e, T.IsLabel e → z'.v e = k * x'.v e + l * y'.v e := by
  induction h with
  | nil T hT => intro x y z x' y' z' _ _ _ _ _ _ a b c k l h; cases a; cases b; cases c; exact h
  | cons m ms T hm hs ih =>
    intro x y z x' y' z' hx hy hz tx ty tz a b c k l h
    simp only [performHom, py_bind_eq_ok] at a b c
    obtain ⟨x₁, a1, a2⟩ := a
    obtain ⟨y₁, b1, b2⟩ := b
    obtain ⟨z₁, c1, c2⟩ := c
    have h1 := hm.hom_add hx hy hz tx ty tz a1 b1 c1 k l h
    obtain ⟨_, p1, p2, p3⟩ := hm.applyHom hx tx
    obtain ⟨_, q1, q2, q3⟩ := hm.applyHom hy ty
    obtain ⟨_, r1, r2, r3⟩ := hm.applyHom hz tz
    cases a1.symm.trans p1; cases b1.symm.trans q1; cases c1.symm.trans r1
    exact ih p3 q3 r3 p2 q2 r2 a2 b2 c2 k l h1

theorem Legal.good (hh : h.Legal) : GoodMap h.source h.target h.act := by
  refine ⟨fun x hx tx => (hh.act_ok hx tx).2, fun x y z k l hx hy hz tx ty tz hl => ?_, fun x y hx hy tx ty hxy => ?_⟩
  · have a := (hh.act_ok hx tx).1
    have b := (hh.act_ok hy ty).1
    have c := (hh.act_ok hz tz).1
    rw [applyHom_eq, if_pos tx.symm] at a
    rw [applyHom_eq, if_pos ty.symm] at b
    rw [applyHom_eq, if_pos tz.symm] at c
    exact hh.path.hom_add hx hy hz tx ty tz a b c k l hl
  · exact (hh.hom_congr hx hy (hh.act_ok hx tx).1 (hh.act_ok hy ty).1).2 hxy

theorem Legal.homologyMatrix_ok (hh : h.Legal) {tS tT : List Int} (hS : h.source.dualTree [] = .ok tS) (hT : h.target.dualTree [] = .ok tT) :
    h.homologyMatrix = .ok (mat h.source h.target tS tT h.act) := by
  have vS := hh.path.valid_source
  have vT := hh.path.valid_target
  have h1 : (((h.source.cotree tS).map (Hom.unit h.source)).mapM (fun hc => do
      let y ← h.applyHom hc
      y.canonical) : Py _) = .ok (((h.source.cotree tS).map (Hom.unit h.source)).map (fun x => (h.act x).cn)) := by
    apply mapM_ok
    intro x hx
    rw [List.mem_map] at hx
    obtain ⟨i, _, rfl⟩ := hx
    obtain ⟨a, b, c⟩ := hh.act_ok (Hom.unit_wf vS i) rfl
    rw [a, py_bind_ok, (Hom.cn_spec b (by rw [c]; exact hT)).1]
  unfold homologyMatrix
  rw [homologyBasis_ok vS hS, py_bind_ok, homologyBasis_ok vT hT, py_bind_ok, h1, py_bind_ok, py_pure]
  congr 1
  unfold mat
  rw [List.map_map]
  apply List.map_congr_left
  intro j hj
  simp only [Function.comp, List.map_map]
  apply List.map_congr_left
  intro i _
  simp only [Function.comp]
  obtain ⟨a, b, c⟩ := hh.act_ok (Hom.unit_wf vS i) rfl
  obtain ⟨d, e, f, g⟩ := Hom.cn_spec b (by rw [c]; exact hT)
  have : (h.act (Hom.unit h.source i)).cn.tri = h.target := f.1.symm.trans c
  rw [← this]
  exact pyDot_unit e (by rw [this]; exact (mem_cotree.1 hj).1)

end Enc
end Curver
