import Verif.Proofs.LamFlip2
import Mathlib.Tactic.LinearCombination

namespace Curver
open Triangulation

/-- the value of a list of coefficients at an oriented edge -/
def gv (g : List Int) (u : Int) : Int := (g[(norm u).toNat]?).getD 0 * sign u

theorem sign_mul_self (u : Int) : sign u * sign u = 1 := by
  rcases lt_or_ge u 0 with h | h
  · rw [sign_of_neg h]; rfl
  · rw [sign_of_nonneg h]; rfl

theorem gv_inv (g : List Int) (u : Int) : gv g (inv u) = -gv g u := by
  unfold gv; rw [norm_inv, sign_inv]; ring

theorem gv_ext {g g' : List Int} (hl : g.length = g'.length) (h : ∀ i : Nat, i < g.length → gv g i = gv g' i) : g = g' := by
  apply List.ext_getElem hl
  intro i h1 h2
  have := h i h1
  unfold gv at this
  rw [norm_of_nonneg (by omega), sign_of_nonneg (by omega)] at this
  simpa [h1, h2] using this

/-- indicator of an edge minus its reverse -/
def ind1 (a u : Int) : Int := (if u = a then 1 else 0) - (if u = inv a then 1 else 0)

theorem ind1_inv (a u : Int) : ind1 a (inv u) = -ind1 a u := by
  unfold ind1
  unfold inv
  split <;> split <;> split <;> split <;> omega

theorem subAt_ok {g : List Int} {a : Int} (x : Int) (h : (norm a).toNat < g.length) :
    ∃ g', subAt g a x = .ok g' ∧ g'.length = g.length ∧ ∀ u, gv g' u = gv g u - x * ind1 a u := by
  unfold subAt
  rw [pyGet_ok h, py_bind_ok, pySet_ok h]
  refine ⟨_, rfl, by simp, ?_⟩
  intro u
  unfold gv ind1
  by_cases h1 : u = a
  · subst h1
    have := inv_ne u
    rw [List.getElem?_set_self h, List.getElem?_eq_getElem h]
    rw [if_pos rfl, if_neg (fun h => this h.symm)]
    simp only [Option.getD_some]
    have := sign_mul_self u
    linear_combination (-x) * this
  · by_cases h2 : u = inv a
    · subst h2
      rw [norm_inv, List.getElem?_set_self h, List.getElem?_eq_getElem h, if_neg h1, if_pos rfl, sign_inv]
      simp only [Option.getD_some]
      have := sign_mul_self a
      linear_combination (x) * this
    · rw [List.getElem?_set_ne, if_neg h1, if_neg h2]
      · simp
      · intro h; rcases idx_eq_iff.1 h with h | h
        · exact h1 h.symm
        · exact h2 (by rw [h, inv_inv])

theorem gv_set_zero {g : List Int} {e : Int} (h : (norm e).toNat < g.length) (u : Int) :
    gv (g.set (norm e).toNat 0) u = if u = e ∨ u = inv e then 0 else gv g u := by
  unfold gv
  split
  · rename_i hu
    have : (norm u).toNat = (norm e).toNat := idx_eq_iff.2 hu
    rw [this, List.getElem?_set_self h]; simp
  · rename_i hu
    rw [List.getElem?_set_ne]
    intro h'; rcases idx_eq_iff.1 h' with h' | h'
    · exact hu (.inl h'.symm)
    · exact hu (.inr (by rw [h', inv_inv]))

namespace Triangulation
variable {T T' : Triangulation} {es : List Int}

/-- boundary of the triangle to the left of `e` -/
def bdry (T : Triangulation) (e u : Int) : Int := ind1 e u + ind1 (T.nxt e) u + ind1 (T.nxt (T.nxt e)) u

end Triangulation

namespace Hom
variable {h h' : Hom} {es : List Int} {T' : Triangulation}

theorem val_eq (hw : h.WellFormed) {e : Int} (he : h.tri.IsLabel e) : h.val e = .ok (h.v e) := by
  have := idx_lt he
  unfold val v
  rw [pyGet_ok (by rw [hw.2]; exact this), List.getElem?_eq_getElem (by rw [hw.2]; exact this)]; rfl

theorem v_inv (h : Hom) (e : Int) : h.v (inv e) = -h.v e := gv_inv _ _

theorem flipHomStep_ok (hw : h.WellFormed) {e : Int} (he : h.tri.Flippable e) {g : List Int} (hg : g.length = h.tri.zeta)
    (hge : gv g e = h.v e) : ∃ g', flipHomStep h (h.tri.sq e) g = .ok g' ∧ g'.length = h.tri.zeta ∧
      ∀ u, gv g' u = gv g u - h.v e * h.tri.bdry e u := by
  have hc := hw.1.comp
  have l := hc.label_of_glues (hc.glues_nxt he.1)
  obtain ⟨g1, h1, h2, h3⟩ := subAt_ok (g := g) (a := h.tri.nxt e) (h.v e) (by rw [hg]; exact idx_lt l.2.1)
  obtain ⟨g2, h4, h5, h6⟩ := subAt_ok (g := g1) (a := h.tri.nxt (h.tri.nxt e)) (h.v e) (by rw [h2, hg]; exact idx_lt l.2.2)
  have hlt : (norm e).toNat < g2.length := by rw [h5, h2, hg]; exact idx_lt he.1
  refine ⟨g2.set (norm e).toNat 0, ?_, by simp [h5, h2, hg], ?_⟩
  · unfold flipHomStep Triangulation.sq
    simp only [val_eq hw he.1, py_bind_ok, h1, h4]
    exact pySet_ok hlt 0
  · intro u
    rw [gv_set_zero hlt]
    have hne : e ≠ h.tri.nxt e ∧ e ≠ h.tri.nxt (h.tri.nxt e) ∧ e ≠ inv (h.tri.nxt e) ∧ e ≠ inv (h.tri.nxt (h.tri.nxt e)) := by
      have hn := hc.glues_ne (hc.glues_nxt he.1)
      refine ⟨hn.1, hn.2.2.symm, ?_, ?_⟩
      · intro h'
        apply he.2
        rw [hc.sameTriangle_iff he.1]
        right; left; rw [inv_eq_iff]; exact h'
      · intro h'
        apply he.2
        rw [hc.sameTriangle_iff he.1]
        right; right; rw [inv_eq_iff]; exact h'
    have he0 : h.tri.bdry e e = 1 := by
      unfold bdry ind1
      rw [if_pos rfl, if_neg (fun h => inv_ne e h.symm), if_neg hne.1, if_neg hne.2.1, if_neg hne.2.2.1, if_neg hne.2.2.2]
      rfl
    split
    · rename_i hu
      rcases hu with rfl | rfl
      · rw [hge, he0]; ring
      · have : h.tri.bdry e (inv e) = -1 := by
          rw [← he0]; unfold bdry; simp only [ind1_inv]; ring
        rw [gv_inv, hge, this]; ring
    · rename_i hu
      push Not at hu
      rw [h6, h3]
      unfold bdry
      rw [show ind1 e u = 0 by unfold ind1; rw [if_neg hu.1, if_neg hu.2]; rfl]; ring

/-- `h'` is obtained by moving the homology off the flipped edges -/
def FlipsTo (es : List Int) (h h' : Hom) : Prop := h'.algebraic.length = h.algebraic.length ∧
  ∀ u, h'.v u = h.v u - (es.map (fun e => h.v e * h.tri.bdry e u)).sum

theorem bdry_sides (hc : h.tri.Complete) (hd : h.tri.DisjointSupport es) {e f : Int} (he : e ∈ sides es)
    (hf : f ∈ sides es) (h1 : f ≠ e) (h2 : f ≠ inv e) : h.tri.bdry e f = 0 := by
  have hd' := ((hc.disjoint_iff' hd.1).1 hd).2
  have hle := hd.isLabel_sides he
  have hn := hd' e he _ _ (hc.glues_nxt hle)
  have k : ∀ a, a ∉ sides es → ind1 a f = 0 := by
    intro a ha
    unfold ind1
    rw [if_neg, if_neg]
    · rfl
    · rintro rfl; exact ha (inv_mem_sides.1 hf)
    · rintro rfl; exact ha hf
  unfold bdry
  rw [k _ hn.1, k _ hn.2]
  unfold ind1; rw [if_neg h1, if_neg h2]; rfl

theorem flipFold_ok (hw : h.WellFormed) : ∀ (es : List Int), h.tri.DisjointSupport es → ∀ (g : List Int),
    g.length = h.tri.zeta → (∀ e ∈ es, gv g e = h.v e) → ∃ g',
    es.foldlM (fun g e => flipHomStep h (h.tri.sq e) g) g = .ok g' ∧ g'.length = h.tri.zeta ∧
    ∀ u, gv g' u = gv g u - (es.map (fun e => h.v e * h.tri.bdry e u)).sum := by
  intro es
  induction es with
  | nil => intro _ g hg _; exact ⟨g, rfl, hg, by simp⟩
  | cons e es ih =>
    intro hd g hg hge
    obtain ⟨g1, h1, h2, h3⟩ := flipHomStep_ok hw (hd.flippable (e := e) (by simp)) hg (hge e (by simp))
    have hn : (e :: inv e :: sides es).Nodup := hd.sides_nodup hw.1.comp
    rw [List.nodup_cons, List.nodup_cons] at hn
    obtain ⟨g2, h4, h5, h6⟩ := ih hd.tail g1 h2 (by
      intro f hf
      have sf : f ∈ sides es := mem_sides.2 (.inl hf)
      rw [h3, hge f (by simp [hf]), bdry_sides hw.1.comp hd (mem_sides.2 (.inl (by simp)))
        (mem_sides.2 (.inl (by simp [hf])))]
      · ring
      · rintro rfl; exact hn.1 (by simp only [List.mem_cons]; exact .inr sf)
      · rintro rfl; exact hn.2.1 sf)
    refine ⟨g2, ?_, h5, ?_⟩
    · rw [List.foldlM_cons, h1]; exact h4
    · intro u; rw [h6, h3, List.map_cons, List.sum_cons]; ring

end Hom

section
variable {h h' : Hom} {es : List Int} {T' : Triangulation}

theorem mf_applyHom (hw : h.WellFormed) (hd : h.tri.DisjointSupport es) (hm : h.tri.IsMultiflip es T') :
    ∃ h', (mf h.tri T' es).applyHom h = .ok h' ∧ h'.tri = T' ∧ h'.WellFormed ∧ Hom.FlipsTo es h h' := by
  obtain ⟨g', h1, h2, h3⟩ := Hom.flipFold_ok hw es hd h.algebraic hw.2 (fun e _ => rfl)
  refine ⟨⟨T', g'⟩, ?_, rfl, ⟨hm.valid, by simp [h2, hm.zeta]⟩, by simp [h2, hw.2], h3⟩
  unfold MultiFlip.applyHom mf
  dsimp only
  rw [foldlM_congr' (g := fun g e => flipHomStep h (h.tri.sq e) g) (P := fun _ => True) trivial]
  · rw [h1]
    simp [Hom.create, h2, hm.zeta, pyAssert]
  · intro e he g _
    have : PyDict.get (es.map (fun e => (e, h.tri.sq e))) e = .ok (h.tri.sq e) := by
      rw [PyDict.get_eq_ok_iff]
      apply PyDict.get?_of_mem
      · simpa [PyDict.keys, List.map_map, Function.comp_def] using hd.nodup hw.1.comp
      · exact List.mem_map_of_mem (f := fun e => (e, h.tri.sq e)) he
    rw [this]; rfl
  · intros; trivial

theorem ef_applyHom (hw : h.WellFormed) {e : Int} (hd : h.tri.Flippable e) (hm : h.tri.IsMultiflip [e] T') :
    ∃ h', EdgeFlip.applyHom ⟨h.tri, T', e, h.tri.sq e⟩ h = .ok h' ∧ h'.tri = T' ∧ h'.WellFormed ∧ Hom.FlipsTo [e] h h' := by
  obtain ⟨h', h1, h2⟩ := mf_applyHom hw (disjoint_singleton.2 hd) hm
  refine ⟨h', ?_, h2⟩
  rw [← h1]
  unfold EdgeFlip.applyHom MultiFlip.applyHom mf
  simp only [List.map_cons, List.map_nil, List.foldlM_cons, List.foldlM_nil, PyDict.get, PyDict.get?, if_true, py_bind_ok,
    py_pure]
  cases flipHomStep h (h.tri.sq e) h.algebraic <;> rfl

namespace Hom
variable {h₁ h₂ : Hom}

theorem ext_v (ht : h₁.tri = h₂.tri) (hl : h₁.algebraic.length = h₂.algebraic.length) (hv : ∀ u, h₁.v u = h₂.v u) : h₁ = h₂ := by
  have := gv_ext hl (fun i _ => hv i)
  cases h₁; cases h₂; simp_all

theorem FlipsTo.zero (hw : h.WellFormed) (hd : h.tri.DisjointSupport es) (hf : FlipsTo es h h') {f : Int}
    (hs : f ∈ sides es) : h'.v f = 0 := by
  have hc := hw.1.comp
  have key : ∀ f ∈ es, h'.v f = 0 := by
    intro f hf'
    obtain ⟨g', _, h2, h3⟩ := flipFold_ok hw es hd h.algebraic hw.2 (fun e _ => rfl)
    have hn := hd.nodup hc
    obtain ⟨l1, l2, rfl⟩ := List.append_of_mem hf'
    have hsn := hd.sides_nodup hc
    rw [hf.2, List.map_append, List.sum_append, List.map_cons, List.sum_cons]
    have hz : ∀ e ∈ l1 ++ l2, h.v e * h.tri.bdry e f = 0 := by
      intro e he
      have he' : e ∈ l1 ++ f :: l2 := by
        rw [List.mem_append] at he; rw [List.mem_append, List.mem_cons]; tauto
      rw [bdry_sides hc hd (mem_sides.2 (.inl he')) (mem_sides.2 (.inl hf'))]
      · ring
      · rintro rfl
        have := hn
        rw [List.nodup_append, List.nodup_cons] at this
        rw [List.mem_append] at he
        rcases he with he | he
        · exact this.2.2 f he f (by simp) rfl
        · exact this.2.1.1 he
      · rintro rfl
        have : (l1 ++ inv e :: l2).map (fun e => (norm e).toNat) |>.Nodup := sides_nodup_iff.1 hsn
        rw [List.map_append, List.map_cons, List.nodup_append, List.nodup_cons, norm_inv] at this
        rw [List.mem_append] at he
        rcases he with he | he
        · exact this.2.2 _ (List.mem_map_of_mem he) _ (by simp) rfl
        · exact this.2.1.1 (List.mem_map.2 ⟨e, he, rfl⟩)
    have z1 : (l1.map (fun e => h.v e * h.tri.bdry e f)).sum = 0 := by
      apply List.sum_eq_zero
      intro x hx
      rw [List.mem_map] at hx
      obtain ⟨e, he, rfl⟩ := hx
      exact hz e (List.mem_append_left _ he)
    have z2 : (l2.map (fun e => h.v e * h.tri.bdry e f)).sum = 0 := by
      apply List.sum_eq_zero
      intro x hx
      rw [List.mem_map] at hx
      obtain ⟨e, he, rfl⟩ := hx
      exact hz e (List.mem_append_right _ he)
    rw [z1, z2]
    have he0 : h.tri.bdry f f = 1 := by
      have he := hd.flippable hf'
      have hn := hc.glues_ne (hc.glues_nxt he.1)
      unfold bdry ind1
      rw [if_pos rfl, if_neg (fun h => inv_ne f h.symm), if_neg hn.1, if_neg hn.2.2.symm, if_neg, if_neg]
      · rfl
      · intro h'
        apply he.2
        rw [hc.sameTriangle_iff he.1]
        right; right; rw [inv_eq_iff]; exact h'
      · intro h'
        apply he.2
        rw [hc.sameTriangle_iff he.1]
        right; left; rw [inv_eq_iff]; exact h'
    rw [he0]; ring
  rcases mem_sides.1 hs with h1 | h1
  · exact key _ h1
  · have := key _ h1
    rw [v_inv] at this; omega

end Hom
end

namespace Triangulation
variable {T T' : Triangulation} {es : List Int} {x y : Int → Int}

theorem NullHomologous.congr (hx : T.NullHomologous x) (h : ∀ e, T.IsLabel e → x e = y e) : T.NullHomologous y := by
  obtain ⟨c, h1, h2⟩ := hx
  exact ⟨c, h1, fun e he => by rw [← h e he, h2 e he]⟩

theorem NullHomologous.zero : T.NullHomologous (fun _ => 0) := ⟨fun _ => 0, fun _ _ _ _ => rfl, fun _ _ => rfl⟩

theorem NullHomologous.add (hx : T.NullHomologous x) (hy : T.NullHomologous y) : T.NullHomologous (fun e => x e + y e) := by
  obtain ⟨c, h1, h2⟩ := hx
  obtain ⟨d, h3, h4⟩ := hy
  refine ⟨fun e => c e + d e, fun a b t hg => ?_, fun e he => ?_⟩
  · simp only [h1 a b t hg, h3 a b t hg]
  · simp only [h2 e he, h4 e he]; ring

theorem NullHomologous.neg (hx : T.NullHomologous x) : T.NullHomologous (fun e => -x e) := by
  obtain ⟨c, h1, h2⟩ := hx
  refine ⟨fun e => -c e, fun a b t hg => ?_, fun e he => ?_⟩
  · simp only [h1 a b t hg]
  · simp only [h2 e he]; ring

theorem NullHomologous.smul (k : Int) (hx : T.NullHomologous x) : T.NullHomologous (fun e => k * x e) := by
  obtain ⟨c, h1, h2⟩ := hx
  refine ⟨fun e => k * c e, fun a b t hg => ?_, fun e he => ?_⟩
  · simp only [h1 a b t hg]
  · simp only [h2 e he]; ring

theorem NullHomologous.sub (hx : T.NullHomologous x) (hy : T.NullHomologous y) : T.NullHomologous (fun e => x e - y e) :=
  (hx.add hy.neg).congr (fun _ _ => by ring)

theorem nullHomologous_bdry (hc : T.Complete) {e : Int} (he : T.IsLabel e) : T.NullHomologous (T.bdry e) := by
  refine ⟨fun u => (if u = e then 1 else 0) + (if u = T.nxt e then 1 else 0) + (if u = T.nxt (T.nxt e) then 1 else 0),
    ?_, ?_⟩
  · intro a b d hg
    have la := hc.label_of_glues hg
    obtain ⟨rfl, rfl⟩ := (hc.glues_iff la.1).1 hg
    have k1 : T.nxt a = e ↔ a = T.nxt (T.nxt e) := by
      constructor
      · rintro rfl; exact (hc.nxt_nxt_nxt la.1).symm
      · rintro rfl; exact hc.nxt_nxt_nxt he
    have k2 : T.nxt a = T.nxt e ↔ a = e := ⟨fun h => hc.nxt_inj la.1 he h, fun h => by rw [h]⟩
    have k3 : T.nxt a = T.nxt (T.nxt e) ↔ a = T.nxt e :=
      ⟨fun h => hc.nxt_inj la.1 (hc.isLabel_nxt he) h, fun h => by rw [h]⟩
    simp only [k1, k2, k3]; ring
  · intro u _
    unfold bdry ind1
    simp only [inv_eq_iff]; ring

/-- on chains vanishing on the flipped edges, homology in `T` and in `T'` agree -/
theorem IsMultiflip.null_of (hT : T.Complete) (hl : ∀ e ∈ es, T.IsLabel e) (hm : T.IsMultiflip es T')
    (hx0 : ∀ e ∈ es, x e = 0) (hx : T.NullHomologous x) : T'.NullHomologous x := by
  obtain ⟨c, h1, h2⟩ := hx
  refine ⟨c, ?_, fun e he => h2 e (hm.isLabel_iff.1 he)⟩
  intro a₀ b₀ d₀ hg
  have hla : T.IsLabel a₀ := hm.isLabel_iff.1 (hm.valid.comp.label_of_glues hg).1
  have fin : ∀ {y z}, T'.Glues a₀ y z → c a₀ = c y → c a₀ = c b₀ := by
    intro y z g1 g2
    obtain ⟨rfl, rfl⟩ := hm.valid.comp.glues_unique hg g1
    exact g2
  rcases hT.locate hl hla with ⟨y', z', g, hk⟩ | ⟨e, he, a, b, c', d, g1, g2, hmem⟩
  · exact fin (hm.kept _ _ _ g (Triangulation.kept_iff.2 hk)) (h1 _ _ _ g)
  · have n1 := hm.new e he _ _ _ _ g1 g2
    have hce : c e = c (inv e) := by
      have := h2 e (hl e he); rw [hx0 e he] at this; omega
    have e1 := h1 _ _ _ g1
    have e2 := h1 _ _ _ g1.rot
    have e3 := h1 _ _ _ g2
    have e4 := h1 _ _ _ g2.rot
    simp only [List.mem_cons, List.not_mem_nil, or_false] at hmem
    rcases lt_or_ge e 0 with h0 | h0
    · obtain ⟨p1, p2⟩ := n1.2 h0
      rcases hmem with rfl | rfl | rfl | rfl | rfl | rfl
      · exact fin p2 (by omega)
      · exact fin p1.rot.rot (by omega)
      · exact fin p2.rot (by omega)
      · exact fin p1 (by omega)
      · exact fin p2.rot.rot (by omega)
      · exact fin p1.rot (by omega)
    · obtain ⟨p1, p2⟩ := n1.1 h0
      rcases hmem with rfl | rfl | rfl | rfl | rfl | rfl
      · exact fin p1 (by omega)
      · exact fin p1.rot.rot (by omega)
      · exact fin p2.rot (by omega)
      · exact fin p2 (by omega)
      · exact fin p2.rot.rot (by omega)
      · exact fin p1.rot (by omega)

end Triangulation

namespace Hom
variable {h h' h₁ h₁' h₂ h₂' : Hom} {es : List Int}

theorem FlipsTo.null (hw : h.WellFormed) (hd : h.tri.DisjointSupport es) (hf : FlipsTo es h h') :
    h.tri.NullHomologous (fun e => h.v e - h'.v e) := by
  have : h.tri.NullHomologous (fun u => (es.map (fun e => h.v e * h.tri.bdry e u)).sum) := by
    have hl := hd.1
    clear hf hd
    induction es with
    | nil => exact NullHomologous.zero
    | cons e es ih =>
      exact ((nullHomologous_bdry hw.1.comp (hl e (by simp))).smul (h.v e)).add (ih (fun f hf => hl f (by simp [hf])))
  exact this.congr (fun u _ => by rw [hf.2]; ring)

/-- flips respect homology, in both directions -/
theorem FlipsTo.homologous_iff (hw₁ : h₁.WellFormed) (hw₂ : h₂.WellFormed) (ht : h₁.tri = h₂.tri)
    (hd : h₁.tri.DisjointSupport es) (hm : h₁.tri.IsMultiflip es h₁'.tri) (ht' : h₁'.tri = h₂'.tri)
    (hf₁ : FlipsTo es h₁ h₁') (hf₂ : FlipsTo es h₂ h₂') : Homologous h₁' h₂' ↔ Homologous h₁ h₂ := by
  have hz : ∀ e ∈ es, h₁'.v e - h₂'.v e = 0 := by
    intro e he
    rw [hf₁.zero hw₁ hd (mem_sides.2 (.inl he)), hf₂.zero hw₂ (ht ▸ hd) (mem_sides.2 (.inl he))]; rfl
  have n1 := hf₁.null hw₁ hd
  have n2 := hf₂.null hw₂ (ht ▸ hd)
  rw [← ht] at n2
  constructor
  · rintro ⟨_, hn⟩
    refine ⟨ht, ?_⟩
    have hd' := hm.disjoint hw₁.1 hd
    have := (hm.inverse hw₁.1 hd).null_of hm.valid.comp hd'.1 (x := fun e => h₁'.v e - h₂'.v e) (by
      intro e he
      rw [List.mem_map] at he
      obtain ⟨e, he, rfl⟩ := he
      have := hz e he
      simp only [v_inv]; omega) hn
    exact ((this.add n1).sub n2).congr (fun e _ => by ring)
  · rintro ⟨_, hn⟩
    refine ⟨ht', ?_⟩
    refine hm.null_of hw₁.1.comp hd.1 hz ?_
    exact ((hn.sub n1).add n2).congr (fun e _ => by ring)

/-- flipping back gives a homologous class -/
theorem FlipsTo.back (hw : h.WellFormed) (hd : h.tri.DisjointSupport es) (hm : h.tri.IsMultiflip es h'.tri)
    (hf : FlipsTo es h h') (hf' : FlipsTo (es.map inv) h' h₁) (ht : h₁.tri = h.tri) :
    Homologous h h₁ := by
  refine ⟨ht.symm, ?_⟩
  have hd' := hm.disjoint hw.1 hd
  have hv : ∀ u, h₁.v u = h'.v u := by
    intro u
    rw [hf'.2 u]
    have : ((es.map inv).map (fun e => h'.v e * h'.tri.bdry e u)).sum = 0 := by
      apply List.sum_eq_zero
      intro x hx
      rw [List.mem_map] at hx
      obtain ⟨e, he, rfl⟩ := hx
      rw [hf.zero hw hd (mem_sides_map_inv.1 (mem_sides.2 (.inl he)))]; ring
    rw [this]; ring
  exact (hf.null hw hd).congr (fun e _ => by rw [hv])

theorem FlipsTo.unique (ht : h₁.tri = h₂.tri) (hf₁ : FlipsTo es h h₁) (hf₂ : FlipsTo es h h₂) : h₁ = h₂ :=
  ext_v ht (by rw [hf₁.1, hf₂.1]) (fun u => by rw [hf₁.2, hf₂.2])

theorem FlipsTo.cons {e : Int} (hw : h.WellFormed) (hd : h.tri.DisjointSupport (e :: es))
    (hm : h.tri.IsMultiflip [e] h₁.tri) (hf₁ : FlipsTo [e] h h₁) (hf₂ : FlipsTo es h₁ h₂) : FlipsTo (e :: es) h h₂ := by
  refine ⟨by rw [hf₂.1, hf₁.1], ?_⟩
  intro u
  have hc := hw.1.comp
  have hdt := hm.disjoint_tail hw.1 hd
  have hn : (e :: inv e :: sides es).Nodup := hd.sides_nodup hc
  rw [List.nodup_cons, List.nodup_cons] at hn
  rw [hf₂.2, hf₁.2, List.map_cons, List.sum_cons, List.map_cons, List.sum_cons, List.map_nil, List.sum_nil]
  have : es.map (fun f => h₁.v f * h₁.tri.bdry f u) = es.map (fun f => h.v f * h.tri.bdry f u) := by
    apply List.map_congr_left
    intro f hf
    have sf : f ∈ sides es := mem_sides.2 (.inl hf)
    have hlf := hd.tail.1 f hf
    have h1 : h₁.v f = h.v f := by
      rw [hf₁.2, List.map_cons, List.sum_cons, List.map_nil, List.sum_nil, bdry_sides hc hd (mem_sides.2 (.inl (by simp)))
        (mem_sides.2 (.inl (by simp [hf])))]
      · ring
      · rintro rfl; exact hn.1 (by simp only [List.mem_cons]; exact .inr sf)
      · rintro rfl; exact hn.2.1 sf
    have hg := (hdt.2 f sf _ _).2 (hc.glues_nxt hlf)
    have h2 : h₁.tri.bdry f u = h.tri.bdry f u := by
      unfold bdry
      rw [hm.valid.comp.nxt_of_glues hg, hm.valid.comp.nxt_of_glues hg.rot]
    rw [h1, h2]
  rw [this]; ring

end Hom
end Curver
