import Verif.Proofs.Package

/-! Isometries conjugate flips to flips. -/

namespace Curver
open Triangulation

/-- the edges that correspond to `es` under the isometry `f`, with the signs of `es` -/
def conj (f : Int → Int) (es : List Int) : List Int := es.map (fun e => setSign (f e) (sign e))

theorem setSign_cases (x s : Int) : setSign x s = x ∨ setSign x s = inv x := by
  unfold setSign; split
  · exact .inl rfl
  · exact .inr rfl

theorem sign_setSign (x e : Int) : sign (setSign x (sign e)) = sign e := by
  unfold setSign
  split
  · assumption
  · rw [sign_inv]
    rcases lt_or_ge x 0 with h | h <;> rcases lt_or_ge e 0 with h' | h' <;>
      simp_all [sign_of_neg, sign_of_nonneg]

namespace Triangulation
variable {S U S' U' : Triangulation} {f : Int → Int} {es : List Int}

theorem sides_conj_perm (hf : S.IsIsometry U f) (hl : ∀ e ∈ es, S.IsLabel e) : (sides (conj f es)).Perm ((sides es).map f) := by
  induction es with
  | nil => exact .refl _
  | cons e es ih =>
    have he := hl e (by simp)
    have ih := ih (fun x hx => hl x (by simp [hx]))
    simp only [sides, conj, List.map_cons, List.flatMap_cons, List.map_append] at ih ⊢
    refine List.Perm.append ?_ ih
    simp only [List.map_cons, List.map_nil, hf.inverts e he]
    rcases setSign_cases (f e) (sign e) with h | h
    · rw [h]
    · rw [h, inv_inv]; exact List.Perm.swap _ _ _

theorem mem_sides_conj (hf : S.IsIsometry U f) (hl : ∀ e ∈ es, S.IsLabel e) {u : Int} (hu : S.IsLabel u) :
    f u ∈ sides (conj f es) ↔ u ∈ sides es := by
  rw [(sides_conj_perm hf hl).mem_iff, List.mem_map]
  constructor
  · rintro ⟨v, hv, h⟩
    have hvl : S.IsLabel v := by
      rcases mem_sides.1 hv with h' | h'
      · exact hl _ h'
      · exact isLabel_inv.1 (hl _ h')
    rwa [← hf.inj v u hvl hu h]
  · intro h; exact ⟨u, h, rfl⟩

theorem mem_conj (hf : S.IsIsometry U f) {e' : Int} (h : e' ∈ conj f es) (hl : ∀ e ∈ es, S.IsLabel e) :
    ∃ e ∈ es, sign e' = sign e ∧ ((e' = f e) ∨ (e' = f (inv e))) := by
  unfold conj at h
  rw [List.mem_map] at h
  obtain ⟨e, he, rfl⟩ := h
  refine ⟨e, he, sign_setSign _ _, ?_⟩
  rw [hf.inverts e (hl e he)]
  exact setSign_cases _ _

theorem DisjointSupport.conj (h : S.DisjointSupport es) (hS : S.Complete) (hU : U.Complete) (hf : S.IsIsometry U f) :
    U.DisjointSupport (conj f es) := by
  have hl : ∀ e ∈ Curver.conj f es, U.IsLabel e := by
    intro e' he'
    obtain ⟨e, he, _, rfl | rfl⟩ := mem_conj hf he' h.1
    · exact hf.maps e (h.1 e he)
    · exact hf.maps _ (isLabel_inv.2 (h.1 e he))
  rw [hU.disjoint_iff' hl]
  obtain ⟨h1, h2⟩ := (hS.disjoint_iff' h.1).1 h
  obtain ⟨g, hg, hgf, hfg⟩ := hf.exists_inverse hS hU
  refine ⟨?_, ?_⟩
  · rw [(sides_conj_perm hf h.1).nodup_iff, List.nodup_map_iff_inj_on h1]
    intro x hx y hy
    exact hf.inj x y (h.isLabel_sides hx) (h.isLabel_sides hy)
  · intro u hu a b hgl
    have lu := hU.label_of_glues hgl
    have hgl' := hg.glues _ _ _ hgl
    have := h2 (g u) ((mem_sides_conj hf h.1 (hg.maps u lu.1)).1 (by rwa [hfg u lu.1])) _ _ hgl'
    rw [← mem_sides_conj hf h.1 (hg.maps a lu.2.1), hfg a lu.2.1] at this
    rw [← mem_sides_conj hf h.1 (hg.maps b lu.2.2), hfg b lu.2.2] at this
    exact this

theorem sign_nonneg_iff {e : Int} : sign e = 1 ↔ 0 ≤ e := by
  rcases lt_or_ge e 0 with h | h
  · rw [sign_of_neg h]; omega
  · rw [sign_of_nonneg h]; omega

theorem IsMultiflip.conj (h : S.IsMultiflip es S') (hd : S.DisjointSupport es) (hS : S.Valid) (hU : U.Valid) (hf : S.IsIsometry U f) :
    ∃ U', U'.Valid ∧ U.IsMultiflip (conj f es) U' ∧ S'.IsIsometry U' f := by
  have hb : S'.SignedBij f := by
    refine ⟨fun e he => ?_, fun e e' he he' => hf.inj e e' (h.isLabel_iff.1 he) (h.isLabel_iff.1 he'),
      fun e he => hf.inverts e (h.isLabel_iff.1 he)⟩
    rw [h.isLabel_iff] at he ⊢
    exact hf.isLabel.1 (hf.maps e he)
  obtain ⟨U', _, h2, h3⟩ := hb.target h.valid
  obtain ⟨g, hg, hgf, hfg⟩ := hf.exists_inverse hS.comp hU.comp
  refine ⟨U', h2, ⟨h2, by rw [h3.zeta, h.zeta, hf.zeta], ?_, ?_⟩, h3⟩
  · intro x y z hgl hk
    have lu := hU.comp.label_of_glues hgl
    rw [Triangulation.kept_iff] at hk
    have := h.kept _ _ _ (hg.glues _ _ _ hgl) (by
      rw [Triangulation.kept_iff]
      refine ⟨fun hh => hk.1 ?_, fun hh => hk.2.1 ?_, fun hh => hk.2.2 ?_⟩
      · rw [← hfg x lu.1]; exact (mem_sides_conj hf hd.1 (hg.maps x lu.1)).2 hh
      · rw [← hfg y lu.2.1]; exact (mem_sides_conj hf hd.1 (hg.maps y lu.2.1)).2 hh
      · rw [← hfg z lu.2.2]; exact (mem_sides_conj hf hd.1 (hg.maps z lu.2.2)).2 hh)
    have := h3.glues _ _ _ this
    rwa [hfg x lu.1, hfg y lu.2.1, hfg z lu.2.2] at this
  · intro e' he' a b c d g1 g2
    obtain ⟨e, he, hsgn, hee⟩ := mem_conj hf he' hd.1
    have le := hd.1 e he
    have l1 := hU.comp.label_of_glues g1
    have l2 := hU.comp.label_of_glues g2
    have k1 := hg.glues _ _ _ g1
    have k2 := hg.glues _ _ _ g2
    have push : ∀ x y z, S'.Glues x (g y) (g z) → U.IsLabel y → U.IsLabel z → U'.Glues (f x) y z := by
      intro x y z hgl hy hz
      have := h3.glues _ _ _ hgl
      rwa [hfg y hy, hfg z hz] at this
    have hs0 : 0 ≤ e' ↔ 0 ≤ e := by rw [← sign_nonneg_iff, ← sign_nonneg_iff, hsgn]
    rcases hee with rfl | rfl
    · rw [hgf e le] at k1
      rw [← hf.inverts e le, hgf _ (isLabel_inv.2 le)] at k2
      obtain ⟨n1, n2⟩ := h.new e he _ _ _ _ k1 k2
      rw [← hf.inverts e le]
      refine ⟨fun h0 => ?_, fun h0 => ?_⟩
      · obtain ⟨p, q⟩ := n1 (hs0.1 h0)
        exact ⟨push _ _ _ p l2.2.2 l1.2.1, push _ _ _ q l1.2.2 l2.2.1⟩
      · obtain ⟨p, q⟩ := n2 (by by_contra hc; exact absurd (hs0.2 (by omega)) (by omega))
        exact ⟨push _ _ _ p l2.2.2 l1.2.1, push _ _ _ q l1.2.2 l2.2.1⟩
    · have lie := isLabel_inv.2 le
      rw [hgf _ lie] at k1
      rw [← hf.inverts _ lie, inv_inv, hgf e le] at k2
      obtain ⟨n1, n2⟩ := h.new e he _ _ _ _ k2 k1
      rw [← hf.inverts _ lie, inv_inv]
      refine ⟨fun h0 => ?_, fun h0 => ?_⟩
      · obtain ⟨p, q⟩ := n1 (hs0.1 h0)
        exact ⟨push _ _ _ q l2.2.2 l1.2.1, push _ _ _ p l1.2.2 l2.2.1⟩
      · obtain ⟨p, q⟩ := n2 (by by_contra hc; exact absurd (hs0.2 (by omega)) (by omega))
        exact ⟨push _ _ _ q l2.2.2 l1.2.1, push _ _ _ p l1.2.2 l2.2.1⟩

end Triangulation

section
variable {R : Type} [CommRing R] [LinearOrder R] [IsStrictOrderedRing R] [Halvable R] {f : Int → Int} {es : List Int}

theorem Lam.FlipsTo.conj {L L' M M' : Lam R} (h : Lam.FlipsTo es L L') (hL : L.WellFormed) (hM : M.WellFormed)
    (hd : L.tri.DisjointSupport es) (hf : L.tri.IsIsometry M.tri f) (hm : L.MapsTo f M) (h' : Lam.FlipsTo (conj f es) M M')
    (ht : L'.tri.zeta = L.tri.zeta) : L'.MapsTo f M' := by
  refine ⟨by rw [h'.cls, hm.1, h.cls], by rw [h'.length, hm.2.1, h.length], ?_⟩
  have hlab : ∀ e, L'.tri.IsLabel e ↔ L.tri.IsLabel e := fun e => by unfold IsLabel; rw [ht]
  have key : ∀ e ∈ es, M'.w (f e) = L'.w e := by
    intro e he
    have le := hd.1 e he
    obtain ⟨a, b, g1⟩ := hL.1.comp.exists_glues le
    obtain ⟨c, d, g2⟩ := hL.1.comp.exists_glues (isLabel_inv.2 le)
    have l1 := hL.1.comp.label_of_glues g1
    have l2 := hL.1.comp.label_of_glues g2
    have k := h.new e he _ _ _ _ g1 g2
    have m1 := hf.glues _ _ _ g1
    have m2 := hf.glues _ _ _ g2
    have hmem : setSign (f e) (sign e) ∈ Curver.conj f es := List.mem_map.2 ⟨e, he, rfl⟩
    rcases setSign_cases (f e) (sign e) with hs | hs
    · rw [hs] at hmem
      rw [hf.inverts e le] at m2
      have := h'.new _ hmem _ _ _ _ m1 m2
      rw [hm.2.2 a l1.2.1, hm.2.2 b l1.2.2, hm.2.2 c l2.2.1, hm.2.2 d l2.2.2, hm.2.2 e le, k] at this
      exact (Except.ok.inj this).symm
    · rw [hs] at hmem
      rw [hf.inverts e le] at m2
      have := h'.new _ hmem _ _ _ _ m2 (by rw [inv_inv]; exact m1)
      rw [hm.2.2 a l1.2.1, hm.2.2 b l1.2.2, hm.2.2 c l2.2.1, hm.2.2 d l2.2.2, Lam.w_inv, Lam.w_inv, hm.2.2 e le,
        ← flipWeight_rot (le_max_right _ _) (le_max_right _ _) (le_max_right _ _) (le_max_right _ _), k] at this
      exact (Except.ok.inj this).symm
  intro e he
  rw [hlab] at he
  by_cases hs : e ∈ sides es
  · rcases mem_sides.1 hs with h1 | h1
    · exact key e h1
    · have := key _ h1
      rwa [hf.inverts e he, Lam.w_inv, Lam.w_inv] at this
  · rw [h.kept' he hs, h'.kept' (hf.maps e he) (fun hh => hs ((mem_sides_conj hf hd.1 he).1 hh)), hm.2.2 e he]

end

/-- The chain `y` is homologous to the image of `x` under the isometry `f`. -/
def Hom.Rel (f : Int → Int) (x y : Hom) : Prop := x.tri.NullHomologous (fun e => y.v (f e) - x.v e)

theorem Hom.FlipsTo.conj {f : Int → Int} {es : List Int} {x x' y y' : Hom} (h : Hom.FlipsTo es x x') (hx : x.WellFormed) (hy : y.WellFormed)
    (hd : x.tri.DisjointSupport es) (hf : x.tri.IsIsometry y.tri f) (hm : x.tri.IsMultiflip es x'.tri) (hr : x.Rel f y)
    (h' : Hom.FlipsTo (Curver.conj f es) y y') : x'.Rel f y' := by
  have hd' := hd.conj hx.1.comp hy.1.comp hf
  obtain ⟨g, hg, hgf, hfg⟩ := hf.exists_inverse hx.1.comp hy.1.comp
  have n1 := h.null hx hd
  have n2 := h'.null hy hd'
  have n3 : x.tri.NullHomologous (fun e => y.v (f e) - y'.v (f e)) :=
    hg.null hy.1.comp hx.1.comp (fun e he => by rw [hfg e he]) n2
  have n4 : x.tri.NullHomologous (fun e => y'.v (f e) - x'.v e) :=
    ((hr.sub n3).add n1).congr (fun e _ => by ring)
  refine hm.null_of hx.1.comp hd.1 ?_ n4
  intro e he
  rw [h.zero hx hd (mem_sides.2 (.inl he)), h'.zero hy hd' ((mem_sides_conj hf hd.1 (hd.1 e he)).2 (mem_sides.2 (.inl he)))]
  rfl

end Curver
