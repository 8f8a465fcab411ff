import Verif.Proofs.EncodeSeq

namespace Curver
open Triangulation

theorem Hom.Homologous.equivalence (T : Triangulation) : Equivalence (HomOn.Related (T := T)) :=
  ⟨fun x => Hom.Homologous.refl x.1, fun h => Hom.Homologous.symm h, fun h h' => Hom.Homologous.trans h h'⟩

theorem HomOn.cls_eq_iff {T : Triangulation} {x y : HomOn T} : x.cls = y.cls ↔ x.1.Homologous y.1 :=
  (Quot.eq.trans ((Hom.Homologous.equivalence T).eqvGen_iff))

namespace Enc
variable {R : Type} [CommRing R] [LinearOrder R] [Halvable R] [IsStrictOrderedRing R]

theorem Legal.applyLam_total {h : Enc} (hh : h.Legal) (L : LamOn R h.source) :
    ∃ L' : LamOn R h.target, h.applyLam L.1 = .ok L'.1 := by
  obtain ⟨L, hL, ht⟩ := L
  obtain ⟨L', h1, h2, h3, h4⟩ := hh.path.performLam_total hL ht
  exact ⟨⟨L', h3, h2⟩, by rw [applyLam_eq, if_pos ht.symm]; exact h1⟩

theorem Legal.applyHom_total {h : Enc} (hh : h.Legal) (x : HomOn h.source) :
    ∃ y : HomOn h.target, h.applyHom x.1 = .ok y.1 := by
  obtain ⟨x, hx, ht⟩ := x
  obtain ⟨y, h1, h2, h3⟩ := hh.path.performHom hx ht
  exact ⟨⟨y, h3, h2⟩, by rw [applyHom_eq, if_pos ht.symm]; exact h1⟩

/-- the inverse, as an encoding -/
def inv' (h : Enc) : Enc := ⟨h.kind, trim (h.sequence.reverse.map LMove.inverse), h.target, h.source⟩

theorem Legal.inv' {h : Enc} (hh : h.Legal) : h.inv'.Legal :=
  legal_mk _ (by simpa using hh.nonempty) hh.path_inverse (fun hk => (hh.mappingClass hk).symm)

theorem Legal.sameMap_inv' {h : Enc} (hh : h.Legal) :
    SameMap h.inv' ⟨h.kind, h.sequence.reverse.map LMove.inverse, h.target, h.source⟩ :=
  sameMap_trim h.kind h.kind hh.path_inverse

theorem Legal.undo {h : Enc} (hh : h.Legal) {L L' : Lam R} (hL : L.WellFormed) (ha : h.applyLam L = .ok L') :
    L'.WellFormed ∧ L'.tri = h.target ∧ L'.cls = L.cls ∧ h.inv'.applyLam L' = .ok L := by
  rw [applyLam_eq] at ha
  split at ha
  · rename_i ht
    obtain ⟨h1, h2, h3, h4⟩ := hh.path.performLam hL ht.symm ha
    refine ⟨h2, h1, h3, ?_⟩
    rw [hh.sameMap_inv'.lam R L' h2, applyLam_eq, if_pos h1.symm]
    rw [← h4]
    simp only [performed]
    rw [← List.map_reverse, List.reverse_reverse]
  · cases ha

theorem Legal.undo' {h : Enc} (hh : h.Legal) {L L' : Lam R} (hL : L.WellFormed) (ha : h.inv'.applyLam L = .ok L') :
    L'.WellFormed ∧ L'.tri = h.source ∧ L'.cls = L.cls ∧ h.applyLam L' = .ok L := by
  have hp := hh.path_inverse
  rw [hh.sameMap_inv'.lam R L hL, applyLam_eq] at ha
  split at ha
  · rename_i ht
    obtain ⟨h1, h2, h3, h4⟩ := hp.performLam hL ht.symm ha
    refine ⟨h2, h1, h3, ?_⟩
    rw [applyLam_eq, if_pos h1.symm, ← h4]
    congr 1
    simp only [performed]
    rw [List.reverse_reverse, List.map_map]
    have : ∀ l : List LMove, l.map (LMove.inverse ∘ LMove.inverse) = l := by
      intro l
      have : LMove.inverse ∘ LMove.inverse = id := by funext m; rfl
      rw [this, List.map_id]
    rw [this]
  · cases ha

theorem Legal.hom_undo {h : Enc} (hh : h.Legal) {x y : Hom} (hx : x.WellFormed) (ha : h.applyHom x = .ok y) :
    ∃ z, h.inv'.applyHom y = .ok z ∧ x.Homologous z := by
  rw [applyHom_eq] at ha
  split at ha
  · rename_i ht
    obtain ⟨z, h1, h2⟩ := hh.path.hom_back hx ht.symm ha
    obtain ⟨y', k1, k2, k3⟩ := hh.path.performHom hx ht.symm
    cases ha.symm.trans k1
    refine ⟨z, ?_, h2⟩
    rw [hh.sameMap_inv'.hom _ k3, applyHom_eq, if_pos k2.symm, ← h1]
    simp only [performed]
    rw [← List.map_reverse, List.reverse_reverse]
  · cases ha

theorem Legal.hom_undo' {h : Enc} (hh : h.Legal) {x y : Hom} (hx : x.WellFormed) (ha : h.inv'.applyHom x = .ok y) :
    ∃ z, h.applyHom y = .ok z ∧ x.Homologous z := by
  have hp := hh.path_inverse
  rw [hh.sameMap_inv'.hom x hx, applyHom_eq] at ha
  split at ha
  · rename_i ht
    obtain ⟨z, h1, h2⟩ := hp.hom_back hx ht.symm ha
    obtain ⟨y', k1, k2, k3⟩ := hp.performHom hx ht.symm
    cases ha.symm.trans k1
    refine ⟨z, ?_, h2⟩
    rw [applyHom_eq, if_pos k2.symm, ← h1]
    congr 1
    simp only [performed]
    rw [List.reverse_reverse, List.map_map]
    have : LMove.inverse ∘ LMove.inverse = id := by funext m; rfl
    rw [this, List.map_id]
  · cases ha

theorem Legal.hom_congr {h : Enc} (hh : h.Legal) {x y x' y' : Hom} (hx : x.WellFormed) (hy : y.WellFormed)
    (ax : h.applyHom x = .ok x') (ay : h.applyHom y = .ok y') : x'.Homologous y' ↔ x.Homologous y := by
  rw [applyHom_eq] at ax ay
  split at ax
  · split at ay
    · rename_i h1 h2
      exact hh.path.homologous_iff hx hy h1.symm h2.symm ax ay
    · cases ay
  · cases ax

/-- the bijection of the consistent laminations given by an encoding -/
theorem Legal.exists_actsLam {h : Enc} (hh : h.Legal) :
    ∃ σ : LamOn R h.source ≃ LamOn R h.target, h.ActsLam σ ∧ h.inv'.ActsLam σ.symm := by
  choose f hf using fun L => hh.applyLam_total (R := R) L
  have tot : ∀ x : LamOn R h.target, ∃ y : LamOn R h.source, h.inv'.applyLam x.1 = .ok y.1 := hh.inv'.applyLam_total
  choose g hg using tot
  refine ⟨⟨f, g, ?_, ?_⟩, hf, hg⟩
  · intro L
    have h1 := (hh.undo L.2.1.1 (hf L)).2.2.2
    have h2 := hg (f L)
    rw [h1] at h2
    cases L; exact Subtype.ext (Except.ok.inj h2).symm
  · intro L
    have h1 := (hh.undo' L.2.1.1 (hg L)).2.2.2
    have h2 := hf (g L)
    rw [h1] at h2
    exact Subtype.ext (Except.ok.inj h2).symm

theorem ActsLam.unique {h : Enc} {S T : Triangulation} {σ σ' : LamOn R S ≃ LamOn R T} (h1 : h.ActsLam σ) (h2 : h.ActsLam σ') : σ = σ' := by
  apply Equiv.ext
  intro L
  have := (h1 L).symm.trans (h2 L)
  exact Subtype.ext (Except.ok.inj this)

omit [CommRing R] [LinearOrder R] [Halvable R] [IsStrictOrderedRing R] in
theorem Legal.exists_actsHom {h : Enc} (hh : h.Legal) :
    ∃ τ : H1 h.source ≃ H1 h.target, h.ActsHom τ ∧ h.inv'.ActsHom τ.symm := by
  choose f hf using fun x => hh.applyHom_total x
  have tot : ∀ x : HomOn h.target, ∃ y : HomOn h.source, h.inv'.applyHom x.1 = .ok y.1 := hh.inv'.applyHom_total
  choose g hg using tot
  have cf : ∀ x y : HomOn h.source, HomOn.Related x y → (f x).cls = (f y).cls := by
    intro x y hxy
    rw [HomOn.cls_eq_iff]
    exact (hh.hom_congr x.2.1 y.2.1 (hf x) (hf y)).2 hxy
  have cg : ∀ x y : HomOn h.target, HomOn.Related x y → (g x).cls = (g y).cls := by
    intro x y hxy
    rw [HomOn.cls_eq_iff]
    exact (hh.inv'.hom_congr x.2.1 y.2.1 (hg x) (hg y)).2 hxy
  have hgf : ∀ x, (g (f x)).cls = x.cls := by
    intro x
    obtain ⟨z, h1, h2⟩ := hh.hom_undo x.2.1 (hf x)
    have := hg (f x)
    rw [h1] at this
    cases Except.ok.inj this
    rw [HomOn.cls_eq_iff]; exact h2.symm
  have hfg : ∀ x, (f (g x)).cls = x.cls := by
    intro x
    obtain ⟨z, h1, h2⟩ := hh.hom_undo' x.2.1 (hg x)
    have := hf (g x)
    rw [h1] at this
    cases Except.ok.inj this
    rw [HomOn.cls_eq_iff]; exact h2.symm
  refine ⟨⟨Quot.lift (fun x => (f x).cls) cf, Quot.lift (fun x => (g x).cls) cg, ?_, ?_⟩, ?_, ?_⟩
  · intro q; induction q using Quot.ind; exact hgf _
  · intro q; induction q using Quot.ind; exact hfg _
  · intro x; exact ⟨f x, hf x, rfl⟩
  · intro x; exact ⟨g x, hg x, rfl⟩

omit [CommRing R] [LinearOrder R] [Halvable R] [IsStrictOrderedRing R] in
theorem ActsHom.unique {h : Enc} {S T : Triangulation} {σ σ' : H1 S ≃ H1 T} (h1 : h.ActsHom σ) (h2 : h.ActsHom σ') : σ = σ' := by
  apply Equiv.ext
  intro q
  induction q using Quot.ind with
  | mk x =>
    obtain ⟨y, k1, k2⟩ := h1 x
    obtain ⟨z, l1, l2⟩ := h2 x
    rw [k1] at l1
    have := Subtype.ext (Except.ok.inj l1)
    subst this
    exact k2.trans l2.symm

theorem ActsLam.comp {k g h : Enc} {S T U : Triangulation} (H : IsComposite k g h) {σ : LamOn R S ≃ LamOn R T} {ρ : LamOn R T ≃ LamOn R U}
    (h1 : h.ActsLam σ) (h2 : g.ActsLam ρ) : k.ActsLam (σ.trans ρ) := by
  intro L
  rw [H.lam R L.1 L.2.1.1, h1 L, py_bind_ok, h2]; rfl

omit [CommRing R] [LinearOrder R] [Halvable R] [IsStrictOrderedRing R] in
theorem ActsHom.comp {k g h : Enc} {S T U : Triangulation} (H : IsComposite k g h) {σ : H1 S ≃ H1 T} {ρ : H1 T ≃ H1 U}
    (h1 : h.ActsHom σ) (h2 : g.ActsHom ρ) : k.ActsHom (σ.trans ρ) := by
  intro x
  obtain ⟨y, a1, a2⟩ := h1 x
  obtain ⟨z, b1, b2⟩ := h2 y
  refine ⟨z, by rw [H.hom x.1 x.2.1, a1, py_bind_ok, b1], ?_⟩
  rw [Equiv.trans_apply, a2, b2]

theorem ActsLam.congr {g h : Enc} {S T : Triangulation} (H : SameMap g h) {σ : LamOn R S ≃ LamOn R T} (h1 : h.ActsLam σ) : g.ActsLam σ := by
  intro L
  rw [H.lam R L.1 L.2.1.1, h1 L]

omit [CommRing R] [LinearOrder R] [Halvable R] [IsStrictOrderedRing R] in
theorem ActsHom.congr {g h : Enc} {S T : Triangulation} (H : SameMap g h) {σ : H1 S ≃ H1 T} (h1 : h.ActsHom σ) : g.ActsHom σ := by
  intro x
  rw [H.hom x.1 x.2.1]; exact h1 x

end Enc
end Curver
