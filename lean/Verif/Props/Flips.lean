import Verif.Proofs.FlipSeq
import Verif.Proofs.Strands
import Verif.Props.Triangulation

/-!
# C08, C09, C10, C29, C51: flips and multiflips

The vocabulary (`Flippable`, `DisjointSupport`, `IsMultiflip`, `Consistent`, `flipOneByOne`, `Strands`) is in
`Verif/Spec/Flip.lean` and `Verif/Spec/Strands.lean`.  `LMove` is a move linked to its inverse; `m.inverse` is `~m`.
-/

namespace Curver
open Triangulation

/-! ## C08 -/

/-- C08: flipping a flippable edge succeeds.  The target is a valid triangulation with the same number of edges, the
triangles away from `e` are kept and the two triangles `(e, a, b)`, `(~e, c, d)` are replaced by those on the other
diagonal (`IsMultiflip`). -/
theorem C08_flip_succeeds (T : Triangulation) (hT : T.Valid) (e : Int) (he : T.Flippable e) :
    ∃ m, T.encodeFlip e = .ok m ∧ m.move.source = T ∧ T.IsMultiflip [e] m.move.target := by
  obtain ⟨T', h1, h2⟩ := hT.encodeFlip_eq he
  exact ⟨_, h2, rfl, h1⟩

/-- C08: the description `IsMultiflip` determines the target. -/
theorem C08_target_unique (T T₁ T₂ : Triangulation) (hT : T.Valid) (es : List Int) (hes : ∀ e ∈ es, T.IsLabel e)
    (h₁ : T.IsMultiflip es T₁) (h₂ : T.IsMultiflip es T₂) : T₁ = T₂ := h₁.unique hT.comp hes h₂

/-- C08: flipping `~e` in the target gives back exactly the triangulation, and this is the inverse move. -/
theorem C08_flip_back (T : Triangulation) (hT : T.Valid) (e : Int) (m : LMove) (h : T.encodeFlip e = .ok m) :
    m.move.target.encodeFlip (inv e) = .ok m.inverse ∧ m.inverse.move.target = T := by
  by_cases hl : T.IsLabel e
  · by_cases hf : T.Flippable e
    · obtain ⟨T', h1, h2⟩ := hT.encodeFlip_eq hf
      rw [h2] at h; cases h
      refine ⟨?_, rfl⟩
      have hd := disjoint_singleton.2 hf
      have hf' : T'.Flippable (inv e) := disjoint_singleton.1 (h1.disjoint hT hd)
      obtain ⟨T'', h3, h4⟩ := h1.valid.encodeFlip_eq hf'
      have := h3.unique h1.valid.comp (fun x hx => hf'.1 |> fun h => by simp at hx; rw [hx]; exact h) (h1.inverse hT hd)
      subst this
      simp only [Move.target, LMove.inverse]
      rw [h4, inv_inv]
    · have := hT.comp.encodeMultiflip_assertionError (es := [e]) (by simpa using hl) (by simpa [disjoint_singleton] using hf)
      simp [encodeFlip, this] at h
  · have := hT.comp.encodeMultiflip_keyError (es := [e]) (by simpa using hl)
    simp [encodeFlip, this] at h

/-- C08: flipping fails for an edge that lies in only one triangle (`AssertionError`) and for something that is not an
edge (`KeyError`); `is_flippable` tells the difference. -/
theorem C08_unflippable_fails (T : Triangulation) (hT : T.Valid) (e : Int) :
    (T.IsLabel e → ¬ T.Flippable e → T.encodeFlip e = .error .assertionError ∧ T.isFlippable e = .ok false) ∧
    (¬ T.IsLabel e → T.encodeFlip e = .error .keyError) ∧
    (T.Flippable e → T.isFlippable e = .ok true) := by
  refine ⟨fun hl hf => ⟨?_, ?_⟩, fun hl => ?_, fun hf => (hT.comp.isFlippable_iff hf.1).2 hf⟩
  · have := hT.comp.encodeMultiflip_assertionError (es := [e]) (by simpa using hl) (by simpa [disjoint_singleton] using hf)
    simp [encodeFlip, this]
  · rw [← hT.comp.isFlippable_iff hl] at hf
    rw [hT.comp.isFlippable_eq hl] at hf ⊢
    simpa using hf
  · have := hT.comp.encodeMultiflip_keyError (es := [e]) (by simpa using hl)
    simp [encodeFlip, this]

example : torus.Flippable 0 := by
  rw [← torus_valid.comp.isFlippable_iff (by decide)]; decide

example : torus.encodeFlip 0 = .ok ⟨.flip ⟨torus, ⟨[⟨-3, 1, 0⟩, ⟨-2, -1, 2⟩]⟩, 0, ⟨1, 2, -2, -3, 0⟩⟩,
    .flip ⟨⟨[⟨-3, 1, 0⟩, ⟨-2, -1, 2⟩]⟩, torus, -1, ⟨2, -2, -3, 1, -1⟩⟩⟩ := by decide

/-! ## C09, C10 -/

section
variable {R : Type} [CommRing R] [LinearOrder R] [IsStrictOrderedRing R] [Halvable R]

/-- C09: applying a flip and then its inverse to any lamination (with one weight per edge, of any kind and sign) gives
back the same lamination. -/
theorem C09_flip_then_back (T : Triangulation) (e : Int) (m : LMove) (hm : T.encodeFlip e = .ok m) (L L' : Lam R)
    (hL : L.WellFormed) (hT : L.tri = T) (h : m.move.applyLam L = .ok L') :
    L'.tri = m.move.target ∧ L'.WellFormed ∧ L'.cls = L.cls ∧ m.inverse.move.applyLam L' = .ok L := by
  subst hT
  by_cases hl : L.tri.IsLabel e
  · by_cases hf : L.tri.Flippable e
    · obtain ⟨T', h1, h2⟩ := hL.1.encodeFlip_eq hf
      rw [h2] at hm; cases hm
      obtain ⟨rfl, h4⟩ := (ef_applyLam_iff hL hf).1 h
      have hd := disjoint_singleton.2 hf
      have hw := h4.wellFormed hL h1
      have hf' : L'.tri.Flippable (inv e) := disjoint_singleton.1 (h1.disjoint hL.1 hd)
      refine ⟨rfl, hw, h4.cls, ?_⟩
      exact (ef_applyLam_iff hw hf').2 ⟨rfl, h4.inverse hL hd h1⟩
    · have := hL.1.comp.encodeMultiflip_assertionError (es := [e]) (by simpa using hl)
        (by simpa [disjoint_singleton] using hf)
      simp [encodeFlip, this] at hm
  · have := hL.1.comp.encodeMultiflip_keyError (es := [e]) (by simpa using hl)
    simp [encodeFlip, this] at hm

/-- C09 for multiflips. -/
theorem C09_multiflip_then_back (T : Triangulation) (es : List Int) (m : LMove) (hes : T.DisjointSupport es)
    (hm : T.encodeMultiflip es = .ok m) (L L' : Lam R) (hL : L.WellFormed) (hT : L.tri = T)
    (h : m.move.applyLam L = .ok L') :
    L'.tri = m.move.target ∧ L'.WellFormed ∧ L'.cls = L.cls ∧ m.inverse.move.applyLam L' = .ok L := by
  subst hT
  obtain ⟨T', h1, h2⟩ := hL.1.encodeMultiflip_eq hes
  rw [h2] at hm; cases hm
  obtain ⟨rfl, h4⟩ := (mf_applyLam_iff hL hes).1 h
  have hw := h4.wellFormed hL h1
  exact ⟨rfl, hw, h4.cls, (mf_applyLam_iff hw (h1.disjoint hL.1 hes)).2 ⟨rfl, h4.inverse hL hes h1⟩⟩

/-- C10: a flip never fails on a consistent lamination, changes only the weight of the flipped edge, and gives a
consistent lamination on the target. -/
theorem C10_flip_keeps_consistent (T : Triangulation) (e : Int) (m : LMove) (hm : T.encodeFlip e = .ok m) (L : Lam R)
    (hL : L.Consistent) (hT : L.tri = T) : ∃ L', m.move.applyLam L = .ok L' ∧ L'.tri = m.move.target ∧ L'.Consistent ∧
      L'.cls = L.cls ∧ ∀ f, T.IsLabel f → f ≠ e → f ≠ inv e → L'.w f = L.w f := by
  subst hT
  have hv := hL.1.1
  by_cases hl : L.tri.IsLabel e
  · by_cases hf : L.tri.Flippable e
    · obtain ⟨T', h1, h2⟩ := hv.encodeFlip_eq hf
      rw [h2] at hm; cases hm
      have hd := disjoint_singleton.2 hf
      obtain ⟨L', rfl, h4⟩ := hL.flipsTo hd T'
      refine ⟨L', (ef_applyLam_iff hL.1 hf).2 ⟨rfl, h4⟩, rfl, h4.consistent hL hd h1, h4.cls, ?_⟩
      intro f hf h1 h2
      exact h4.kept f hf (by simpa using ⟨h1, h2⟩)
    · have := hv.comp.encodeMultiflip_assertionError (es := [e]) (by simpa using hl)
        (by simpa [disjoint_singleton] using hf)
      simp [encodeFlip, this] at hm
  · have := hv.comp.encodeMultiflip_keyError (es := [e]) (by simpa using hl)
    simp [encodeFlip, this] at hm

/-- C10 for multiflips. -/
theorem C10_multiflip_keeps_consistent (T : Triangulation) (es : List Int) (hes : T.DisjointSupport es) (m : LMove)
    (hm : T.encodeMultiflip es = .ok m) (L : Lam R) (hL : L.Consistent) (hT : L.tri = T) :
    ∃ L', m.move.applyLam L = .ok L' ∧ L'.tri = m.move.target ∧ L'.Consistent ∧
      L'.cls = L.cls ∧ ∀ f, T.IsLabel f → (∀ e ∈ es, f ≠ e ∧ f ≠ inv e) → L'.w f = L.w f := by
  subst hT
  obtain ⟨T', h1, h2⟩ := hL.1.1.encodeMultiflip_eq hes
  rw [h2] at hm; cases hm
  obtain ⟨L', rfl, h4⟩ := hL.flipsTo hes T'
  exact ⟨L', (mf_applyLam_iff hL.1 hes).2 ⟨rfl, h4⟩, rfl, h4.consistent hL hes h1, h4.cls, h4.kept⟩

/-- C09, C10: hence a flip is a bijection from the consistent laminations on the source to those on the target. -/
theorem C09_flip_bijective (T : Triangulation) (hT : T.Valid) (e : Int) (m : LMove) (hm : T.encodeFlip e = .ok m) :
    (∀ L : Lam R, L.Consistent → L.tri = T → ∃! L' : Lam R, m.move.applyLam L = .ok L' ∧ L'.Consistent ∧ L'.tri = m.move.target) ∧
    (∀ L' : Lam R, L'.Consistent → L'.tri = m.move.target → ∃! L : Lam R, m.move.applyLam L = .ok L' ∧ L.Consistent ∧ L.tri = T) := by
  have hb := C08_flip_back T hT e m hm
  constructor
  · intro L hL ht
    obtain ⟨L', h1, h2, h3, _⟩ := C10_flip_keeps_consistent T e m hm L hL ht
    refine ⟨L', ⟨h1, h3, h2⟩, ?_⟩
    rintro L'' ⟨h4, _⟩
    rw [h1] at h4; cases h4; rfl
  · intro L' hL' ht
    obtain ⟨L, h1, h2, h3, _⟩ := C10_flip_keeps_consistent m.move.target (inv e) m.inverse hb.1 L' hL' ht
    have := C09_flip_then_back m.move.target (inv e) m.inverse hb.1 L' L hL'.1 ht h1
    refine ⟨L, ⟨by simpa [LMove.inverse] using this.2.2.2, h3, h2.trans hb.2⟩, ?_⟩
    rintro L'' ⟨h4, h5, h6⟩
    have := C09_flip_then_back T e m hm L'' L' h5.1 h6 h4
    rw [h1] at this
    exact (Except.ok.inj this.2.2.2).symm

/-- the curve of slope (1, 1, 2) on the torus -/
def torusCurve : Lam Int := ⟨torus, [1, 1, 2], .curve⟩

theorem torusCurve_consistent : torusCurve.Consistent := by
  rw [Lam.consistent_iff]
  refine ⟨⟨torus_valid, by decide⟩, ?_⟩
  intro a b c h
  rcases h with h | h | h <;> simp [torusCurve, torus] at h <;>
    rcases h with ⟨rfl, rfl, rfl⟩ | ⟨rfl, rfl, rfl⟩ <;> intro _ _ _ <;> decide

example : (Move.flip ⟨torus, ⟨[⟨-3, 1, 0⟩, ⟨-2, -1, 2⟩]⟩, 0, ⟨1, 2, -2, -3, 0⟩⟩).applyLam torusCurve =
    .ok ⟨⟨[⟨-3, 1, 0⟩, ⟨-2, -1, 2⟩]⟩, [3, 1, 2], .curve⟩ := by decide

/-! ## C29 -/

end

/-- C29: for edges with disjoint support the multiflip exists and for every order of the edges flipping them one at a
time succeeds, ends at the same triangulation and does the same to laminations and to homology classes. -/
theorem C29_multiflip_is_its_flips (R : Type) [CommRing R] [LinearOrder R] [IsStrictOrderedRing R] [Halvable R]
    (T : Triangulation) (hT : T.Valid) (es : List Int) (hes : T.DisjointSupport es) (es' : List Int) (hp : es.Perm es') :
    ∃ m ms, T.encodeMultiflip es = .ok m ∧ flipOneByOne T es' = .ok ms ∧ m.move.target = endOf T ms ∧
      m.move.source = T ∧ T.IsMultiflip es m.move.target ∧
      (∀ L L' : Lam R, L.WellFormed → L.tri = T → (m.move.applyLam L = .ok L' ↔ performLam ms L = .ok L')) ∧
      (∀ h : Hom, h.WellFormed → h.tri = T → ∃ h', m.move.applyHom h = .ok h' ∧ performHom ms h = .ok h') := by
  obtain ⟨T', h1, h2⟩ := hT.encodeMultiflip_eq hes
  have hes' := hes.perm hT.comp hp
  obtain ⟨ms, h3, h4, h5, h6⟩ := flipOneByOne_ok (R := R) es' T hT hes'
  have ht : T' = endOf T ms := h1.unique hT.comp hes.1 (h4.of_mem_iff (fun e => hp.mem_iff.symm))
  refine ⟨_, ms, h2, h3, ht, rfl, h1, ?_, ?_⟩
  · intro L L' hL hLT
    subst hLT
    simp only [Move.applyLam]
    rw [mf_applyLam_iff hL hes, h5 L L' hL rfl, ht, Lam.flipsTo_iff hL hes.1, Lam.flipsTo_iff hL hes'.1]
    simp only [hp.mem_iff]
  · intro h hh hhT
    subst hhT
    obtain ⟨h', k1, k2, _, k3⟩ := mf_applyHom hh hes h1
    obtain ⟨h'', k4, k5, k6⟩ := h6 h hh rfl
    refine ⟨h', k1, ?_⟩
    have : Hom.FlipsTo es h h'' := ⟨k6.1, fun u => by rw [k6.2 u, (hp.map _).sum_eq]⟩
    rw [k4, Hom.FlipsTo.unique (by rw [k2, k5, ht]) k3 this]

/-- C29: a set of edges whose supports overlap is rejected, as is something that is not an edge. -/
theorem C29_overlapping_is_rejected (T : Triangulation) (hT : T.Valid) (es : List Int) (hn : es.Nodup) :
    ((∀ e ∈ es, T.IsLabel e) → ¬ T.DisjointSupport es → T.encodeMultiflip es = .error .assertionError) ∧
    ((∃ e ∈ es, ¬ T.IsLabel e) → T.encodeMultiflip es = .error .keyError) :=
  ⟨fun h1 h2 => hT.comp.encodeMultiflip_assertionError h1 (by rwa [hn.dedup]),
    fun h => hT.comp.encodeMultiflip_keyError h⟩

/-- a sphere with four punctures -/
def sphere4 : Triangulation := ⟨[⟨-6, -2, -4⟩, ⟨-5, -3, 5⟩, ⟨-1, 4, 3⟩, ⟨0, 1, 2⟩]⟩

theorem sphere4_valid : sphere4.Valid := ⟨by decide, by decide, by decide⟩

example : sphere4.DisjointSupport [0, 5] := by
  rw [sphere4_valid.comp.disjoint_iff (by decide)]; decide

example : ¬ sphere4.DisjointSupport [0, 1] := by
  rw [sphere4_valid.comp.disjoint_iff (by decide)]; decide

/-! ## C51 -/

section
variable {R : Type} [CommRing R] [LinearOrder R] [IsStrictOrderedRing R] [Halvable R]

/-- C51: if the arcs of a lamination in the square of `e` are described by `s` then the flip computes exactly the number
of arcs that cross the other diagonal (or minus the number of those parallel to it). -/
theorem C51_flip_counts_arcs (s : Strands R) (hn : s.NonNeg) (hx : s.NonCrossing) :
    flipWeight s.a s.b s.c s.d s.e = .ok s.e' := by
  have h1 := hn.tl; have h2 := hn.tr; have h3 := hn.bl; have h4 := hn.br; have h5 := hn.ac; have h6 := hn.bd
  have h7 := hn.aBL; have h8 := hn.aBR; have h9 := hn.bTR; have h10 := hn.bBR; have h11 := hn.cTL; have h12 := hn.cTR
  have h13 := hn.dTL; have h14 := hn.dBL
  rw [flipWeight_ok_iff (by unfold Strands.a; linarith) (by unfold Strands.b; linarith) (by unfold Strands.c; linarith)
    (by unfold Strands.d; linarith)]
  exact s.flipCase hn hx

/-- C51: every consistent system of weights of a square comes from such arcs, so on every consistent lamination the
flip of `e` is computed correctly. -/
theorem C51_flip_is_geometric (L : Lam R) (hL : L.Consistent) (e a b c d : Int) (m : LMove)
    (hm : L.tri.encodeFlip e = .ok m) (h1 : L.tri.Glues e a b) (h2 : L.tri.Glues (inv e) c d) (L' : Lam R)
    (h : m.move.applyLam L = .ok L') :
    ∃ s : Strands R, s.NonNeg ∧ s.NonCrossing ∧ s.a = max (L.w a) 0 ∧ s.b = max (L.w b) 0 ∧ s.c = max (L.w c) 0 ∧
      s.d = max (L.w d) 0 ∧ s.e = L.w e ∧ s.e' = L'.w e := by
  have hv := hL.1.1
  have hl := (hv.comp.label_of_glues h1).1
  by_cases hf : L.tri.Flippable e
  · obtain ⟨T', h3, h4⟩ := hv.encodeFlip_eq hf
    rw [h4] at hm; cases hm
    obtain ⟨rfl, h5⟩ := (ef_applyLam_iff hL.1 hf).1 h
    have h6 := h5.new e (by simp) a b c d h1 h2
    have hc := (Lam.consistent_iff.1 hL).2
    have t1 := triEven_max.2 (hc _ _ _ h1)
    have t2 := triEven_max.2 (hc _ _ _ h2)
    rw [L.w_inv] at t2
    rw [flipWeight_ok_iff (le_max_right _ _) (le_max_right _ _) (le_max_right _ _) (le_max_right _ _)] at h6
    obtain ⟨s, hs⟩ := Strands.exists_realises (le_max_right _ _) (le_max_right _ _) (le_max_right _ _) (le_max_right _ _)
      t1 t2 h6
    obtain ⟨k1, k2, k3, k4, k5, k6, k7⟩ := hs
    refine ⟨s, k1, k2, k3, k4, k5, k6, k7, ?_⟩
    have := s.flipCase k1 k2
    rw [k3, k4, k5, k6, k7] at this
    exact this.unique (le_max_right _ _) (le_max_right _ _) (le_max_right _ _) (le_max_right _ _) h6
  · have := hv.comp.encodeMultiflip_assertionError (es := [e]) (by simpa using hl)
      (by simpa [disjoint_singleton] using hf)
    simp [encodeFlip, this] at hm

/-- two arcs from `a` to `c`, a corner arc and an arc from `a` to a corner -/
def someStrands : Strands Int := ⟨0, 1, 0, 0, 2, 0, 1, 0, 0, 0, 0, 0, 0, 0, 0, 0⟩

example : someStrands.NonNeg ∧ someStrands.NonCrossing := by
  constructor <;> constructor <;> decide

end
end Curver
