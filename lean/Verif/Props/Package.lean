import Verif.Proofs.Package
import Verif.Props.Encoding

/-!
# C19: packaging and pickling encodings

Pickling stores the source triangulation and `package()` and rebuilds with `Triangulation.encode`.  A set or dictionary may
come back with its elements in another order: `SameData`.
-/

namespace Curver
open Triangulation

theorem Enc.equal_reduced {S T : Triangulation} {s s' : List LMove} (h : Path S s.reverse T) (h' : Path S s'.reverse T)
    (he : List.Forall₂ LMove.Equal s s') (ht : Enc.trim s = s) : Enc.trim s' = s' := by
  have key : ∀ {l l' : List LMove}, List.Forall₂ LMove.Equal l l' → (∀ m ∈ l, m.Legal) → (∀ m ∈ l', m.Legal) →
      l.map Enc.isId = l'.map Enc.isId := by
    intro l l' h
    induction h with
    | nil => intros; rfl
    | cons hm hms ih =>
      intro h1 h2
      simp only [List.map_cons, ih (fun m hm => h1 m (by simp [hm])) (fun m hm => h2 m (by simp [hm]))]
      congr 1
      exact ((h1 _ (by simp)).eq_acts (h2 _ (by simp)) hm.1).2.2.1
  have hk := key he (fun m hm => h.legal m (by simpa using hm)) (fun m hm => h'.legal m (by simpa using hm))
  have hlen := he.length_eq
  by_cases hn : s = []
  · subst hn; cases he; rfl
  have hn' : s' ≠ [] := by rintro rfl; cases he; exact hn rfl
  rw [← Enc.reduced_iff (h := ⟨.encoding, s, S, T⟩) hn] at ht
  rw [← Enc.reduced_iff (h := ⟨.encoding, s', S, T⟩) hn']
  unfold Enc.Reduced at ht ⊢
  dsimp only at ht ⊢
  rw [← hlen]
  refine ht.imp_right ?_
  have h1 := congrArg List.head? hk
  have h2 := congrArg List.getLast? hk
  rw [List.head?_map, List.head?_map] at h1
  rw [List.getLast?_map, List.getLast?_map] at h2
  rintro ⟨a, b⟩
  constructor
  · intro m hm
    rw [hm] at h1
    cases hs : s.head? with
    | none => rw [hs] at h1; cases h1
    | some n =>
      rw [hs] at h1
      have := a n hs
      simp only [Option.map_some, Option.some.injEq, Enc.isId] at h1
      rw [← h1]; exact this
  · intro m hm
    rw [hm] at h2
    cases hs : s.getLast? with
    | none => rw [hs] at h2; cases h2
    | some n =>
      rw [hs] at h2
      have := b n hs
      simp only [Option.map_some, Option.some.injEq, Enc.isId] at h2
      rw [← h2]; exact this

/-- C19: what is unpickled has the same source and target and acts in the same way; its class is the finest possible one.
When the constructor had nothing to drop from `h` it even consists of the same (equal) moves. -/
theorem C19_rebuild (h : Enc) (hh : h.Legal) (data : List EncItem) (hd : List.Forall₂ EncItem.SameData h.package data) :
    ∃ k, Enc.unpickle h.source data = .ok k ∧ k.Legal ∧ k.SameAction h ∧
      k.kind = (if h.source = h.target then .mappingClass else .mapping) ∧
      (h.Reduced → List.Forall₂ LMove.Equal h.sequence k.sequence) := by
  have hd' : List.Forall₂ EncItem.SameData (h.performed.map (fun m => m.move.package)) data.reverse := by
    rw [Enc.performed, List.map_reverse, List.forall₂_reverse_iff]; exact hd
  obtain ⟨ms', h1, h2⟩ := hh.path.rebuild hd'
  have hne : ms' ≠ [] := by
    rintro rfl
    have := h2.length_eq
    rw [Enc.performed, List.length_reverse] at this
    exact hh.nonempty (List.length_eq_zero_iff.1 this)
  have h3 := h1.encode hne
  rw [List.reverse_reverse] at h3
  have hp : Path h.source ms'.reverse.reverse h.target := by rw [List.reverse_reverse]; exact h1.path
  have hne' : ms'.reverse ≠ [] := by simpa using hne
  have hs := Enc.sameMap_trim_trim (if h.source = h.target then .mappingClass else .mapping) h.kind hp
  refine ⟨_, h3, Enc.legal_mk _ (Enc.trim_ne_nil hne') (Enc.path_trim hp) ?_, ⟨rfl, rfl, ?_, ?_⟩, rfl, ?_⟩
  · intro hk; by_contra hc; rw [if_neg hc] at hk; cases hk
  · intro R _ _ _ _ L hL
    rw [hs.lam R L hL.1, Enc.applyLam_eq, Enc.applyLam_eq]
    dsimp only
    by_cases ht : h.source = L.tri
    · rw [if_pos ht, if_pos ht, Enc.performed, List.reverse_reverse]
      exact (hh.path.equal_performLam h1.path h2 hL ht.symm).symm
    · rw [if_neg ht, if_neg ht]
  · intro x hx
    rw [hs.hom x hx, Enc.applyHom_eq, Enc.applyHom_eq]
    dsimp only
    by_cases ht : h.source = x.tri
    · rw [if_pos ht, if_pos ht, Enc.performed, List.reverse_reverse]
      exact (hh.path.equal_performHom h1.path h2 hx ht.symm).symm
    · rw [if_neg ht, if_neg ht]
  · intro hr
    have he : List.Forall₂ LMove.Equal h.sequence ms'.reverse := by
      have := List.forall₂_reverse_iff.2 h2
      rwa [Enc.performed, List.reverse_reverse] at this
    have hr' := (Enc.reduced_iff hh.nonempty).1 hr
    have := Enc.equal_reduced hh.path hp he hr'
    dsimp only
    rw [this, this]
    exact he

/-- C19: equal moves are interchangeable, so the list of moves above determines the map. -/
theorem C19_equal_moves (m m' : LMove) (h : m.Legal) (h' : m'.Legal) (he : m.Equal m') :
    m.move.source = m'.move.source ∧ m.move.target = m'.move.target ∧
      (∀ (R : Type) [CommRing R] [LinearOrder R] [IsStrictOrderedRing R] [Halvable R] (L L' : Lam R), L.WellFormed → L.tri = m.move.source →
        (m.move.applyLam L = .ok L' ↔ m'.move.applyLam L = .ok L')) ∧
      ∀ x : Hom, x.WellFormed → x.tri = m.move.source → m.move.applyHom x = m'.move.applyHom x := by
  obtain ⟨a, b, _, c, d⟩ := h.eq_acts h' he.1
  exact ⟨a, b, c, d⟩

/-- the hypotheses are met by a mapping class with a flip and a relabelling, whose dictionary is read in another order -/
example : List.Forall₂ EncItem.SameData torusTwist.package
    [.dict [(2, -3), (0, 1), (1, 0), (-1, -2), (-2, -1), (-3, 2)], .flip 0] := by
  have : torusTwist.package.length = 2 ∧ (torusTwist.package[0]? = some (.dict [(0, 1), (1, 0), (2, -3), (-1, -2), (-2, -1), (-3, 2)])) ∧
    torusTwist.package[1]? = some (.flip 0) := ⟨by decide +kernel, rfl, rfl⟩
  obtain ⟨h1, h2, h3⟩ := this
  match hp : torusTwist.package, h1 with
  | [a, b], _ =>
    rw [hp] at h2 h3
    cases h2; cases h3
    exact .cons (.dict _ _ (by decide)) (.cons (.flip 0) .nil)

end Curver
