import Verif.Proofs.ShortenShort
import Verif.Props.Shorten

/-!
# C63: weights are intersection numbers with edges
-/

namespace Curver
open Triangulation

/-- C63: the arc along the edge `a` is not changed by `shorten`, and its intersection number with a lamination is the number of times that the lamination crosses the edge:
`max(L(a), 0)`. -/
theorem C63_edge (P : Lam Int → Py LamClass) (dflt slow : Int → Int → Bool) (n : Nat) (T : Triangulation) (hT : T.Valid) (a : Int) (ha : T.IsLabel a) :
    (∃ i, T.idEncoding = .ok i ∧ (T.edgeArcOf a : Lam Int).shortenAll P dflt (n + 2) slow = .ok (T.edgeArcOf a, i)) ∧
    ∀ (R : Type) [CommRing R] [LinearOrder R] [IsStrictOrderedRing R] [Halvable R] (L : Lam R), L.WellFormed → L.tri = T →
      (T.edgeArcOf a : Lam Int).intersectionAll P dflt (n + 2) L = .ok (max (L.w a) 0) := by
  have h := Lam.IsEdgeArc.of_edge ha
  obtain ⟨i, h1, h2⟩ := h.short hT P
  have hb : (T.edgeArcOf a : Lam Int).isShort P = .ok true := by
    unfold Lam.isShort
    rw [h.cls]
    dsimp only
    rw [h.isShort]
    rfl
  refine ⟨⟨i, h1, Lam.shortenAll_of_shorten h2 hb dflt slow n⟩, ?_⟩
  intro R _ _ _ _ L hL ht
  rw [Lam.intersectionAll_of_shorten h2 hb]
  exact h.intersection hT P hL ht

/-- C63 (defect): `intersection` is not symmetric.  On the sphere with four punctures let `c` be the sum of a curve and of the loop around a vertex, and `a` the arc along the
edge 1.  Then `c` crosses the edge once, `a.intersection(c)` is `1` and `c.intersection(a)` is `3`: lamination.py:328-330 looks for the ends of `a` at the vertices of the
triangulation that `c` is short in. -/
theorem C63_not_symmetric : ∃ c : Lam Int, c.NoArcs ∧ c.tri = sphere4 ∧ (∃ x y : Lam Int, x.tri = sphere4 ∧ x.geometric = [0, 1, 1, 1, 1, 0] ∧ y.tri = sphere4 ∧
    y.geometric = [0, 0, 0, 1, 1, 1] ∧ c.geometric = List.zipWith (· + ·) x.geometric y.geometric) ∧
    (sphere4.edgeArcOf 1 : Lam Int).intersectionAll (fun _ => .ok .multicurve) neverSlow 20 c = .ok 1 ∧
    c.intersectionAll (fun _ => .ok .multicurve) neverSlow 20 (sphere4.edgeArcOf 1 : Lam Int) = .ok 3 := by
  refine ⟨⟨sphere4, [0, 1, 1, 2, 2, 1], .multicurve⟩, ?_, rfl, ⟨⟨sphere4, [0, 1, 1, 1, 1, 0], .curve⟩, ⟨sphere4, [0, 0, 0, 1, 1, 1], .curve⟩, rfl, rfl, rfl, rfl, rfl⟩, ?_, ?_⟩
  · rw [Lam.noArcs_iff, Lam.consistent_iff]
    refine ⟨⟨⟨⟨by decide, by decide, by decide⟩, by decide⟩, ?_⟩, ?_⟩
    · intro a b c h
      rcases h with h | h | h <;> simp [sphere4] at h <;>
        rcases h with ⟨rfl, rfl, rfl⟩ | ⟨rfl, rfl, rfl⟩ | ⟨rfl, rfl, rfl⟩ | ⟨rfl, rfl, rfl⟩ <;> intro _ _ _ <;> decide
    · intro a b c h
      rcases h with h | h | h <;> simp [sphere4] at h <;>
        rcases h with ⟨rfl, rfl, rfl⟩ | ⟨rfl, rfl, rfl⟩ | ⟨rfl, rfl, rfl⟩ | ⟨rfl, rfl, rfl⟩ <;> decide
  · decide +kernel
  · decide +kernel

end Curver
