import Verif.Proofs.UnionStrip

/-!
# The dictionaries of components
-/

namespace Curver
open Triangulation
namespace Lam
variable {α : Type} {val : α → Int} {Q : Lam Int → Prop} {T : Triangulation} {G : List (List Int)} {d : List (Lam Int × α)} {K : Lam Int} {v : α}

/-- every entry says how often it occurs, and no entry occurs twice -/
structure Tally (T : Triangulation) (Q : Lam Int → Prop) (val : α → Int) (G : List (List Int)) (d : List (Lam Int × α)) : Prop where
  tri : ∀ p ∈ d, p.1.tri = T
  kind : ∀ p ∈ d, Q p.1
  pos : ∀ p ∈ d, 0 < val p.2
  count : ∀ p ∈ d, (G.count p.1.geometric : Int) = val p.2
  apart : d.Pairwise (fun p q => p.1.geometric ≠ q.1.geometric)

/-- the weights of the keys -/
def keys (d : List (Lam Int × α)) : List (List Int) := d.map (fun p => p.1.geometric)

theorem mem_keys_set {g : List Int} : g ∈ keys (setComponent d K v) ↔ g ∈ keys d ∨ g = K.geometric := by
  induction d with
  | nil => simp [setComponent, keys]
  | cons p d ih =>
    obtain ⟨J, u⟩ := p
    rw [setComponent]
    unfold keys at ih ⊢
    split
    · next h =>
      have := (eqv_spec.1 h).2
      simp only [List.map_cons, List.mem_cons]
      constructor
      · rintro (h | h)
        · exact .inl (.inl h)
        · exact .inl (.inr h)
      · rintro ((h | h) | h)
        · exact .inl h
        · exact .inr h
        · exact .inl (by rw [h, this])
    · simp only [List.map_cons, List.mem_cons]
      rw [ih]
      constructor
      · rintro (h | h | h)
        · exact .inl (.inl h)
        · exact .inl (.inr h)
        · exact .inr h
      · rintro ((h | h) | h)
        · exact .inl h
        · exact .inr (.inl h)
        · exact .inr (.inr h)

theorem pairwise_keys : d.Pairwise (fun p q => p.1.geometric ≠ q.1.geometric) ↔ (keys d).Nodup := by
  unfold keys List.Nodup
  rw [List.pairwise_map]

theorem Tally.nil : Tally T Q val G [] := ⟨by simp, by simp, by simp, by simp, .nil⟩

theorem Tally.set (h : Tally T Q val G d) (h1 : K.tri = T) (h2 : Q K) (h3 : 0 < val v) (h4 : (G.count K.geometric : Int) = val v) : Tally T Q val G (setComponent d K v) := by
  induction d with
  | nil =>
    simp only [setComponent]
    refine ⟨?_, ?_, ?_, ?_, ?_⟩ <;> simp [h1, h2, h3, h4]
  | cons p d ih =>
    obtain ⟨J, u⟩ := p
    have hJ := fun {P : Lam Int × α → Prop} (hp : ∀ p ∈ (J, u) :: d, P p) => hp (J, u) (by simp)
    have hd : Tally T Q val G d := ⟨fun p hp => h.tri p (by simp [hp]), fun p hp => h.kind p (by simp [hp]), fun p hp => h.pos p (by simp [hp]), fun p hp => h.count p (by simp [hp]),
      (List.pairwise_cons.1 h.apart).2⟩
    have ha := (List.pairwise_cons.1 h.apart).1
    rw [setComponent]
    split
    · next e =>
      have e := (eqv_spec.1 e).2
      refine ⟨?_, ?_, ?_, ?_, List.pairwise_cons.2 ⟨fun q hq => ha q hq, hd.apart⟩⟩
      · intro p hp
        rcases List.mem_cons.1 hp with rfl | hp
        · exact hJ h.tri
        · exact hd.tri p hp
      · intro p hp
        rcases List.mem_cons.1 hp with rfl | hp
        · exact hJ h.kind
        · exact hd.kind p hp
      · intro p hp
        rcases List.mem_cons.1 hp with rfl | hp
        · exact h3
        · exact hd.pos p hp
      · intro p hp
        rcases List.mem_cons.1 hp with rfl | hp
        · change (G.count J.geometric : Int) = _
          rw [e]; exact h4
        · exact hd.count p hp
    · next e =>
      have i := ih hd
      refine ⟨?_, ?_, ?_, ?_, List.pairwise_cons.2 ⟨?_, i.apart⟩⟩
      · intro p hp
        rcases List.mem_cons.1 hp with rfl | hp
        · exact hJ h.tri
        · exact i.tri p hp
      · intro p hp
        rcases List.mem_cons.1 hp with rfl | hp
        · exact hJ h.kind
        · exact i.kind p hp
      · intro p hp
        rcases List.mem_cons.1 hp with rfl | hp
        · exact hJ h.pos
        · exact i.pos p hp
      · intro p hp
        rcases List.mem_cons.1 hp with rfl | hp
        · exact hJ h.count
        · exact i.count p hp
      · intro q hq hne
        have : q.1.geometric ∈ keys (setComponent d K v) := List.mem_map.2 ⟨q, hq, rfl⟩
        rcases mem_keys_set.1 this with k | k
        · obtain ⟨r, hr, k⟩ := List.mem_map.1 k
          exact ha r hr (hne.trans k.symm)
        · refine e (eqv_spec.2 ⟨?_, hne.trans k⟩)
          rw [hJ h.tri, h1]

/-- the entries, each as often as the dictionary says -/
def flat (d : List (Lam Int × Int)) : List (Lam Int) := d.flatMap (fun p => List.replicate p.2.toNat p.1)

theorem count_flat {d : List (Lam Int × Int)} (h : (keys d).Nodup) (g : List Int) :
    (∀ p ∈ d, p.1.geometric = g → ((flat d).map Lam.geometric).count g = p.2.toNat) ∧ (g ∉ keys d → ((flat d).map Lam.geometric).count g = 0) := by
  induction d with
  | nil => simp [flat]
  | cons p d ih =>
    have hn : p.1.geometric ∉ keys d ∧ (keys d).Nodup := List.nodup_cons.1 h
    obtain ⟨i1, i2⟩ := ih hn.2
    have e : ((flat (p :: d)).map Lam.geometric).count g = (if p.1.geometric = g then p.2.toNat else 0) + ((flat d).map Lam.geometric).count g := by
      unfold flat
      rw [List.flatMap_cons, List.map_append, List.count_append, List.map_replicate, List.count_replicate]
      simp only [beq_iff_eq]
    rw [e]
    constructor
    · intro q hq hg
      rcases List.mem_cons.1 hq with rfl | hq
      · rw [if_pos hg, i2 (by rw [← hg]; exact hn.1), add_zero]
      · rw [if_neg, i1 q hq hg, zero_add]
        intro k
        exact hn.1 (List.mem_map.2 ⟨q, hq, hg.trans k.symm⟩)
    · intro hg
      unfold keys at hg
      rw [List.map_cons, List.mem_cons, not_or] at hg
      rw [if_neg (fun k => hg.1 k.symm), i2 hg.2]

/-- a complete dictionary describes the decomposition -/
theorem Tally.perm {d : List (Lam Int × Int)} (h : Tally T Q id G d) (hall : ∀ g ∈ G, g ∈ keys d) : G.Perm ((flat d).map Lam.geometric) := by
  rw [List.perm_iff_count]
  intro g
  have hk := pairwise_keys.1 h.apart
  obtain ⟨c1, c2⟩ := count_flat hk g
  by_cases q : g ∈ keys d
  · obtain ⟨p, hp, e⟩ := List.mem_map.1 q
    rw [c1 p hp e, ← e]
    have := h.count p hp
    simp only [id_eq] at this
    omega
  · rw [c2 q, List.count_eq_zero.2 (fun hg => q (hall g hg))]

end Lam
end Curver
