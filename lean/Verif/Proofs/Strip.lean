import Verif.Proofs.Surface
import Verif.Model.Load

namespace Curver
open Triangulation

theorem mem_pyRange {a b x : Int} : x ∈ pyRange a b ↔ a ≤ x ∧ x < b := by
  unfold pyRange
  simp only [List.mem_map, List.mem_range]
  constructor
  · rintro ⟨i, hi, rfl⟩; omega
  · rintro ⟨h1, h2⟩; exact ⟨(x - a).toNat, by omega, by omega⟩

theorem length_pyRange (a b : Int) : (pyRange a b).length = (b - a).toNat := by simp [pyRange]

namespace Triangulation
variable {T : Triangulation}

/-- the same tail, both labels -/
def E (T : Triangulation) (x y : Int) : Prop := T.IsLabel x ∧ T.SV x y

section
variable (hT : T.Complete)
include hT

theorem E.symm' {x y : Int} (h : T.E x y) : T.E y x := ⟨hT.sv_label h.1 h.2, hT.sv_symm h.1 h.2⟩

theorem E.trans' {x y z : Int} (h : T.E x y) (h' : T.E y z) : T.E x z := ⟨h.1, hT.sv_trans h.1 h.2 h'.2⟩

theorem E.of_glues {a b c : Int} (h : T.Glues a b c) : T.E a (inv c) ∧ T.E b (inv a) ∧ T.E c (inv b) := by
  have r1 : T.Glues b c a := by unfold Glues at *; tauto
  have r2 : T.Glues c a b := by unfold Glues at *; tauto
  have l := hT.label_of_glues h
  have l1 := hT.label_of_glues r1
  have l2 := hT.label_of_glues r2
  exact ⟨⟨l.1, hT.sv_glues (b := b) (by rw [inv_inv]; exact h)⟩, ⟨l1.1, hT.sv_glues (b := c) (by rw [inv_inv]; exact r1)⟩,
    ⟨l2.1, hT.sv_glues (b := a) (by rw [inv_inv]; exact r2)⟩⟩

end

/-- a bigon with sides `p` and `p + 3 n - 2` and `n - 1` punctures -/
structure Strip (T : Triangulation) (p n : Int) : Prop where
  two : 2 ≤ n
  A : ∀ i, 0 ≤ i → i < n - 1 → T.Glues (inv (p + 2 * i)) (p + 2 * i + 2) (p + 2 * i + 3)
  C : T.Glues (p + 2 * n) (inv (p + 2 * n - 1)) (inv (p + 2 * n - 2))
  B : ∀ i, 1 ≤ i → i < n - 1 → T.Glues (p + 2 * n + i) (inv (p + 2 * n - 1 - 2 * i)) (inv (p + 2 * n - 1 + i))

namespace Strip
variable {p n : Int} (hT : T.Complete) (h : T.Strip p n)
include hT h

theorem s1 (i : Nat) (hi : (i : Int) ≤ n - 1) : T.E (p + 2 * i) p := by
  induction i with
  | zero =>
    have h0 := h.two
    have := (E.of_glues hT (h.A 0 (by omega) (by omega))).1.1
    have : T.IsLabel p := by
      have := isLabel_inv.2 this
      rw [inv_inv] at this; simpa using this
    simp only [Nat.cast_zero, mul_zero, add_zero]
    exact ⟨this, hT.sv_refl this⟩
  | succ i ih =>
    have := (E.of_glues hT (h.A i (by omega) (by push_cast at hi; omega))).2.1
    rw [inv_inv] at this
    have e := E.trans' hT this (ih (by push_cast at hi; omega))
    convert e using 1; push_cast; ring

theorem s2 (i : Nat) (hi : (i : Int) ≤ n - 2) : T.E (p + 2 * n + i) p := by
  have h0 := h.two
  induction i with
  | zero =>
    have := (E.of_glues hT h.C).1
    rw [inv_inv] at this
    have e := E.trans' hT this (by have := s1 hT h (n - 1).toNat (by omega); convert this using 1; omega)
    simpa using e
  | succ i ih =>
    have := (E.of_glues hT (h.B (i + 1) (by omega) (by push_cast at hi; omega))).1
    rw [inv_inv] at this
    refine E.trans' hT (by push_cast; exact this) ?_
    have := ih (by push_cast at hi; omega)
    convert this using 1; omega

theorem s4 (i : Int) (h1 : 1 ≤ i) (hi : i ≤ n - 1) : T.E (p + 2 * i + 1) (inv (p + 2 * i)) := by
  have := (E.of_glues hT (h.A (i - 1) (by omega) (by omega))).2.2
  rwa [show p + 2 * (i - 1) + 3 = p + 2 * i + 1 by ring, show p + 2 * (i - 1) + 2 = p + 2 * i by ring] at this

theorem s5 (i : Int) (h1 : 1 ≤ i) (hi : i ≤ n - 1) : T.E (inv (p + 2 * i + 1)) (inv (p + 2 * (i - 1))) := by
  have := E.symm' hT (E.of_glues hT (h.A (i - 1) (by omega) (by omega))).1
  convert this using 2; omega

theorem s6 (i : Int) (h1 : 0 ≤ i) (hi : i ≤ n - 2) : T.E (inv (p + 2 * n + i)) (inv (p + 2 * (n - 2 - i))) := by
  have h0 := h.two
  have a := s5 hT h (n - 1 - i) (by omega) (by omega)
  have b : T.E (inv (p + 2 * (n - 1 - i) + 1)) (inv (p + 2 * n + i)) := by
    rcases eq_or_lt_of_le h1 with h2 | h2
    · have := (E.of_glues hT h.C).2.1
      subst h2
      convert this using 2 <;> omega
    · have := (E.of_glues hT (h.B i (by omega) (by omega))).2.1
      convert this using 2; omega
  have := E.trans' hT (E.symm' hT b) a
  convert this using 2; omega

theorem sides : T.E (p + 3 * n - 2) p ∧ T.E (inv (p + 3 * n - 2)) (inv p) := by
  have h0 := h.two
  constructor
  · have := s2 hT h (n - 2).toNat (by omega)
    convert this using 1; omega
  · have := s6 hT h (n - 2) (by omega) (by omega)
    convert this using 2 <;> omega

end Strip

/-- which puncture is at the tail of a label -/
def stripTail (p n : Int) (e : Int) : Nat :=
  if 0 ≤ e then
    if p + 2 ≤ e ∧ e ≤ p + 2 * n - 1 ∧ (e - p) % 2 = 1 then ((e - p - 1) / 2).toNat else 0
  else if p + 2 ≤ inv e ∧ inv e ≤ p + 2 * n - 1 then
    if (inv e - p) % 2 = 0 then ((inv e - p) / 2).toNat else ((inv e - p - 3) / 2).toNat
  else if p + 2 * n ≤ inv e ∧ inv e ≤ p + 3 * n - 2 then (n - 2 - (inv e - p - 2 * n)).toNat
  else 0

theorem Strip.surface {p n : Int} (h : T.Strip p n) (hT : T.Valid) (hp : 0 ≤ p) {g : Nat}
    (hbase : ∀ e, T.IsLabel e → ¬ (p + 2 ≤ norm e ∧ norm e ≤ p + 3 * n - 2) → T.E e 0)
    (h1 : ∀ a b c, T.Glues a b c → stripTail p n a = stripTail p n (inv c)) (hz : (T.zeta : Int) = 6 * g + 3 * n - 6) (hpz : p + 3 * n - 2 < T.zeta) :
    T.numVertices = .ok n.toNat ∧ T.isConnected = .ok true ∧ T.surface = .ok [(T.labels, ((g : Int), n, 2 - 2 * (g : Int) - n))] := by
  have h0 := h.two
  have hc := hT.comp
  have bp : T.E p 0 := hbase p ⟨by omega, by omega⟩ (by rw [norm_of_nonneg hp]; omega)
  have bip : T.E (inv p) 0 := hbase (inv p) (isLabel_inv.2 ⟨by omega, by omega⟩) (by rw [norm_inv, norm_of_nonneg hp]; omega)
  have b0 : T.E 0 0 := E.trans' hc (E.symm' hc bp) bp
  have key := hT.surface_of_tails (g := g) (n := n.toNat) (by omega) (stripTail p n) (fun i => if i = 0 then 0 else inv (p + 2 * i)) h1 ?_ ?_ ?_ (by omega)
  · have hn' : ((n.toNat : Nat) : Int) = n := by omega
    rwa [hn'] at key
  · intro i hi
    split
    · rename_i h; subst h
      refine ⟨b0.1, ?_⟩
      unfold stripTail
      rw [if_pos le_rfl, if_neg (by omega)]
    · refine ⟨isLabel_inv.2 ⟨by omega, by omega⟩, ?_⟩
      unfold stripTail
      rw [inv_inv, if_neg (by unfold inv; omega), if_pos (by omega), if_pos (by omega)]
      omega
  · intro e he
    -- every label shares its tail with its representative
    have rep0 : ∀ k : Int, 0 ≤ k → k ≤ n - 1 → T.E (inv (p + 2 * k)) (if k.toNat = 0 then 0 else inv (p + 2 * (k.toNat : Int))) := by
      intro k hk hk'
      split
      · have : k = 0 := by omega
        subst this; simpa using bip
      · have : ((k.toNat : Nat) : Int) = k := by omega
        rw [this]
        have hl : T.IsLabel (inv (p + 2 * k)) := isLabel_inv.2 ⟨by omega, by omega⟩
        exact ⟨hl, hc.sv_refl hl⟩
    unfold IsLabel at he
    by_cases hb : p + 2 ≤ norm e ∧ norm e ≤ p + 3 * n - 2
    · rcases lt_or_ge e 0 with hneg | hpos
      · have hn1 : norm e = inv e := by unfold norm inv; omega
        rw [hn1] at hb
        generalize hk : inv e - p = k at *
        have hek : e = inv (p + k) := by unfold inv at *; omega
        by_cases c1 : k ≤ 2 * n - 1
        · rcases Int.emod_two_eq_zero_or_one k with hpar | hpar
          · have ht : stripTail p n e = (k / 2).toNat := by
              unfold stripTail
              rw [if_neg (by omega), if_pos (by omega), if_pos (by omega)]; congr 1; omega
            rw [ht]
            refine ⟨by omega, ?_⟩
            have := rep0 (k / 2) (by omega) (by omega)
            rw [show p + 2 * (k / 2) = p + k by omega, ← hek] at this
            exact this.2
          · have ht : stripTail p n e = ((k - 3) / 2).toNat := by
              unfold stripTail
              rw [if_neg (by omega), if_pos (by omega), if_neg (by omega)]; congr 1; omega
            rw [ht]
            refine ⟨by omega, ?_⟩
            have h2 := Strip.s5 hc h ((k - 1) / 2) (by omega) (by omega)
            rw [show p + 2 * ((k - 1) / 2) + 1 = p + k by omega, ← hek] at h2
            have := E.trans' hc h2 (by have := rep0 ((k - 3) / 2) (by omega) (by omega); convert this using 3; omega)
            exact this.2
        · have ht : stripTail p n e = (n - 2 - (k - 2 * n)).toNat := by
            unfold stripTail
            rw [if_neg (by omega), if_neg (by omega), if_pos (by omega)]; congr 1; omega
          rw [ht]
          refine ⟨by omega, ?_⟩
          have h2 := Strip.s6 hc h (k - 2 * n) (by omega) (by omega)
          rw [show p + 2 * n + (k - 2 * n) = p + k by omega, ← hek] at h2
          exact (E.trans' hc h2 (rep0 _ (by omega) (by omega))).2
      · have hn1 : norm e = e := norm_of_nonneg hpos
        rw [hn1] at hb
        generalize hk : e - p = k at *
        have hek : e = p + k := by omega
        by_cases c1 : k ≤ 2 * n - 1
        · rcases Int.emod_two_eq_zero_or_one k with hpar | hpar
          · have ht : stripTail p n e = 0 := by
              unfold stripTail
              rw [if_pos (by omega), if_neg (by omega)]
            rw [ht]
            refine ⟨by omega, ?_⟩
            have := Strip.s1 hc h (k / 2).toNat (by omega)
            have := E.trans' hc this bp
            rw [show p + 2 * (((k / 2).toNat : Nat) : Int) = e by omega] at this
            exact this.2
          · have ht : stripTail p n e = ((k - 1) / 2).toNat := by
              unfold stripTail
              rw [if_pos (by omega), if_pos (by omega)]; congr 1; omega
            rw [ht]
            refine ⟨by omega, ?_⟩
            have h2 := Strip.s4 hc h ((k - 1) / 2) (by omega) (by omega)
            rw [show p + 2 * ((k - 1) / 2) + 1 = e by omega] at h2
            exact (E.trans' hc h2 (rep0 _ (by omega) (by omega))).2
        · have ht : stripTail p n e = 0 := by
            unfold stripTail
            rw [if_pos (by omega), if_neg (by omega)]
          rw [ht]
          refine ⟨by omega, ?_⟩
          have := E.trans' hc (Strip.s2 hc h (k - 2 * n).toNat (by omega)) bp
          rw [show p + 2 * n + (((k - 2 * n).toNat : Nat) : Int) = e by omega] at this
          exact this.2
    · have ht : stripTail p n e = 0 := by
        unfold norm inv at hb
        unfold stripTail inv
        split
        · rw [if_neg (by omega)]
        · rw [if_neg (by omega), if_neg (by omega)]
      rw [ht]
      exact ⟨by omega, (hbase e he hb).2⟩
  · intro i hi
    rw [if_pos rfl]
    split
    · exact .refl
    · rename_i h2
      have := Strip.s1 hc h i (by omega)
      have := E.trans' hc this bp
      exact ((T.joined_inv _).symm).trans (hc.sv_joined this.1 this.2)

end Triangulation
end Curver
