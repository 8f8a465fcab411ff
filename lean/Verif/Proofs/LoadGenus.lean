import Verif.Proofs.LoadFamilies

namespace Curver
open Triangulation

/-- the part of the triples of `S_g_n` away from the punctured bigon -/
structure Fins (T : Triangulation) (g p' z : Int) : Prop where
  F1 : ∀ i, 0 ≤ i → i < g → T.Glues (5 * i) (5 * i + 1) (5 * i + 2)
  F2 : ∀ i, 0 ≤ i → i < g → T.Glues (inv (5 * i + 1)) (5 * i + 3) (5 * i + 4)
  F3 : ∀ i, 0 ≤ i → i < g - 1 → T.Glues (inv (5 * i + 2)) (inv (5 * i + 3)) (inv (5 * i + 4))
  F4 : T.Glues (inv (5 * (g - 1) + 2)) (inv p') (inv (5 * (g - 1) + 4))
  s1 : T.E p' (5 * (g - 1) + 3)
  s2 : T.E (inv p') (inv (5 * (g - 1) + 3))
  C0 : T.Glues (inv 0) (inv 5) z
  C1 : ∀ i, 0 ≤ i → i < g - 4 → T.Glues (z + 1 + i) (inv (z + i)) (inv (5 * i + 10))
  C2 : T.Glues (inv (z + g - 4)) (inv (5 * g - 10)) (inv (5 * g - 5))

theorem Fins.same {T : Triangulation} (hT : T.Complete) {g p' z : Int} (hg : 4 ≤ g) (h : Fins T g p' z) (k : Int)
    (hk : (0 ≤ k ∧ k < 5 * g) ∨ (z ≤ k ∧ k ≤ z + g - 4)) : T.E k 0 ∧ T.E (inv k) 0 := by
  have S : ∀ {x y}, T.E x y → T.E y x := fun h => E.symm' hT h
  have R : ∀ {x y w}, T.E x y → T.E y w → T.E x w := fun h h' => E.trans' hT h h'
  have refl : ∀ x, T.IsLabel x → T.E x x ∧ T.E (inv x) (inv x) := fun x hx => ⟨⟨hx, hT.sv_refl hx⟩, ⟨isLabel_inv.2 hx, hT.sv_refl (isLabel_inv.2 hx)⟩⟩
  have fin : ∀ i j : Int, 0 ≤ i → i < g → 0 ≤ j → j < 5 → T.E (5 * i + j) (5 * i) ∧ T.E (inv (5 * i + j)) (5 * i) := by
    intro i j hi hi' hj hj'
    have f1 := h.F1 i hi hi'
    have f2 := h.F2 i hi hi'
    have r := (refl _ (E.of_glues hT f1).1.1).1
    have key : T.E (inv (5 * i)) (5 * i) ∧ T.E (5 * i + 1) (5 * i) ∧ T.E (inv (5 * i + 1)) (5 * i) ∧ T.E (5 * i + 2) (5 * i) ∧ T.E (inv (5 * i + 2)) (5 * i) ∧
        T.E (5 * i + 3) (5 * i) ∧ T.E (inv (5 * i + 3)) (5 * i) ∧ T.E (5 * i + 4) (5 * i) ∧ T.E (inv (5 * i + 4)) (5 * i) := by
      by_cases hl : i < g - 1
      · have f3 := h.F3 i hi hl
        have r3 := refl _ (E.of_glues hT f2).2.1.1
        exact fin_same hT f1 f2 f3 r3.1 r3.2
      · have : i = g - 1 := by omega
        subst this
        exact fin_same hT f1 f2 h.F4 h.s1 h.s2
    obtain ⟨k1, k2, k3, k4, k5, k6, k7, k8, k9⟩ := key
    have : j = 0 ∨ j = 1 ∨ j = 2 ∨ j = 3 ∨ j = 4 := by omega
    rcases this with rfl | rfl | rfl | rfl | rfl
    · rw [add_zero]; exact ⟨r, k1⟩
    all_goals constructor <;> assumption
  have fin' : ∀ i : Int, 0 ≤ i → i < g → T.E (inv (5 * i)) (5 * i) := by
    intro i h1 h2
    have := (fin i 0 h1 h2 (by decide) (by decide)).2
    rwa [add_zero] at this
  obtain ⟨c1, c2, c3⟩ := E.of_glues hT h.C0
  rw [inv_inv] at c2 c3
  have i0 : T.E (inv 0) 0 := by have := fin' 0 (by omega) (by omega); simpa using this
  have i5 : T.E (inv 5) 5 := by have := fin' 1 (by omega) (by omega); simpa using this
  have e5 : T.E 5 0 := R (S i5) c2
  have K : ∀ i : Nat, (i : Int) ≤ g - 4 → T.E (z + i) 0 ∧ T.E (inv (z + i)) 0 ∧ T.E (5 * (i + 1)) 0 := by
    intro i
    induction i with
    | zero =>
      intro _
      simp only [Nat.cast_zero, add_zero, zero_add, mul_one]
      exact ⟨R c3 e5, R (S c1) i0, e5⟩
    | succ i ih =>
      intro hi
      push_cast at hi
      obtain ⟨k1, k2, k3⟩ := ih (by omega)
      obtain ⟨d1, d2, d3⟩ := E.of_glues hT (h.C1 i (by omega) (by omega))
      rw [inv_inv] at d1 d3
      have f := fin' (i + 2) (by omega) (by omega)
      rw [show (5 * ((i : Int) + 2)) = 5 * i + 10 by ring] at f
      have e : T.E (5 * (i : Int) + 10) 0 := R (S f) (R d3 k1)
      push_cast
      rw [show z + ((i : Int) + 1) = z + 1 + i by ring, show 5 * ((i : Int) + 1 + 1) = 5 * i + 10 by ring]
      exact ⟨R d1 e, R (S d2) k2, e⟩
  obtain ⟨d1, d2, d3⟩ := E.of_glues hT h.C2
  rw [inv_inv] at d1 d2 d3
  have Kl := K (g - 4).toNat (by omega)
  rw [show ((g - 4).toNat : Int) = g - 4 by omega, show z + (g - 4) = z + g - 4 by ring] at Kl
  have all : ∀ i : Int, 0 ≤ i → i < g → T.E (5 * i) 0 := by
    intro i h1 h2
    by_cases a0 : i = 0
    · subst a0; simpa using R (S i0) i0
    by_cases a1 : i ≤ g - 3
    · have := (K (i - 1).toNat (by omega)).2.2
      rwa [show (((i - 1).toNat : Nat) : Int) = i - 1 by omega, show 5 * (i - 1 + 1) = 5 * i by ring] at this
    by_cases a2 : i = g - 2
    · have f := fin' (g - 2) (by omega) (by omega)
      rw [show 5 * (g - 2) = 5 * g - 10 by ring] at f
      subst a2
      rw [show 5 * (g - 2) = 5 * g - 10 by ring]
      exact R (S f) (R d2 Kl.1)
    · have : i = g - 1 := by omega
      subst this
      rw [show 5 * (g - 1) = 5 * g - 5 by ring]
      exact R (S d1) Kl.2.1
  rcases hk with hk | hk
  · have f := fin (k / 5) (k % 5) (by omega) (by omega) (by omega) (by omega)
    rw [show 5 * (k / 5) + k % 5 = k by omega] at f
    have e := all (k / 5) (by omega) (by omega)
    exact ⟨R f.1 e, R f.2 e⟩
  · have := K (k - z).toNat (by omega)
    rw [show z + ((k - z).toNat : Int) = k by omega] at this
    exact ⟨this.1, this.2.1⟩

/-- what is in the triples of `S_g_n` away from the punctured bigon -/
structure FinTriples (ls : List (List Int)) (g p' z : Int) : Prop where
  F1 : ∀ i, 0 ≤ i → i < g → [5 * i, 5 * i + 1, 5 * i + 2] ∈ ls
  F2 : ∀ i, 0 ≤ i → i < g → [inv (5 * i + 1), 5 * i + 3, 5 * i + 4] ∈ ls
  F3 : ∀ i, 0 ≤ i → i < g - 1 → [inv (5 * i + 2), inv (5 * i + 3), inv (5 * i + 4)] ∈ ls
  F4 : [inv (5 * (g - 1) + 2), inv p', inv (5 * (g - 1) + 4)] ∈ ls
  C0 : [inv 0, inv 5, z] ∈ ls
  C1 : ∀ i, 0 ≤ i → i < g - 4 → [z + 1 + i, inv (z + i), inv (5 * i + 10)] ∈ ls
  C2 : [inv (z + g - 4), inv (5 * g - 10), inv (5 * g - 5)] ∈ ls

theorem FinTriples.fins {ls : List (List Int)} {g p' z : Int} (h : FinTriples ls g p' z) {T : Triangulation} (hT : ∀ a b c, [a, b, c] ∈ ls → T.Glues a b c)
    (s1 : T.E p' (5 * (g - 1) + 3)) (s2 : T.E (inv p') (inv (5 * (g - 1) + 3))) : Fins T g p' z :=
  ⟨fun i h1 h2 => hT _ _ _ (h.F1 i h1 h2), fun i h1 h2 => hT _ _ _ (h.F2 i h1 h2), fun i h1 h2 => hT _ _ _ (h.F3 i h1 h2), hT _ _ _ h.F4, s1, s2, hT _ _ _ h.C0,
    fun i h1 h2 => hT _ _ _ (h.C1 i h1 h2), hT _ _ _ h.C2⟩

theorem FinTriples.cover {ls : List (List Int)} {g p' z : Int} (hg : 4 ≤ g) (h : FinTriples ls g p' z) (k : Int) (hk : (0 ≤ k ∧ k < 5 * g) ∨ (z ≤ k ∧ k ≤ z + g - 4)) :
    (∃ l ∈ ls, k ∈ l) ∧ (k ≠ 5 * g - 2 → ∃ l ∈ ls, inv k ∈ l) := by
  rcases hk with hk | hk
  · have hd : 5 * (k / 5) + k % 5 = k := by omega
    generalize k / 5 = i at hd
    generalize hj : k % 5 = j at hd
    have hi : 0 ≤ i ∧ i < g := by omega
    have : j = 0 ∨ j = 1 ∨ j = 2 ∨ j = 3 ∨ j = 4 := by omega
    subst hd
    clear hj hk
    rcases this with rfl | rfl | rfl | rfl | rfl
    · refine ⟨⟨_, h.F1 i hi.1 hi.2, by simp⟩, fun _ => ?_⟩
      rw [add_zero]
      by_cases a : i ≤ 1
      · exact ⟨_, h.C0, by simp [inv_def]; omega⟩
      by_cases b : i < g - 2
      · exact ⟨_, h.C1 (i - 2) (by omega) (by omega), by simp [inv_def]; omega⟩
      · exact ⟨_, h.C2, by simp [inv_def]; omega⟩
    · exact ⟨⟨_, h.F1 i hi.1 hi.2, by simp⟩, fun _ => ⟨_, h.F2 i hi.1 hi.2, by simp⟩⟩
    · refine ⟨⟨_, h.F1 i hi.1 hi.2, by simp⟩, fun _ => ?_⟩
      by_cases a : i < g - 1
      · exact ⟨_, h.F3 i hi.1 a, by simp⟩
      · exact ⟨_, h.F4, by simp [inv_def]; omega⟩
    · refine ⟨⟨_, h.F2 i hi.1 hi.2, by simp⟩, fun hne => ?_⟩
      by_cases a : i < g - 1
      · exact ⟨_, h.F3 i hi.1 a, by simp⟩
      · exact absurd (by omega) hne
    · refine ⟨⟨_, h.F2 i hi.1 hi.2, by simp⟩, fun _ => ?_⟩
      by_cases a : i < g - 1
      · exact ⟨_, h.F3 i hi.1 a, by simp⟩
      · exact ⟨_, h.F4, by simp [inv_def]; omega⟩
  · constructor
    · by_cases a : k = z
      · exact ⟨_, h.C0, by simp [a]⟩
      · exact ⟨_, h.C1 (k - z - 1) (by omega) (by omega), by simp⟩
    · intro _
      by_cases a : k = z + g - 4
      · exact ⟨_, h.C2, by simp [a]⟩
      · exact ⟨_, h.C1 (k - z) (by omega) (by omega), by simp⟩

theorem finTriples_one {g : Int} (hg : 4 ≤ g) : FinTriples (triplesG g 1) g (5 * (g - 1) + 3) (5 * g) := by
  unfold triplesG
  rw [if_pos rfl]
  simp only [List.append_assoc]
  refine ⟨?_, ?_, ?_, ?_, ?_, ?_, ?_⟩
  · intro i h1 h2
    simp only [List.mem_append, List.mem_map, mem_pyRange]
    exact .inl ⟨i, ⟨h1, h2⟩, by simp⟩
  · intro i h1 h2
    simp only [List.mem_append, List.mem_map, mem_pyRange]
    exact .inr (.inl ⟨i, ⟨h1, h2⟩, by simp⟩)
  · intro i h1 h2
    simp only [List.mem_append, List.mem_map, mem_pyRange]
    exact .inr (.inr (.inl ⟨i, ⟨h1, by omega⟩, by simp⟩))
  · simp only [List.mem_append, List.mem_map, mem_pyRange]
    exact .inr (.inr (.inl ⟨g - 1, ⟨by omega, by omega⟩, by simp⟩))
  · simp
  · intro i h1 h2
    simp only [List.mem_append, List.mem_map, mem_pyRange]
    exact .inr (.inr (.inr (.inr (.inl ⟨i, ⟨h1, h2⟩, by simp⟩))))
  · simp

theorem buildsG_one {g : Int} (hg : 4 ≤ g) : Builds (triplesG g 1) g.toNat 1 (fun _ => 0) := by
  have hF := finTriples_one hg
  have h3 : ∀ l ∈ triplesG g 1, l.length = 3 := by
    intro l h
    unfold triplesG at h
    rw [if_pos rfl] at h
    simp only [List.mem_append, List.mem_map, mem_pyRange, List.mem_cons, List.not_mem_nil, or_false] at h
    rcases h with ((((⟨_, _, rfl⟩ | ⟨_, _, rfl⟩) | ⟨_, _, rfl⟩) | rfl) | ⟨_, _, rfl⟩) | rfl <;> rfl
  obtain ⟨T, t1, t2, t3, t4, t5⟩ := build (ls := triplesG g 1) (z := (6 * g - 3).toNat) h3 (by
      unfold triplesG
      rw [if_pos rfl]
      simp only [List.length_append, List.length_map, length_pyRange, List.length_cons, List.length_nil]
      omega) (by omega) (by
      intro k h1 h2
      have hk : (0 ≤ k ∧ k < 5 * g) ∨ (5 * g ≤ k ∧ k ≤ 5 * g + g - 4) := by omega
      have := hF.cover hg k hk
      refine ⟨this.1, ?_⟩
      by_cases hne : k = 5 * g - 2
      · refine ⟨_, hF.F4, ?_⟩
        simp [inv_def]; omega
      · exact this.2 hne)
  have hgl : ∀ a b c, [a, b, c] ∈ triplesG g 1 → T.Glues a b c := fun a b c h => (t5 a b c).2 (.inl h)
  have hl : T.IsLabel (5 * (g - 1) + 3) := ⟨by omega, by omega⟩
  have hfins := hF.fins hgl ⟨hl, t2.comp.sv_refl hl⟩ ⟨isLabel_inv.2 hl, t2.comp.sv_refl (isLabel_inv.2 hl)⟩
  have hall : ∀ e, T.IsLabel e → T.E e 0 := by
    intro e he
    have he' := he
    unfold IsLabel at he'
    rcases lt_or_ge e 0 with h | h
    · have := (hfins.same t2.comp hg (inv e) (by unfold inv; omega)).2
      rwa [inv_inv] at this
    · exact (hfins.same t2.comp hg e (by omega)).1
  refine ⟨T, t1, t2, t4, by rw [t3]; omega, t5, fun _ _ _ _ => rfl, ?_⟩
  exact t2.surface_of_tails (g := g.toNat) (n := 1) (by decide) (fun _ => 0) (fun _ => 0) (fun _ _ _ _ => rfl)
    (fun i hi => ⟨⟨by omega, by omega⟩, by omega⟩) (fun e he => ⟨by decide, (hall e he).2⟩) (fun _ _ => .refl) (by omega)

theorem mem_triplesG {g n : Int} (hn : 2 ≤ n) (l : List Int) : l ∈ triplesG g n ↔ IsStrip (5 * g - 2) n l ∨
    (∃ i, (0 ≤ i ∧ i < g) ∧ l = [5 * i, 5 * i + 1, 5 * i + 2]) ∨ (∃ i, (0 ≤ i ∧ i < g) ∧ l = [inv (5 * i + 1), 5 * i + 3, 5 * i + 4]) ∨
    (∃ i, (0 ≤ i ∧ i < g - 1) ∧ l = [inv (5 * i + 2), inv (5 * i + 3), inv (5 * i + 4)]) ∨
    l = [inv (5 * (g - 1) + 2), inv (5 * g - 2 + 3 * n - 2), inv (5 * (g - 1) + 4)] ∨ l = [inv 0, inv 5, 5 * g + 3 * n - 3] ∨
    (∃ i, (0 ≤ i ∧ i < g - 4) ∧ l = [5 * g + 3 * n - 3 + 1 + i, inv (5 * g + 3 * n - 3 + i), inv (5 * i + 10)]) ∨
    l = [inv (5 * g + 3 * n - 3 + g - 4), inv (5 * g - 10), inv (5 * g - 5)] := by
  have e1 : ∀ i : Int, [5 * i + 0, 5 * i + 1, 5 * i + 2] = l ↔ l = [5 * i, 5 * i + 1, 5 * i + 2] := fun i => by rw [eq_comm, add_zero]
  have e2 : ∀ i : Int, [inv (5 * i + 1), 5 * i + 3, 5 * i + 4] = l ↔ l = [inv (5 * i + 1), 5 * i + 3, 5 * i + 4] := fun i => eq_comm
  have e3 : ∀ i : Int, [inv (5 * i + 2), inv (5 * i + 3), inv (5 * i + 4)] = l ↔ l = [inv (5 * i + 2), inv (5 * i + 3), inv (5 * i + 4)] := fun i => eq_comm
  have e4 : ∀ i : Int, [inv (5 * g - 2 + 2 * i), 5 * g - 2 + 2 * i + 2, 5 * g - 2 + 2 * i + 3] = l ↔ l = [inv (5 * g - 2 + 2 * i), 5 * g - 2 + 2 * i + 2, 5 * g - 2 + 2 * i + 3] :=
    fun i => eq_comm
  have e5 : ∀ i : Int, [5 * g - 2 + 2 * (n - 1) + 2 + i, inv (5 * g - 2 + 2 * (n - 1) + 1 - 2 * i), inv (5 * g - 2 + 2 * (n - 1) + 2 + i - 1)] = l ↔
      l = [5 * g - 2 + 2 * n + i, inv (5 * g - 2 + 2 * n - 1 - 2 * i), inv (5 * g - 2 + 2 * n - 1 + i)] := by
    intro i
    rw [eq_comm, show 5 * g - 2 + 2 * (n - 1) + 2 + i = 5 * g - 2 + 2 * n + i by ring, show 5 * g - 2 + 2 * (n - 1) + 1 - 2 * i = 5 * g - 2 + 2 * n - 1 - 2 * i by ring,
      show 5 * g - 2 + 2 * n + i - 1 = 5 * g - 2 + 2 * n - 1 + i by ring]
  have e6 : ∀ i : Int, [5 * g + 3 * n - 3 + 1 + i, inv (5 * g + 3 * n - 3 + i), inv (5 * i + 10)] = l ↔
      l = [5 * g + 3 * n - 3 + 1 + i, inv (5 * g + 3 * n - 3 + i), inv (5 * i + 10)] := fun i => eq_comm
  unfold triplesG IsStrip
  rw [if_neg (by omega)]
  simp only [List.mem_append, List.mem_map, mem_pyRange, List.mem_cons, List.not_mem_nil, or_false, e1, e2, e3, e4, e5, e6]
  rw [show 5 * (g - 1) + 4 + (3 * n - 3) = 5 * g - 2 + 3 * n - 2 by ring, show 5 * g - 2 + 2 * (n - 1) + 2 = 5 * g - 2 + 2 * n by ring,
    show 5 * g - 2 + 2 * (n - 1) + 1 = 5 * g - 2 + 2 * n - 1 by ring, show 5 * g - 2 + 2 * (n - 1) = 5 * g - 2 + 2 * n - 2 by ring]
  have : ∀ f1 f2 f3 f4 A C B c0 c1 c2 : Prop, (((((((((f1 ∨ f2) ∨ f3) ∨ f4) ∨ A) ∨ C) ∨ B) ∨ c0) ∨ c1) ∨ c2 ↔ (A ∨ C ∨ B) ∨ f1 ∨ f2 ∨ f3 ∨ f4 ∨ c0 ∨ c1 ∨ c2) := by
    intros; tauto
  exact this _ _ _ _ _ _ _ _ _ _

theorem buildsG {g n : Int} (hg : 4 ≤ g) (hn : 2 ≤ n) : Builds (triplesG g n) g.toNat n (stripTail (5 * g - 2) n) := by
  have hm := mem_triplesG (g := g) hn
  have hF : FinTriples (triplesG g n) g (5 * g - 2 + 3 * n - 2) (5 * g + 3 * n - 3) :=
    ⟨fun i h1 h2 => (hm _).2 (.inr (.inl ⟨i, ⟨h1, h2⟩, rfl⟩)), fun i h1 h2 => (hm _).2 (.inr (.inr (.inl ⟨i, ⟨h1, h2⟩, rfl⟩))),
      fun i h1 h2 => (hm _).2 (.inr (.inr (.inr (.inl ⟨i, ⟨h1, h2⟩, rfl⟩)))), (hm _).2 (.inr (.inr (.inr (.inr (.inl rfl))))),
      (hm _).2 (.inr (.inr (.inr (.inr (.inr (.inl rfl)))))), fun i h1 h2 => (hm _).2 (.inr (.inr (.inr (.inr (.inr (.inr (.inl ⟨i, ⟨h1, h2⟩, rfl⟩))))))),
      (hm _).2 (.inr (.inr (.inr (.inr (.inr (.inr (.inr rfl)))))))⟩
  refine Builds.of_strip (p := 5 * g - 2) (z := (6 * g + 3 * n - 6).toNat) hn (by omega) (by omega) (by omega) ?_ ?_ (fun l h => (hm l).2 (.inl h)) ?_ ?_
    ⟨_, hF.F4, by simp⟩ ?_
  · intro l h
    rw [hm] at h
    rcases h with (⟨_, _, rfl⟩ | rfl | ⟨_, _, rfl⟩) | ⟨_, _, rfl⟩ | ⟨_, _, rfl⟩ | ⟨_, _, rfl⟩ | rfl | rfl | ⟨_, _, rfl⟩ | rfl <;> rfl
  · unfold triplesG
    rw [if_neg (by omega)]
    simp only [List.length_append, List.length_map, length_pyRange, List.length_cons, List.length_nil]
    omega
  · intro l h
    rw [hm] at h
    rcases h with h | ⟨_, _, rfl⟩ | ⟨_, _, rfl⟩ | ⟨_, _, rfl⟩ | rfl | rfl | ⟨_, _, rfl⟩ | rfl
    · exact .inl h
    all_goals right; intro e he; simp [inv_def] at he; unfold Outside inv; omega
  · intro k h1 h2 h3
    exact hF.cover hg k (by omega)
  · intro T hT hgl hz s1 s2 e he hne
    have hfins := hF.fins hgl (by rw [show 5 * (g - 1) + 3 = 5 * g - 2 by ring]; exact s1) (by rw [show 5 * (g - 1) + 3 = 5 * g - 2 by ring]; exact s2)
    unfold Triangulation.IsLabel at he
    rcases lt_or_ge e 0 with h | h
    · have := (hfins.same hT hg (inv e) (by unfold norm inv at *; omega)).2
      rwa [inv_inv] at this
    · exact (hfins.same hT hg e (by unfold norm inv at *; omega)).1

end Curver
