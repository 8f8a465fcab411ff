import Verif.Proofs.Strip
import Verif.Proofs.TriangulationBuild

namespace Curver
open Triangulation

theorem inv_def (e : Int) : inv e = -1 - e := rfl

/-- a complete list of triples builds a triangulation -/
theorem build {ls : List (List Int)} {z : Nat} (h3 : ∀ l ∈ ls, l.length = 3) (hlen : 3 * ls.length = 2 * z) (hz : 0 < z)
    (hall : ∀ k : Int, 0 ≤ k → k < z → (∃ l ∈ ls, k ∈ l) ∧ ∃ l ∈ ls, inv k ∈ l) :
    ∃ T, fromTuple ls = .ok T ∧ T.Valid ∧ T.zeta = z ∧ CompleteLabelling ls ∧ ∀ a b c, T.Glues a b c ↔ [a, b, c] ∈ ls ∨ [b, c, a] ∈ ls ∨ [c, a, b] ∈ ls := by
  have hc : CompleteLabelling ls := by
    rw [completeLabelling_iff h3 (by omega)]
    intro i hi
    obtain ⟨h1, h2⟩ := hall i (by omega) (by omega)
    exact ⟨List.mem_flatten.2 h1, List.mem_flatten.2 h2⟩
  have hne : ls ≠ [] := by rintro rfl; simp at hlen; omega
  obtain ⟨T, h1, h2, h4⟩ := fromTuple_ok hne hc
  refine ⟨T, h1, h2, ?_, hc, glues_of_perm_toTri h3 h2.comp h4⟩
  have := h4.length_eq
  unfold zeta
  rw [this, List.length_map]; omega

/-- the triples of a punctured bigon -/
def IsStrip (p n : Int) (l : List Int) : Prop :=
  (∃ i, (0 ≤ i ∧ i < n - 1) ∧ l = [inv (p + 2 * i), p + 2 * i + 2, p + 2 * i + 3]) ∨ l = [p + 2 * n, inv (p + 2 * n - 1), inv (p + 2 * n - 2)] ∨
  ∃ i, (1 ≤ i ∧ i < n - 1) ∧ l = [p + 2 * n + i, inv (p + 2 * n - 1 - 2 * i), inv (p + 2 * n - 1 + i)]

theorem strip_cover {ls : List (List Int)} {p n : Int} (hn : 2 ≤ n) (h : ∀ l, IsStrip p n l → l ∈ ls) (k : Int) :
    (p + 2 ≤ k → k ≤ p + 3 * n - 2 → ∃ l ∈ ls, k ∈ l) ∧ ((k = p ∨ (p + 2 ≤ k ∧ k ≤ p + 3 * n - 3)) → ∃ l ∈ ls, inv k ∈ l) := by
  have A : ∀ i, 0 ≤ i → i < n - 1 → [inv (p + 2 * i), p + 2 * i + 2, p + 2 * i + 3] ∈ ls := fun i h1 h2 => h _ (.inl ⟨i, ⟨h1, h2⟩, rfl⟩)
  have C : [p + 2 * n, inv (p + 2 * n - 1), inv (p + 2 * n - 2)] ∈ ls := h _ (.inr (.inl rfl))
  have B : ∀ i, 1 ≤ i → i < n - 1 → [p + 2 * n + i, inv (p + 2 * n - 1 - 2 * i), inv (p + 2 * n - 1 + i)] ∈ ls :=
    fun i h1 h2 => h _ (.inr (.inr ⟨i, ⟨h1, h2⟩, rfl⟩))
  constructor
  · intro h1 h2
    by_cases c1 : k ≤ p + 2 * n - 1
    · refine ⟨_, A ((k - p - 2) / 2) (by omega) (by omega), ?_⟩
      simp only [List.mem_cons, List.not_mem_nil, or_false]; omega
    · by_cases c2 : k = p + 2 * n
      · exact ⟨_, C, by simp [c2]⟩
      · refine ⟨_, B (k - p - 2 * n) (by omega) (by omega), ?_⟩
        simp only [List.mem_cons, List.not_mem_nil, or_false]; omega
  · intro h1
    by_cases c1 : k = p + 2 * n - 2 ∨ k = p + 2 * n - 1
    · refine ⟨_, C, ?_⟩
      simp only [List.mem_cons, List.not_mem_nil, or_false, inv_def]; omega
    · by_cases c2 : k ≤ p + 2 * n - 3
      · rcases Int.emod_two_eq_zero_or_one (k - p) with hpar | hpar
        · refine ⟨_, A ((k - p) / 2) (by omega) (by omega), ?_⟩
          simp only [List.mem_cons, List.not_mem_nil, or_false, inv_def]; omega
        · refine ⟨_, B (n - 1 - (k - p - 1) / 2) (by omega) (by omega), ?_⟩
          simp only [List.mem_cons, List.not_mem_nil, or_false, inv_def]; omega
      · refine ⟨_, B (k - p - 2 * n + 1) (by omega) (by omega), ?_⟩
        simp only [List.mem_cons, List.not_mem_nil, or_false, inv_def]; omega

/-- a side of a triangle outside of the bigon -/
def Outside (p n : Int) (e : Int) : Prop := (e < p + 2 ∧ - p - 3 < e) ∨ p + 3 * n - 2 < e ∨ e < - p - 3 * n + 1 ∨ e = inv (p + 3 * n - 2)

theorem tail_outside {p n e : Int} (hn : 2 ≤ n) (hp : 0 ≤ p) (h : Outside p n e) : stripTail p n e = 0 ∧ stripTail p n (inv e) = 0 := by
  unfold Outside inv at h
  constructor
  · unfold stripTail inv
    split
    · rw [if_neg (by omega)]
    · rw [if_neg (by omega)]
      split
      · omega
      · rfl
  · unfold stripTail inv
    split
    · rw [if_neg (by omega)]
    · rw [if_neg (by omega)]
      split
      · omega
      · rfl

theorem tail_strip {p n a b c : Int} (hn : 2 ≤ n) (hp : 0 ≤ p) (h : IsStrip p n [a, b, c]) :
    stripTail p n a = stripTail p n (inv c) ∧ stripTail p n b = stripTail p n (inv a) ∧ stripTail p n c = stripTail p n (inv b) := by
  rcases h with ⟨i, hi, h⟩ | h | ⟨i, hi, h⟩
  all_goals
    simp only [List.cons.injEq, and_true] at h
    obtain ⟨rfl, rfl, rfl⟩ := h
    unfold stripTail inv
    refine ⟨?_, ?_, ?_⟩
    all_goals split_ifs <;> omega

theorem strip_load {ls : List (List Int)} {p n : Int} {g z : Nat} (hn : 2 ≤ n) (hp : 0 ≤ p) (h3 : ∀ l ∈ ls, l.length = 3) (hlen : 3 * ls.length = 2 * z)
    (hstrip : ∀ l, IsStrip p n l → l ∈ ls) (hrest : ∀ l ∈ ls, IsStrip p n l ∨ ∀ e ∈ l, Outside p n e)
    (hcov : ∀ k : Int, 0 ≤ k → k < z → ¬ (p + 2 ≤ k ∧ k ≤ p + 3 * n - 2) → (∃ l ∈ ls, k ∈ l) ∧ (k ≠ p → ∃ l ∈ ls, inv k ∈ l))
    (hlast : ∃ l ∈ ls, inv (p + 3 * n - 2) ∈ l) (hz : (z : Int) = 6 * g + 3 * n - 6) (hpz : p + 3 * n - 2 < z)
    (hbase : ∀ T : Triangulation, T.Complete → (∀ a b c, [a, b, c] ∈ ls → T.Glues a b c) → T.zeta = z → T.E (p + 3 * n - 2) p → T.E (inv (p + 3 * n - 2)) (inv p) →
      ∀ e, T.IsLabel e → ¬ (p + 2 ≤ norm e ∧ norm e ≤ p + 3 * n - 2) → T.E e 0) :
    ∃ T, fromTuple ls = .ok T ∧ T.Valid ∧ CompleteLabelling ls ∧ T.zeta = z ∧ (∀ a b c, T.Glues a b c ↔ [a, b, c] ∈ ls ∨ [b, c, a] ∈ ls ∨ [c, a, b] ∈ ls) ∧
      (∀ a b c, T.Glues a b c → stripTail p n a = stripTail p n (inv c)) ∧ T.numVertices = .ok n.toNat ∧ T.isConnected = .ok true ∧
      T.surface = .ok [(T.labels, ((g : Int), n, 2 - 2 * (g : Int) - n))] := by
  obtain ⟨T, t1, t2, t3, t4, t5⟩ := build h3 hlen (by omega) (by
    intro k h1 h2
    by_cases hb : p + 2 ≤ k ∧ k ≤ p + 3 * n - 2
    · refine ⟨(strip_cover hn hstrip k).1 hb.1 hb.2, ?_⟩
      by_cases hl : k = p + 3 * n - 2
      · rw [hl]; exact hlast
      · exact (strip_cover hn hstrip k).2 (.inr ⟨hb.1, by omega⟩)
    · refine ⟨(hcov k h1 h2 hb).1, ?_⟩
      by_cases hl : k = p
      · exact (strip_cover hn hstrip k).2 (.inl hl)
      · exact (hcov k h1 h2 hb).2 hl)
  have hg : ∀ a b c, [a, b, c] ∈ ls → T.Glues a b c := fun a b c h => (t5 a b c).2 (.inl h)
  have hS : T.Strip p n := ⟨hn, fun i h1 h2 => hg _ _ _ (hstrip _ (.inl ⟨i, ⟨h1, h2⟩, rfl⟩)), hg _ _ _ (hstrip _ (.inr (.inl rfl))),
    fun i h1 h2 => hg _ _ _ (hstrip _ (.inr (.inr ⟨i, ⟨h1, h2⟩, rfl⟩)))⟩
  have hside := hS.sides t2.comp
  have htail : ∀ a b c, T.Glues a b c → stripTail p n a = stripTail p n (inv c) := by
    intro a b c h
    have tri : ∀ a b c, [a, b, c] ∈ ls → stripTail p n a = stripTail p n (inv c) ∧ stripTail p n b = stripTail p n (inv a) ∧ stripTail p n c = stripTail p n (inv b) := by
      intro a b c h
      rcases hrest _ h with h | h
      · exact tail_strip hn hp h
      · have ha := tail_outside hn hp (h a (by simp))
        have hb := tail_outside hn hp (h b (by simp))
        have hc := tail_outside hn hp (h c (by simp))
        exact ⟨ha.1.trans hc.2.symm, hb.1.trans ha.2.symm, hc.1.trans hb.2.symm⟩
    rcases (t5 a b c).1 h with h | h | h
    · exact (tri _ _ _ h).1
    · exact (tri _ _ _ h).2.2
    · exact (tri _ _ _ h).2.1
  exact ⟨T, t1, t2, t4, t3, t5, htail, hS.surface t2 hp (hbase T t2.comp hg t3 hside.1 hside.2) htail (by rw [t3]; exact hz) (by rw [t3]; exact hpz)⟩

end Curver
