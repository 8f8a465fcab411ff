import Verif.Proofs.SLP

/-!
# C20: straight line programs denote lists

`Constructed p`: `p` was returned by the constructor.  `Lists p l`: iterating over `p` stops and
gives `l` (`Verif/Spec/SLP.lean`).
-/

namespace Curver

/-- Every straight line program that can be constructed at all (from any graph) can be iterated
over, the iteration stops and its result is unique. -/
theorem C20_iteration_terminates {α : Type} (p : SLP α) (hp : p.Constructed) :
    ∃ l, p.Lists l ∧ ∀ m, p.Lists m → m = l := by
  obtain ⟨l, hl⟩ := hp.good
  exact ⟨l, hl.lists, fun m hm => hm.unique hl.lists⟩

/-- `StraightLineProgram(xs)` lists `xs`. -/
theorem C20_from_list {α : Type} (xs : List α) :
    ∃ p, SLP.ofValues xs = .ok p ∧ p.Constructed ∧ p.Lists xs := SLP.ofValues_ok xs

/-- `len(p) == len(list(p))`. -/
theorem C20_len {α : Type} (p : SLP α) (hp : p.Constructed) (l : List α) (hl : p.Lists l) :
    p.len = .ok l.length := (hp.good' hl).len

/-- `p[i]` for `0 <= i < len(p)`. -/
theorem C20_getitem {α : Type} (p : SLP α) (hp : p.Constructed) (l : List α) (hl : p.Lists l)
    (i : Nat) (hi : i < l.length) : p.getItem i = .ok l[i] := by
  rw [SLP.getItem_spec (hp.good' hl)]
  simp [hi]

/-- `p[i]` for `-len(p) <= i < 0` is `list(p)[len(p) + i]`. -/
theorem C20_getitem_negative {α : Type} (p : SLP α) (hp : p.Constructed) (l : List α)
    (hl : p.Lists l) (k : Nat) (h0 : 0 < k) (hk : k ≤ l.length) :
    p.getItem (-(k : Int)) = .ok (l[l.length - k]'(by omega)) := by
  rw [SLP.getItem_spec (hp.good' hl), if_neg (by omega), if_pos (by omega)]
  rw [show ((l.length : Int) + -(k : Int)).toNat = l.length - k by omega,
    List.getElem?_eq_getElem (by omega)]

/-- `p[i]` raises `IndexError` for every other index. -/
theorem C20_getitem_out_of_range {α : Type} (p : SLP α) (hp : p.Constructed) (l : List α)
    (hl : p.Lists l) (i : Int) (hi : i < -(l.length : Int) ∨ (l.length : Int) ≤ i) :
    p.getItem i = .error .indexError := by
  rw [SLP.getItem_spec (hp.good' hl)]
  rcases hi with hi | hi
  · rw [if_neg (by omega), if_neg (by omega)]
  · rw [if_pos (by omega), List.getElem?_eq_none (by omega)]

/-- `list(p + q) == list(p) + list(q)`. -/
theorem C20_add {α : Type} (p q : SLP α) (hp : p.Constructed) (hq : q.Constructed)
    (l m : List α) (hl : p.Lists l) (hm : q.Lists m) :
    ∃ r, p.add q = .ok r ∧ r.Constructed ∧ r.Lists (l ++ m) := SLP.add_ok hp hq hl hm

/-- `list(StraightLineProgram.sum(ps))` is the concatenation of the `list(p)`. -/
theorem C20_sum {α : Type} (ps : List (SLP α)) (ls : List (List α))
    (hp : ∀ p ∈ ps, p.Constructed) (hl : List.Forall₂ SLP.Lists ps ls) :
    ∃ r, SLP.sum ps = .ok r ∧ r.Constructed ∧ r.Lists ls.flatten := SLP.sum_ok hp hl

/-- `list(p * n) == list(p) * n` for `n >= 0`. -/
theorem C20_mul {α : Type} (p : SLP α) (hp : p.Constructed) (l : List α) (hl : p.Lists l)
    (n : Int) (hn : 0 ≤ n) :
    ∃ r, p.mul n = .ok r ∧ r.Constructed ∧ r.Lists (List.replicate n.toNat l).flatten :=
  SLP.mul_ok hp hl hn

/-- `p * n` for negative `n` fails its assertion. -/
theorem C20_mul_negative {α : Type} (p : SLP α) (n : Int) (hn : n < 0) :
    p.mul n = .error .assertionError := by
  unfold SLP.mul
  have : pyAssert (decide (n ≥ 0)) = .error .assertionError := by
    simp [pyAssert]; omega
  rw [this]; rfl

/-- `list(p.reverse()) == list(p)[::-1]`. -/
theorem C20_reverse {α : Type} (p : SLP α) (hp : p.Constructed) (l : List α) (hl : p.Lists l) :
    ∃ r, p.reverse = .ok r ∧ r.Constructed ∧ r.Lists l.reverse := SLP.reverse_ok hp hl

/-- `list(p.map(f)) == [f(x) for x in p]`. -/
theorem C20_map {α β : Type} (f : α → β) (p : SLP α) (hp : p.Constructed) (l : List α)
    (hl : p.Lists l) : ∃ r, p.map f = .ok r ∧ r.Constructed ∧ r.Lists (l.map f) :=
  SLP.map_ok f hp hl

/-- A concrete program with sharing: `[7, 8] * 5`. -/
example : ∃ p r : SLP Nat, SLP.ofValues [7, 8] = .ok p ∧ p.mul 5 = .ok r ∧
    r.graph = [[.node 1, .node 3], [.node 2, .node 2], [.node 3, .node 3], [.term 7, .term 8]] ∧
    r.toList 30 = .ok [7, 8, 7, 8, 7, 8, 7, 8, 7, 8] ∧ r.getItem (-2) = .ok 7 :=
  ⟨_, _, rfl, rfl, rfl, by decide, by decide⟩

/-- A cyclic graph cannot be constructed. -/
example : SLP.ofGraph ([[.node 0]] : SGraph Nat) = .error .outOfFuel := by decide

end Curver
