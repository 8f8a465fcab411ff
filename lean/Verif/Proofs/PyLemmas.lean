import Verif.Py
import Mathlib.Data.List.Nodup
import Mathlib.Data.List.Basic

namespace Curver

@[simp] theorem py_bind_ok {α β : Type _} (a : α) (f : α → Py β) : ((Except.ok a : Py α) >>= f) = f a := rfl
@[simp] theorem py_bind_error {α β : Type _} (e : PyErr) (f : α → Py β) :
    ((Except.error e : Py α) >>= f) = .error e := rfl
@[simp] theorem py_pure {α : Type _} (a : α) : (pure a : Py α) = .ok a := rfl
@[simp] theorem py_map_ok {α β : Type _} (a : α) (f : α → β) : (f <$> (Except.ok a : Py α)) = .ok (f a) := rfl
@[simp] theorem py_map_error {α β : Type _} (e : PyErr) (f : α → β) : (f <$> (Except.error e : Py α)) = .error e := rfl

theorem py_bind_eq_ok {α β : Type _} {x : Py α} {f : α → Py β} {b : β} :
    (x >>= f) = .ok b ↔ ∃ a, x = .ok a ∧ f a = .ok b := by
  cases x <;> simp

theorem mapM_ok {α β : Type _} {f : α → Py β} {g : α → β} {l : List α} (h : ∀ x ∈ l, f x = .ok (g x)) :
    l.mapM f = .ok (l.map g) := by
  induction l with
  | nil => rfl
  | cons a l ih =>
    simp only [List.mapM_cons, h a (by simp), py_bind_ok, ih (fun x hx => h x (by simp [hx]))]
    rfl

theorem mapM_ok_iff {α β : Type _} {f : α → Py β} {l : List α} {r : List β} :
    l.mapM f = .ok r ↔ List.Forall₂ (fun a b => f a = .ok b) l r := by
  induction l generalizing r with
  | nil => simp [eq_comm]
  | cons a l ih =>
    simp only [List.mapM_cons, py_bind_eq_ok]
    constructor
    · rintro ⟨b, hb, r', hr', h⟩
      cases h
      exact .cons hb (ih.1 hr')
    · intro h
      cases h with
      | cons h1 h2 => exact ⟨_, h1, _, ih.2 h2, rfl⟩

theorem pyGet_ok {α : Type _} {l : List α} {i : Nat} (h : i < l.length) : pyGet l i = .ok l[i] := by
  simp [pyGet, h]

theorem pyGet_ok_iff {α : Type _} {l : List α} {i : Nat} {x : α} : pyGet l i = .ok x ↔ l[i]? = some x := by
  unfold pyGet; split <;> simp_all

@[simp] theorem pyAssert_ok_iff {b : Bool} {u : Unit} : pyAssert b = .ok u ↔ b = true := by
  unfold pyAssert; split <;> simp_all

namespace PyDict
variable {κ α : Type _} [DecidableEq κ]

theorem get?_set (d : PyDict κ α) (k k' : κ) (v : α) :
    (d.set k v).get? k' = if k = k' then some v else d.get? k' := by
  induction d with
  | nil => simp [set, get?]
  | cons p d ih =>
    obtain ⟨k0, v0⟩ := p
    unfold set
    split
    next h => subst h; simp only [get?]; split <;> rfl
    next h =>
      simp only [get?, ih]
      split
      next h1 => subst h1; rw [if_neg (Ne.symm h)]
      next h1 => rfl

theorem keys_set (d : PyDict κ α) (k : κ) (v : α) :
    (d.set k v).keys = if k ∈ d.keys then d.keys else d.keys ++ [k] := by
  induction d with
  | nil => simp [set, keys]
  | cons p d ih =>
    obtain ⟨k0, v0⟩ := p
    unfold set
    split
    next h => subst h; simp [keys]
    next h =>
      simp only [keys, List.map_cons, List.mem_cons] at ih ⊢
      rw [ih]
      by_cases h1 : k ∈ d.map Prod.fst
      · simp [h1]
      · simp [h1, Ne.symm h]

theorem get?_isSome_iff {d : PyDict κ α} {k : κ} : (d.get? k).isSome ↔ k ∈ d.keys := by
  induction d with
  | nil => simp [get?, keys]
  | cons p d ih =>
    obtain ⟨k0, v0⟩ := p
    simp only [get?, keys, List.map_cons, List.mem_cons] at ih ⊢
    split
    next h => simp [h]
    next h => rw [ih]; simp [Ne.symm h]

theorem get?_eq_none_iff {d : PyDict κ α} {k : κ} : d.get? k = none ↔ k ∉ d.keys := by
  rw [← get?_isSome_iff]; cases d.get? k <;> simp

theorem contains_iff {d : PyDict κ α} {k : κ} : d.contains k = true ↔ k ∈ d.keys := get?_isSome_iff

theorem mem_of_get? {d : PyDict κ α} {k : κ} {v : α} (h : d.get? k = some v) : (k, v) ∈ d := by
  induction d with
  | nil => simp [get?] at h
  | cons p d ih =>
    obtain ⟨k0, v0⟩ := p
    simp only [get?] at h
    split at h
    next h1 => cases h; subst h1; simp
    next h1 => exact List.mem_cons_of_mem _ (ih h)

theorem get?_of_mem {d : PyDict κ α} (hn : d.keys.Nodup) {k : κ} {v : α} (h : (k, v) ∈ d) :
    d.get? k = some v := by
  induction d with
  | nil => simp at h
  | cons p d ih =>
    obtain ⟨k0, v0⟩ := p
    simp only [keys, List.map_cons, List.nodup_cons] at hn
    simp only [get?]
    rcases List.mem_cons.1 h with h | h
    · cases h; simp
    · have : k ∈ d.map Prod.fst := List.mem_map.2 ⟨_, h, rfl⟩
      rw [if_neg (fun e : k0 = k => hn.1 (e ▸ this)), ih hn.2 h]

theorem nodup_keys_set {d : PyDict κ α} (hn : d.keys.Nodup) (k : κ) (v : α) : (d.set k v).keys.Nodup := by
  rw [keys_set]; split
  · exact hn
  next h => exact List.nodup_append.2 ⟨hn, by simp, by
      intro a ha b hb e; simp at hb; subst hb; subst e; exact h ha⟩

theorem nodup_keys_foldl (l : List (κ × α)) (d : PyDict κ α) (hn : d.keys.Nodup) :
    (l.foldl (fun d p => d.set p.1 p.2) d).keys.Nodup := by
  induction l generalizing d with
  | nil => exact hn
  | cons p l ih => exact ih _ (nodup_keys_set hn _ _)

theorem nodup_keys_ofList (l : List (κ × α)) : (ofList l).keys.Nodup :=
  nodup_keys_foldl l [] (by simp [keys])

theorem get?_foldl (l : List (κ × α)) (d : PyDict κ α) (k : κ) :
    (l.foldl (fun d p => d.set p.1 p.2) d).get? k =
      match (l.reverse.find? (fun p => decide (p.1 = k))) with
      | some p => some p.2
      | none => d.get? k := by
  induction l generalizing d with
  | nil => simp
  | cons p l ih =>
    simp only [List.foldl_cons, ih, List.reverse_cons, List.find?_append]
    cases h : l.reverse.find? (fun p => decide (p.1 = k)) with
    | some q => simp
    | none =>
      simp only [Option.none_or, get?_set]
      by_cases hk : p.1 = k <;> simp [hk]

/-- `dict(pairs)[k]` is the value of the last pair with key `k`. -/
theorem get?_ofList (l : List (κ × α)) (k : κ) :
    (ofList l).get? k = (l.reverse.find? (fun p => decide (p.1 = k))).map Prod.snd := by
  unfold ofList
  rw [get?_foldl]
  cases l.reverse.find? (fun p => decide (p.1 = k)) <;> simp [get?]

/-- with distinct keys `dict(pairs)[k] = v` iff `(k, v)` is one of the pairs. -/
theorem get?_ofList_iff {l : List (κ × α)} (hn : (l.map Prod.fst).Nodup) {k : κ} {v : α} :
    (ofList l).get? k = some v ↔ (k, v) ∈ l := by
  rw [get?_ofList]
  constructor
  · intro h
    cases hf : l.reverse.find? (fun p => decide (p.1 = k)) with
    | none => simp [hf] at h
    | some p =>
      simp [hf] at h
      have h1 := List.find?_some hf
      have h2 := List.mem_of_find?_eq_some hf
      simp at h1 h2
      rw [← h1, ← h]; exact h2
  · intro h
    cases hf : l.reverse.find? (fun p => decide (p.1 = k)) with
    | none =>
      rw [List.find?_eq_none] at hf
      have := hf (k, v) (by simpa using h)
      simp at this
    | some p =>
      have h1 := List.find?_some hf
      have h2 := List.mem_of_find?_eq_some hf
      simp at h1 h2
      have := List.inj_on_of_nodup_map hn h2 h (by simpa using h1)
      simp [this]

theorem mem_keys_ofList {l : List (κ × α)} {k : κ} : k ∈ (ofList l).keys ↔ k ∈ l.map Prod.fst := by
  rw [← get?_isSome_iff, get?_ofList, Option.isSome_map, List.find?_isSome]
  simp

theorem keys_foldl_of_nodup (l : List (κ × α)) (d : PyDict κ α) (hn : (d.keys ++ l.map Prod.fst).Nodup) :
    (l.foldl (fun d p => d.set p.1 p.2) d).keys = d.keys ++ l.map Prod.fst := by
  induction l generalizing d with
  | nil => simp
  | cons p l ih =>
    have hp : p.1 ∉ d.keys := by
      intro h
      rw [List.nodup_append] at hn
      exact hn.2.2 _ h _ (by simp) rfl
    have hk : (d.set p.1 p.2).keys = d.keys ++ [p.1] := by rw [keys_set, if_neg hp]
    rw [List.foldl_cons, ih _ (by rw [hk]; simpa using hn), hk]
    simp

theorem set_of_not_mem (d : PyDict κ α) (k : κ) (v : α) (h : k ∉ d.keys) : d.set k v = d ++ [(k, v)] := by
  induction d with
  | nil => rfl
  | cons p d ih =>
    obtain ⟨k0, v0⟩ := p
    simp only [keys, List.map_cons, List.mem_cons, not_or] at h
    unfold set
    rw [if_neg (Ne.symm h.1), ih h.2]; rfl

theorem foldl_of_nodup (l : List (κ × α)) (d : PyDict κ α) (hn : (d.keys ++ l.map Prod.fst).Nodup) :
    l.foldl (fun d p => d.set p.1 p.2) d = d ++ l := by
  induction l generalizing d with
  | nil => simp
  | cons p l ih =>
    have hp : p.1 ∉ d.keys := by
      intro h
      rw [List.nodup_append] at hn
      exact hn.2.2 _ h _ (by simp) rfl
    have hk : (d.set p.1 p.2).keys = d.keys ++ [p.1] := by rw [keys_set, if_neg hp]
    rw [List.foldl_cons, ih _ (by rw [hk]; simpa using hn), set_of_not_mem _ _ _ hp]
    simp

/-- with distinct keys `dict(pairs)` holds exactly the pairs, in order -/
theorem ofList_of_nodup (l : List (κ × α)) (hn : (l.map Prod.fst).Nodup) : ofList l = l := by
  have := foldl_of_nodup l [] (by simpa [keys] using hn)
  simpa [ofList] using this

theorem keys_ofList_of_nodup (l : List (κ × α)) (hn : (l.map Prod.fst).Nodup) : (ofList l).keys = l.map Prod.fst := by
  rw [ofList_of_nodup l hn]; rfl

theorem get_eq_ok_iff {d : PyDict κ α} {k : κ} {v : α} : d.get k = .ok v ↔ d.get? k = some v := by
  unfold get; split <;> simp_all

theorem get_eq_error_iff {d : PyDict κ α} {k : κ} {e : PyErr} :
    d.get k = .error e ↔ k ∉ d.keys ∧ e = .keyError := by
  rw [← get?_eq_none_iff]
  unfold get; cases d.get? k <;> simp [eq_comm]

end PyDict
end Curver

namespace Curver

theorem mapM_error {α β : Type _} {f : α → Py β} {err : PyErr} : ∀ {l : List α},
    (∀ x ∈ l, (∃ y, f x = .ok y) ∨ f x = .error err) → (∃ x ∈ l, f x = .error err) → l.mapM f = .error err := by
  intro l
  induction l with
  | nil => rintro _ ⟨x, hx, _⟩; simp at hx
  | cons a l ih =>
    rintro h ⟨x, hx, hfx⟩
    rw [List.mapM_cons]
    rcases h a (by simp) with ⟨y, hy⟩ | hy
    · rw [hy, py_bind_ok, ih (fun z hz => h z (by simp [hz]))]
      · rfl
      · rw [List.mem_cons] at hx
        rcases hx with rfl | hx
        · rw [hy] at hfx; cases hfx
        · exact ⟨x, hx, hfx⟩
    · rw [hy]; rfl

end Curver
