import Verif.Spec.SLP
import Verif.Proofs.PyLemmas
import Mathlib.Data.Finset.Card
import Mathlib.Data.Finset.Range
import Mathlib.Logic.Relation

namespace Curver.SLP
variable {α β : Type}

/-- denotation of a list of entries -/
inductive Den (g : SGraph α) : List (Item α) → List α → Prop
  | nil : Den g [] []
  | term {v is l} : Den g is l → Den g (.term v :: is) (v :: l)
  | node {i js l is m} : g[i]? = some js → Den g js l → Den g is m → Den g (.node i :: is) (l ++ m)

theorem Den.append {g : SGraph α} {a b l m} (h : Den g a l) (h' : Den g b m) :
    Den g (a ++ b) (l ++ m) := by
  induction h with
  | nil => simpa
  | term _ ih => exact .term ih
  | node hi hj _ _ ih => rw [List.append_assoc]; exact .node hi hj ih

theorem Den.single {g : SGraph α} {i js l} (h : g[i]? = some js) (h' : Den g js l) :
    Den g [.node i] l := by
  have := Den.node h h' (Den.nil); simpa using this

theorem Den.single_inv {g : SGraph α} {i l} (h : Den g [.node i] l) :
    ∃ js, g[i]? = some js ∧ Den g js l := by
  cases h with
  | node hi hj h0 => cases h0; exact ⟨_, hi, by simpa using hj⟩

theorem Den.unique {g : SGraph α} {a l m} (h : Den g a l) (h' : Den g a m) : l = m := by
  induction h generalizing m with
  | nil => cases h'; rfl
  | term _ ih => cases h' with | term h => rw [ih h]
  | node hi _ _ ih1 ih2 =>
    cases h' with
    | node hi' h1 h2 =>
      rw [hi] at hi'; cases hi'
      rw [ih1 h1, ih2 h2]

theorem Den.mem_node {g : SGraph α} {a l i} (h : Den g a l) (hi : Item.node i ∈ a) :
    ∃ m, Den g [.node i] m := by
  induction h with
  | nil => simp at hi
  | term _ ih => simp at hi; exact ih hi
  | node hj h1 _ _ ih =>
    simp at hi
    rcases hi with rfl | hi
    · exact ⟨_, .single hj h1⟩
    · exact ih hi

theorem Den.of_nodes {g : SGraph α} : ∀ (a : List (Item α)),
    (∀ i, Item.node i ∈ a → ∃ m, Den g [.node i] m) → ∃ l, Den g a l
  | [], _ => ⟨_, .nil⟩
  | .term v :: a, h => by
    obtain ⟨l, hl⟩ := of_nodes a (fun i hi => h i (by simp [hi]))
    exact ⟨_, .term hl⟩
  | .node j :: a, h => by
    obtain ⟨l, hl⟩ := of_nodes a (fun i hi => h i (by simp [hi]))
    obtain ⟨m, hm⟩ := h j (by simp)
    exact ⟨_, by simpa using hm.append hl⟩

/-! ## iteration -/

theorem Den.iter {g : SGraph α} {a l} (h : Den g a l) : ∃ N, ∀ rounds todo,
    iterLoop g (N + rounds) (a ++ todo) = (iterLoop g rounds todo).map (l ++ ·) := by
  induction h with
  | nil => exact ⟨0, fun r t => by simp; cases iterLoop g r t <;> rfl⟩
  | term _ ih =>
    obtain ⟨N, hN⟩ := ih
    refine ⟨N + 1, fun r t => ?_⟩
    rw [show N + 1 + r = (N + r) + 1 by omega]
    simp only [List.cons_append, iterLoop, hN]
    cases iterLoop g r t <;> rfl
  | node hi _ _ ih1 ih2 =>
    obtain ⟨N, hN⟩ := ih1
    obtain ⟨M, hM⟩ := ih2
    refine ⟨N + M + 1, fun r t => ?_⟩
    rw [show N + M + 1 + r = (N + (M + r)) + 1 by omega]
    simp only [List.cons_append, iterLoop, (pyGet_ok_iff).2 hi, py_bind_ok, hN, hM]
    cases iterLoop g r t <;> simp [Except.map]

theorem Den.lists {p : SLP α} {l} (h : Den p.graph [.node 0] l) : Lists p l := by
  obtain ⟨N, hN⟩ := h.iter
  refine ⟨N, fun r hr => ?_⟩
  obtain ⟨k, rfl⟩ := Nat.exists_eq_add_of_le hr
  have := hN k []
  simp only [List.append_nil] at this
  rw [toList, this]
  cases k <;> simp [iterLoop, Except.map]

theorem Lists.unique {p : SLP α} {l m} (h : Lists p l) (h' : Lists p m) : l = m := by
  obtain ⟨N, hN⟩ := h
  obtain ⟨M, hM⟩ := h'
  have h1 := hN (max N M) (by omega)
  have h2 := hM (max N M) (by omega)
  rw [h1] at h2; cases h2; rfl

/-! ## recursion depth -/

/-- `j` is a child of `i` -/
def Child (g : SGraph α) (i j : Nat) : Prop := ∃ js, g[i]? = some js ∧ Item.node j ∈ js

theorem Den.acyclic {g : SGraph α} {a l} (h : Den g a l) :
    ∀ i, Item.node i ∈ a → ¬ Relation.TransGen (Child g) i i := by
  induction h with
  | nil => simp
  | term _ ih => intro i hi; exact ih i (by simpa using hi)
  | @node i js l is m hj h1 _ ih1 ih2 =>
    intro k hk
    simp at hk
    rcases hk with rfl | hk
    · intro hc
      obtain ⟨c, hc1, hc2⟩ := Relation.TransGen.head'_iff.1 hc
      obtain ⟨js', hjs, hm⟩ := hc1
      rw [hj] at hjs; cases hjs
      refine ih1 c hm ?_
      exact Relation.TransGen.tail' hc2 ⟨js, hj, hm⟩
    · exact ih2 k hk

open Classical in
/-- number of nodes below a node -/
noncomputable def below (g : SGraph α) (v : Nat) : Nat :=
  ((Finset.range g.length).filter (Relation.ReflTransGen (Child g) v)).card

theorem below_le (g : SGraph α) (v : Nat) : below g v ≤ g.length := by
  classical
  unfold below
  exact (Finset.card_filter_le _ _).trans (by simp)

theorem below_lt {g : SGraph α} {v c l} (h : Den g [.node v] l) (hc : Child g v c) :
    below g c < below g v := by
  classical
  unfold below
  apply Finset.card_lt_card
  refine Finset.ssubset_iff_of_subset ?_ |>.2 ⟨v, ?_, ?_⟩
  · intro w hw
    simp only [Finset.mem_filter] at hw ⊢
    exact ⟨hw.1, Relation.ReflTransGen.head hc hw.2⟩
  · obtain ⟨js, hjs, _⟩ := hc
    simp only [Finset.mem_filter, Finset.mem_range]
    exact ⟨(List.getElem?_eq_some_iff.1 hjs).1, .refl⟩
  · simp only [Finset.mem_filter, not_and]
    intro _ hr
    exact h.acyclic v (by simp) (Relation.TransGen.head' hc hr)

theorem below_pos {g : SGraph α} {v l} (h : Den g [.node v] l) : 0 < below g v := by
  classical
  obtain ⟨js, hjs, _⟩ := h.single_inv
  unfold below
  apply Finset.card_pos.2
  exact ⟨v, by simp [(List.getElem?_eq_some_iff.1 hjs).1, Relation.ReflTransGen.refl]⟩

/-! ## depth first search -/

/-- children come before their parents -/
def Topo (g : SGraph α) (idx : List Nat) : Prop :=
  ∀ pre v post, idx = pre ++ v :: post →
    ∃ js, g[v]? = some js ∧ ∀ j, Item.node j ∈ js → j ∈ pre

theorem Topo.snoc {g : SGraph α} {idx v js} (h : Topo g idx) (hv : g[v]? = some js)
    (hj : ∀ j, Item.node j ∈ js → j ∈ idx) : Topo g (idx ++ [v]) := by
  intro pre w post he
  rcases List.eq_nil_or_concat post with rfl | ⟨post', x, rfl⟩
  · have := List.append_inj' he rfl
    obtain ⟨rfl, hw⟩ := this
    simp at hw; subst hw
    exact ⟨js, hv, hj⟩
  · have : idx ++ [v] = (pre ++ w :: post') ++ [x] := by simpa using he
    have := List.append_inj' this rfl
    exact h _ _ _ this.1

theorem Topo.den {g : SGraph α} {idx} (h : Topo g idx) : ∀ v ∈ idx, ∃ l, Den g [.node v] l := by
  have key : ∀ n, ∀ pre post, idx = pre ++ post → pre.length = n →
      ∀ v ∈ pre, ∃ l, Den g [.node v] l := by
    intro n
    induction n with
    | zero => intro pre post _ hl; simp at hl; subst hl; simp
    | succ n ih =>
      intro pre post he hl v hv
      rcases List.eq_nil_or_concat pre with rfl | ⟨pre', x, rfl⟩
      · simp at hl
      · simp at hl hv
        rcases hv with hv | rfl
        · exact ih pre' (x :: post) (by simp [he]) hl v hv
        · obtain ⟨js, hjs, hm⟩ := h pre' v post (by simp [he])
          obtain ⟨l, hl'⟩ := Den.of_nodes (g := g) js
            (fun j hj => ih pre' (v :: post) (by simp [he]) hl j (hm j hj))
          exact ⟨l, .single hjs hl'⟩
  intro v hv
  exact key _ idx [] (by simp) rfl v hv

/-- what a call of `dfs` (or a part of its loop) guarantees -/
def DfsPost (g : SGraph α) (idx idx' : List Nat) : Prop :=
  idx ⊆ idx' ∧ (Topo g idx → Topo g idx')

theorem dfs_sound (g : SGraph α) : ∀ depth v idx idx', dfs g depth v idx = .ok idx' →
    DfsPost g idx idx' ∧ v ∈ idx' := by
  intro depth
  induction depth with
  | zero => intro v idx idx' h; simp [dfs] at h
  | succ depth ih =>
    intro v idx idx' h
    simp only [dfs] at h
    obtain ⟨children, hc, h⟩ := py_bind_eq_ok.1 h
    obtain ⟨idx1, h1, h⟩ := py_bind_eq_ok.1 h
    simp at h; subst h
    rw [pyGet_ok_iff] at hc
    have key : ∀ (cs : List (Item α)) idx idx1, cs.foldlM (fun idx c =>
        match c with
        | .term _ => (pure idx : Py _)
        | .node j => if j ∈ idx then pure idx else dfs g depth j idx) idx = .ok idx1 →
        DfsPost g idx idx1 ∧ ∀ j, Item.node j ∈ cs → j ∈ idx1 := by
      intro cs
      induction cs with
      | nil => intro idx idx1 h; simp at h; subst h; exact ⟨⟨fun _ h => h, id⟩, by simp⟩
      | cons c cs ihc =>
        intro idx idx1 h
        rw [List.foldlM_cons] at h
        obtain ⟨idx2, h2, h⟩ := py_bind_eq_ok.1 h
        obtain ⟨⟨hp1, hp2⟩, hm⟩ := ihc _ _ h
        cases c with
        | term v =>
          simp at h2; subst h2
          exact ⟨⟨hp1, hp2⟩, by simpa using hm⟩
        | node j =>
          simp only at h2
          split at h2
          · rename_i hj
            simp at h2; subst h2
            refine ⟨⟨hp1, hp2⟩, ?_⟩
            intro k hk
            simp at hk
            rcases hk with rfl | hk
            · exact hp1 hj
            · exact hm k hk
          · obtain ⟨⟨h3, h4⟩, h5⟩ := ih _ _ _ h2
            refine ⟨⟨fun _ h => hp1 (h3 h), fun h => hp2 (h4 h)⟩, ?_⟩
            intro k hk
            simp at hk
            rcases hk with rfl | hk
            · exact hp1 h5
            · exact hm k hk
    obtain ⟨⟨h2, h3⟩, h4⟩ := key _ _ _ h1
    refine ⟨⟨fun x hx => by simp [h2 hx], fun ht => (h3 ht).snoc hc h4⟩, by simp⟩

theorem dfs_total (g : SGraph α) : ∀ depth v idx l, Den g [.node v] l → below g v ≤ depth →
    ∃ idx', dfs g depth v idx = .ok idx' := by
  intro depth
  induction depth with
  | zero => intro v idx l h hb; have := below_pos h; omega
  | succ depth ih =>
    intro v idx l h hb
    obtain ⟨js, hjs, hd⟩ := h.single_inv
    have hsub : ∀ j, Item.node j ∈ js → below g j ≤ depth := fun j hj => by
      have := below_lt h ⟨js, hjs, hj⟩; omega
    have key : ∀ (cs : List (Item α)) idx, (∀ c ∈ cs, c ∈ js) → ∃ idx1, cs.foldlM (fun idx c =>
        match c with
        | .term _ => (pure idx : Py _)
        | .node j => if j ∈ idx then pure idx else dfs g depth j idx) idx = .ok idx1 := by
      intro cs
      induction cs with
      | nil => intro idx _; exact ⟨idx, rfl⟩
      | cons c cs ihc =>
        intro idx hcs
        rw [List.foldlM_cons]
        have hcs' : ∀ c ∈ cs, c ∈ js := fun c hc => hcs c (by simp [hc])
        cases c with
        | term v => simp; exact ihc idx hcs'
        | node j =>
          simp only
          split
          · simp; exact ihc idx hcs'
          · have hj : Item.node j ∈ js := hcs _ (by simp)
            obtain ⟨m, hm⟩ := hd.mem_node hj
            obtain ⟨idx2, h2⟩ := ih j idx m hm (hsub j hj)
            rw [h2]; simp; exact ihc idx2 hcs'
    obtain ⟨idx1, h1⟩ := key js idx (fun _ h => h)
    refine ⟨idx1 ++ [v], ?_⟩
    simp only [dfs, pyGet_ok_iff.2 hjs, py_bind_ok]
    exact py_bind_eq_ok.2 ⟨idx1, h1, rfl⟩

/-! ## counting -/

/-- `nc` is right on the nodes of `done` -/
def Counts (g : SGraph α) (done : List Nat) (nc : List (Option Nat)) : Prop :=
  nc.length = g.length ∧ ∀ v ∈ done, ∀ l, Den g [.node v] l → nc[v]? = some (some l.length)

theorem itemsCount_ok {g : SGraph α} {done nc} (h : Counts g done nc) {items l}
    (hd : Den g items l) (hm : ∀ j, Item.node j ∈ items → j ∈ done) :
    itemsCount nc items = .ok l.length := by
  have : ∃ ns, items.mapM (itemCount nc) = .ok ns ∧ ns.sum = l.length := by
    induction hd with
    | nil => exact ⟨[], rfl, rfl⟩
    | term _ ih =>
      obtain ⟨ns, h1, h2⟩ := ih (fun j hj => hm j (by simp [hj]))
      exact ⟨1 :: ns, by simp [itemCount, h1], by simp [h2]; omega⟩
    | @node i js l is m hi hj _ _ ih =>
      obtain ⟨ns, h1, h2⟩ := ih (fun j hj => hm j (by simp [hj]))
      have := h.2 i (hm i (by simp)) l (.single hi hj)
      exact ⟨l.length :: ns, by simp [itemCount, this, h1], by simp [h2]⟩
  obtain ⟨ns, h1, h2⟩ := this
  simp [itemsCount, h1, h2]

theorem fillCounts_ok {g : SGraph α} {idx} (ht : Topo g idx) : ∀ post pre nc, idx = pre ++ post →
    Counts g pre nc → ∃ nc', fillCounts g post nc = .ok nc' ∧ Counts g idx nc' := by
  intro post
  induction post with
  | nil => intro pre nc he hc; simp at he; subst he; exact ⟨nc, rfl, hc⟩
  | cons v post ih =>
    intro pre nc he hc
    obtain ⟨js, hjs, hm⟩ := ht pre v post he
    obtain ⟨l, hl⟩ := ht.den v (by simp [he])
    have hl' : Den g js l := by
      obtain ⟨js', h1, h2⟩ := hl.single_inv
      rw [hjs] at h1; cases h1; exact h2
    have h1 := itemsCount_ok hc hl' hm
    have hv : v < nc.length := by rw [hc.1]; exact (List.getElem?_eq_some_iff.1 hjs).1
    have hc' : Counts g (pre ++ [v]) (nc.set v (some l.length)) := by
      refine ⟨by simp [hc.1], ?_⟩
      intro w hw m hm'
      by_cases hwv : w = v
      · subst hwv
        rw [hm'.unique hl]
        simp [hv]
      · simp [hwv] at hw
        rw [List.getElem?_set_ne (Ne.symm hwv)]
        exact hc.2 w hw m hm'
    obtain ⟨nc', h2, h3⟩ := ih (pre ++ [v]) _ (by simp [he]) hc'
    refine ⟨nc', ?_, h3⟩
    unfold fillCounts at h2 ⊢
    rw [List.foldlM_cons]
    simp [pyGet_ok_iff.2 hjs, h1]
    simpa using h2

/-! ## the constructor -/

theorem ofGraph_ok {g : SGraph α} {l} (h : Den g [.node 0] l) : ∃ p, ofGraph g = .ok p ∧
    p.graph = g := by
  obtain ⟨idx, hidx⟩ := dfs_total g (g.length + 1) 0 [] l h (by have := below_le g 0; omega)
  obtain ⟨⟨_, ht⟩, h0⟩ := dfs_sound _ _ _ _ _ hidx
  have ht : Topo g idx := ht (by intro pre v post h; simp at h)
  obtain ⟨nc, h1, h2⟩ := fillCounts_ok ht idx [] (List.replicate g.length none) (by simp)
    ⟨by simp, by simp⟩
  exact ⟨⟨g, idx, nc⟩, by simp [ofGraph, hidx, h1], rfl⟩

/-- what the constructor guarantees -/
structure Good (p : SLP α) (l : List α) : Prop where
  den : Den p.graph [.node 0] l
  counts : ∃ done, 0 ∈ done ∧ Topo p.graph done ∧ Counts p.graph done p.numChildren

theorem ofGraph_good {g : SGraph α} {p} (h : ofGraph g = .ok p) : p.graph = g ∧ ∃ l, Good p l := by
  unfold ofGraph at h
  obtain ⟨idx, hidx, h⟩ := py_bind_eq_ok.1 h
  obtain ⟨nc, hnc, h⟩ := py_bind_eq_ok.1 h
  simp at h; subst h
  obtain ⟨⟨_, ht⟩, h0⟩ := dfs_sound _ _ _ _ _ hidx
  have ht : Topo g idx := ht (by intro pre v post h; simp at h)
  obtain ⟨l, hl⟩ := ht.den 0 h0
  obtain ⟨nc', h1, h2⟩ := fillCounts_ok ht idx [] (List.replicate g.length none) (by simp)
    ⟨by simp, by simp⟩
  rw [hnc] at h1; cases h1
  exact ⟨rfl, l, hl, idx, h0, ht, h2⟩

theorem Constructed.good {p : SLP α} (h : Constructed p) : ∃ l, Good p l := by
  obtain ⟨g, hg⟩ := h
  exact (ofGraph_good hg).2

theorem Good.lists {p : SLP α} {l} (h : Good p l) : Lists p l := h.den.lists

theorem Constructed.den {p : SLP α} (h : Constructed p) {l} (hl : Lists p l) :
    Den p.graph [.node 0] l := by
  obtain ⟨m, hm⟩ := h.good
  rw [hl.unique hm.lists]; exact hm.den

theorem Constructed.good' {p : SLP α} (h : Constructed p) {l} (hl : Lists p l) : Good p l := by
  obtain ⟨m, hm⟩ := h.good
  rw [hl.unique hm.lists]; exact hm

theorem build {g : SGraph α} {l} (h : Den g [.node 0] l) :
    ∃ p, ofGraph g = .ok p ∧ Constructed p ∧ Lists p l := by
  obtain ⟨p, h1, h2⟩ := ofGraph_ok h
  exact ⟨p, h1, ⟨g, h1⟩, Den.lists (by rw [h2]; exact h)⟩

theorem Good.len {p : SLP α} {l} (h : Good p l) : p.len = .ok l.length := by
  obtain ⟨done, h0, _, hc⟩ := h.counts
  have := hc.2 0 h0 l h.den
  unfold SLP.len
  rw [this]

/-! ## random access -/

theorem scan_ok {p : SLP α} {done} (hc : Counts p.graph done p.numChildren) {items l}
    (hd : Den p.graph items l) (hm : ∀ j, Item.node j ∈ items → j ∈ done) :
    ∀ value x, l[value]? = some x →
    scan p items value = .ok (.found x) ∨ ∃ j value' m, Item.node j ∈ items ∧
      scan p items value = .ok (.jump j value') ∧ Den p.graph [.node j] m ∧ m[value']? = some x := by
  induction hd with
  | nil => intro value x h; simp at h
  | @term v is l _ ih =>
    intro value x h
    simp only [scan]
    split
    · subst value; simp at h; subst h; exact .inl rfl
    · rename_i h0
      obtain ⟨k, rfl⟩ := Nat.exists_eq_succ_of_ne_zero h0
      simp at h
      rcases ih (fun j hj => hm j (by simp [hj])) k x h with h | ⟨j, v', m, h1, h2, h3⟩
      · exact .inl (by simpa using h)
      · exact .inr ⟨j, v', m, by simp [h1], by simpa using h2, h3⟩
  | @node i js l is m hi hj _ _ ih =>
    intro value x h
    have hcnt := hc.2 i (hm i (by simp)) l (.single hi hj)
    have hcnt' : itemCount (α := α) p.numChildren (.node i) = .ok l.length := by
      simp [itemCount, hcnt]
    simp only [scan, hcnt', py_bind_ok]
    split
    · rename_i hlt
      rw [List.getElem?_append_left hlt] at h
      exact .inr ⟨i, value, l, by simp, rfl, .single hi hj, h⟩
    · rename_i hge
      rw [List.getElem?_append_right (by omega)] at h
      rcases ih (fun j hj => hm j (by simp [hj])) _ x h with h | ⟨j, v', m, h1, h2, h3⟩
      · exact .inl h
      · exact .inr ⟨j, v', m, by simp [h1], h2, h3⟩

theorem Topo.closed {g : SGraph α} {idx v js} (h : Topo g idx) (hv : v ∈ idx)
    (hjs : g[v]? = some js) : ∀ j, Item.node j ∈ js → j ∈ idx := by
  obtain ⟨a, b, rfl⟩ := List.append_of_mem hv
  obtain ⟨js', h1, h2⟩ := h a v b rfl
  rw [hjs] at h1; cases h1
  intro j hj; simp [h2 j hj]

theorem descend_ok {p : SLP α} {done} (hc : Counts p.graph done p.numChildren)
    (ht : Topo p.graph done) : ∀ rounds index value l x, index ∈ done →
    Den p.graph [.node index] l → below p.graph index ≤ rounds → l[value]? = some x →
    descend p rounds index value = .ok x := by
  intro rounds
  induction rounds with
  | zero => intro index value l x _ hd hb; have := below_pos hd; omega
  | succ rounds ih =>
    intro index value l x hi hd hb hx
    obtain ⟨js, hjs, hd'⟩ := hd.single_inv
    simp only [descend, pyGet_ok_iff.2 hjs, py_bind_ok]
    have hcl := ht.closed hi hjs
    rcases scan_ok hc hd' hcl value x hx with h | ⟨j, v', m, h1, h2, h3, h4⟩
    · simp [h]
    · simp only [h2, py_bind_ok]
      have := below_lt hd ⟨js, hjs, h1⟩
      exact ih j v' m x (hcl j h1) h3 (by omega) h4

theorem getItem_spec {p : SLP α} {l} (h : Good p l) (i : Int) :
    p.getItem i = match (if 0 ≤ i then l[i.toNat]? else if -(l.length : Int) ≤ i then
      l[(l.length + i).toNat]? else none) with
      | some x => .ok x
      | none => .error .indexError := by
  obtain ⟨done, h0, ht, hc⟩ := h.counts
  have hb := below_le p.graph 0
  unfold getItem
  simp only [h.len, py_bind_ok]
  split
  · rename_i hi
    split
    · rename_i x hx
      exfalso
      split at hx
      · have := (List.getElem?_eq_some_iff.1 hx).1; omega
      · split at hx
        · omega
        · simp at hx
    · rfl
  · rename_i hi
    push Not at hi
    obtain ⟨x, hx⟩ : ∃ x, l[(if i < 0 then (l.length : Int) + i else i).toNat]? = some x := by
      refine ⟨_, List.getElem?_eq_getElem ?_⟩
      split <;> omega
    rw [descend_ok hc ht _ 0 _ l x h0 h.den (by omega) hx]
    by_cases hn : i < 0
    · simp only [hn, if_true] at hx
      rw [if_neg (by omega), if_pos (by omega), hx]
    · simp only [hn, if_false] at hx
      rw [if_pos (by omega), hx]

/-! ## operations -/

theorem Den.of_shift {g : SGraph α} {a l} (h : Den g a l) (G : SGraph α) (k : Nat)
    (hG : ∀ i js, g[i]? = some js → G[i + k]? = some (js.map (shiftItem k))) :
    Den G (a.map (shiftItem k)) l := by
  induction h with
  | nil => exact .nil
  | term _ ih => exact .term ih
  | node hi _ _ ih1 ih2 => exact .node (hG _ _ hi) ih1 ih2

theorem shift_getElem? {g : SGraph α} {k i : Nat} {js : List (Item α)} (h : g[i]? = some js) :
    (shift g k)[i]? = some (js.map (shiftItem k)) := by simp [shift, h]

@[simp] theorem shift_length (g : SGraph α) (k : Nat) : (shift g k).length = g.length := by
  simp [shift]

/-- a graph placed inside another one -/
theorem Den.embed {g : SGraph α} {l} (h : Den g [.node 0] l) (pre post : SGraph α) {k : Nat}
    (hk : pre.length = k) : Den (pre ++ shift g k ++ post) [.node k] l := by
  have := h.of_shift (pre ++ shift g k ++ post) k (by
    intro i js hi
    have hlt := (List.getElem?_eq_some_iff.1 hi).1
    rw [List.append_assoc, List.getElem?_append_right (by omega),
      List.getElem?_append_left (by simp; omega)]
    rw [show i + k - pre.length = i by omega]
    exact shift_getElem? hi)
  simpa [shiftItem] using this

theorem ofValues_ok (xs : List α) : ∃ p, ofValues xs = .ok p ∧ Constructed p ∧ Lists p xs := by
  apply build
  refine .single (js := xs.map Item.term) rfl ?_
  induction xs with
  | nil => exact .nil
  | cons x xs ih =>
    have key : ∀ (g : SGraph α) ys, Den g (ys.map Item.term) ys := by
      intro g ys
      induction ys with
      | nil => exact .nil
      | cons y ys ih => exact .term ih
    exact key _ _

theorem add_ok {p q : SLP α} (hp : Constructed p) (hq : Constructed q) {l m} (hl : Lists p l)
    (hm : Lists q m) : ∃ r, add p q = .ok r ∧ Constructed r ∧ Lists r (l ++ m) := by
  apply build
  have h1 := (hp.den hl).embed [[.node 1, .node (p.size + 1)]] (shift q.graph (p.size + 1))
    (k := 1) rfl
  have h2 := (hq.den hm).embed ([[.node 1, .node (p.size + 1)]] ++ shift p.graph 1) []
    (k := p.size + 1) (by simp [size])
  rw [List.append_nil] at h2
  refine .single (js := [.node 1, .node (p.size + 1)]) rfl ?_
  exact h1.append h2

theorem reverse_ok {p : SLP α} (hp : Constructed p) {l} (hl : Lists p l) :
    ∃ r, reverse p = .ok r ∧ Constructed r ∧ Lists r l.reverse := by
  apply build
  have key : ∀ {a l}, Den p.graph a l → Den (p.graph.map List.reverse) a.reverse l.reverse := by
    intro a l h
    induction h with
    | nil => exact .nil
    | term _ ih =>
      simp only [List.reverse_cons]
      exact ih.append (.term .nil)
    | node hi _ _ ih1 ih2 =>
      simp only [List.reverse_cons, List.reverse_append]
      exact ih2.append (.single (by simp [hi]) ih1)
  simpa using key (hp.den hl)

theorem map_ok (f : α → β) {p : SLP α} (hp : Constructed p) {l} (hl : Lists p l) :
    ∃ r, map f p = .ok r ∧ Constructed r ∧ Lists r (l.map f) := by
  apply build
  have key : ∀ {a l}, Den p.graph a l →
      Den (p.graph.map (·.map (mapItem f))) (a.map (mapItem f)) (l.map f) := by
    intro a l h
    induction h with
    | nil => exact .nil
    | term _ ih => exact .term ih
    | node hi _ _ ih1 ih2 =>
      simp only [List.map_cons, List.map_append]
      exact .node (by simp [hi]) ih1 ih2
  simpa [mapItem] using key (hp.den hl)

theorem starts_length (s : Nat) (ns : List Nat) : (starts s ns).length = ns.length + 1 := by
  induction ns generalizing s with
  | nil => rfl
  | cons n ns ih => simp [starts, ih]

theorem sum_den : ∀ (ps : List (SLP α)) (ls : List (List α)) (pre : SGraph α) (G : SGraph α),
    List.Forall₂ (fun p l => Den p.graph [.node 0] l) ps ls →
    G = pre ++ (ps.zip (starts pre.length (ps.map size))).flatMap (fun q => shift q.1.graph q.2) →
    Den G ((starts pre.length (ps.map size)).dropLast.map Item.node) ls.flatten := by
  intro ps
  induction ps with
  | nil => intro ls pre G h hG; cases h; exact .nil
  | cons p ps ih =>
    intro ls pre G h hG
    cases h with
    | cons hp hps =>
      rename_i l ls
      have hne : starts (pre.length + p.size) (ps.map size) ≠ [] := by
        intro h; have := starts_length (pre.length + p.size) (ps.map size); simp [h] at this
      simp only [List.map_cons, starts, List.dropLast_cons_of_ne_nil hne, List.flatten_cons]
      have h1 : Den G [.node pre.length] l := by
        have := hp.embed pre ((ps.zip (starts (pre.length + p.size) (ps.map size))).flatMap
          (fun q => shift q.1.graph q.2)) (k := pre.length) rfl
        rw [hG]; simpa [starts] using this
      have hl : (pre ++ shift p.graph pre.length).length = pre.length + p.size := by simp [size]
      have h2 := ih ls (pre ++ shift p.graph pre.length) G hps (by
        rw [hl, hG]; simp [starts])
      rw [hl] at h2
      exact h1.append h2

theorem sum_ok {ps : List (SLP α)} {ls : List (List α)} (hp : ∀ p ∈ ps, Constructed p)
    (hl : List.Forall₂ Lists ps ls) :
    ∃ r, sum ps = .ok r ∧ Constructed r ∧ Lists r ls.flatten := by
  have hden : List.Forall₂ (fun p l => Den p.graph [.node 0] l) ps ls := by
    induction hl with
    | nil => exact .nil
    | cons h _ ih =>
      exact .cons ((hp _ (by simp)).den h) (ih (fun p h => hp p (by simp [h])))
  have main := sum_den ps ls [(starts 1 (ps.map size)).dropLast.map Item.node] _ hden rfl
  match ps, ls, hl, hp, main with
  | [p], [l], hl, hp, main =>
    cases hl with
    | cons h _ => exact ⟨p, rfl, hp p (by simp), by simpa using h⟩
  | [], ls, hl, _, main => exact build (.single rfl main)
  | p :: q :: ps, ls, hl, _, main =>
    unfold sum
    exact build (.single rfl main)

/-! ## repetition -/

theorem binary_go_spec : ∀ k n, n ≤ k →
    (binary.go k n).foldr (fun b s => b.toNat + 2 * s) 0 = n := by
  intro k
  induction k with
  | zero => intro n h; have : n = 0 := by omega
            subst this; rfl
  | succ k ih =>
    intro n h
    cases n with
    | zero => rfl
    | succ m =>
      simp only [binary.go, List.foldr_cons]
      rw [ih _ (by omega)]
      rcases Nat.mod_two_eq_zero_or_one (m + 1) with h | h <;> simp [h] <;> omega

/-- value of the binary digits, most significant first -/
def bitsVal : List Bool → Nat
  | [] => 0
  | b :: bs => b.toNat * 2 ^ bs.length + bitsVal bs

theorem bitsVal_append (as bs : List Bool) :
    bitsVal (as ++ bs) = bitsVal as * 2 ^ bs.length + bitsVal bs := by
  induction as with
  | nil => simp [bitsVal]
  | cons a as ih => simp [bitsVal, ih, Nat.pow_add, Nat.add_mul, Nat.mul_assoc, Nat.add_assoc]

theorem bitsVal_reverse (bs : List Bool) :
    bitsVal bs.reverse = bs.foldr (fun b s => b.toNat + 2 * s) 0 := by
  induction bs with
  | nil => rfl
  | cons b bs ih => simp [bitsVal_append, ih, bitsVal]; omega

theorem binary_val (n : Nat) : bitsVal (binary n) = n := by
  rw [binary, bitsVal_reverse, binary_go_spec _ _ le_rfl]

theorem binary_ne_nil {n : Nat} (h : n ≠ 0) : binary n ≠ [] := by
  intro h'; have := binary_val n; rw [h'] at this; simp [bitsVal] at this; omega

theorem rep_add (l : List α) (a b : Nat) :
    (List.replicate (a + b) l).flatten = (List.replicate a l).flatten ++ (List.replicate b l).flatten := by
  rw [← List.flatten_append, List.replicate_append_replicate]

theorem expansion_den {G : SGraph α} {l : List α} {K : Nat}
    (h : ∀ i, i < K → Den G [.node (i + 1)] (List.replicate (2 ^ (K - 1 - i)) l).flatten) :
    ∀ bs s, s + bs.length = K → Den G (expansion s bs) (List.replicate (bitsVal bs) l).flatten := by
  intro bs
  induction bs with
  | nil => intro s _; exact .nil
  | cons b bs ih =>
    intro s hs
    simp at hs
    have hr := ih (s + 1) (by omega)
    cases b with
    | false => simpa [expansion, bitsVal] using hr
    | true =>
      simp only [expansion, if_true, bitsVal, Bool.toNat_true, Nat.one_mul]
      rw [rep_add]
      have := h s (by omega)
      rw [show K - 1 - s = bs.length by omega] at this
      exact this.append hr

theorem mul_ok {p : SLP α} (hp : Constructed p) {l} (hl : Lists p l) {n : Int} (hn : 0 ≤ n) :
    ∃ r, mul p n = .ok r ∧ Constructed r ∧ Lists r (List.replicate n.toNat l).flatten := by
  unfold mul
  have h0 : pyAssert (decide (n ≥ 0)) = .ok () := by simp [pyAssert, hn]
  rw [h0, py_bind_ok]
  split
  · subst n; simpa using ofValues_ok ([] : List α)
  split
  · subst n; exact ⟨p, rfl, hp, by simpa using hl⟩
  · rename_i hn0 hn1
    set bits := binary n.toNat with hbits
    have hbn : bits ≠ [] := binary_ne_nil (by omega)
    have hlen : 0 < bits.length := List.length_pos_iff.2 hbn
    set bg : SGraph α := (List.range (bits.length - 1)).map
      (fun i => [Item.node (i + 2), Item.node (i + 2)]) with hbg
    have hbgl : bg.length = bits.length - 1 := by simp [hbg]
    apply build
    set G := [expansion 0 bits] ++ bg ++ shift p.graph (bg.length + 1) with hG
    have hbase : Den G [.node bits.length] l := by
      have := (hp.den hl).embed ([expansion 0 bits] ++ bg) [] (k := bg.length + 1)
        (by simp)
      rw [List.append_nil, show bg.length + 1 = bits.length by omega] at this
      rw [hG, show bg.length + 1 = bits.length by omega]; exact this
    have hpow : ∀ j, j < bits.length →
        Den G [.node (bits.length - j)] (List.replicate (2 ^ j) l).flatten := by
      intro j
      induction j with
      | zero => intro _; simpa using hbase
      | succ j ih =>
        intro hj
        have := ih (by omega)
        refine .single (js := [.node (bits.length - j), .node (bits.length - j)]) ?_ ?_
        · rw [hG, List.append_assoc, List.getElem?_append_right (by simp; omega),
            List.getElem?_append_left (by rw [hbgl]; simp; omega)]
          simp only [hbg, List.length_singleton, List.getElem?_map]
          rw [List.getElem?_range (by omega)]
          simp; omega
        · rw [Nat.pow_succ, Nat.mul_two, rep_add]
          exact this.append this
    refine .single (js := expansion 0 bits) (by simp [hG]) ?_
    have := expansion_den (G := G) (l := l) (K := bits.length) (by
      intro i hi
      have := hpow (bits.length - 1 - i) (by omega)
      rwa [show bits.length - (bits.length - 1 - i) = i + 1 by omega] at this) bits 0 (by simp)
    rw [hbits, binary_val] at this
    exact this

end Curver.SLP
