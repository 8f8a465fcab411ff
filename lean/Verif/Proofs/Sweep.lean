import Verif.Proofs.SlideLam

namespace Curver
open Triangulation
namespace Triangulation
variable {T : Triangulation} {a b e : Int} {X : List Int}

/-- `X` lists the edges strictly between `a` and `~a`, rotating about the tail of `a` -/
structure Sweep (T : Triangulation) (a : Int) (X : List Int) : Prop where
  label : T.IsLabel a
  chain : List.IsChain (fun x y => y = T.spin x) (a :: (X ++ [inv a]))
  nodup : (a :: X).Nodup
  notin : inv a ∉ X

theorem Complete.sweep (hT : T.Complete) (ha : T.IsLabel a) {v : List Int} (hv : T.vertexOf a = .ok v) (hi : inv a ∈ v) :
    ∃ X, cyclicSlice v a (some (inv a)) = .ok (a :: X) ∧ Sweep T a X := by
  obtain ⟨w, vs, h1, _, _, h4, h5, h6, h7⟩ := hT.vertexOf_ok ha
  rw [hv] at h1; cases h1
  obtain ⟨p, q, hpq⟩ := List.append_of_mem h4
  have hap : a ∉ p := by
    rw [hpq, List.nodup_append] at h6
    intro h; exact h6.2.2 a h a (by simp) rfl
  have hrot := hpq ▸ h5
  have hr := hrot.rotation
  have hn : (a :: q ++ p).Nodup := by
    rw [hpq] at h6
    exact List.perm_append_comm.nodup_iff.1 h6
  have hmem : inv a ∈ q ++ p := by
    rw [hpq] at hi
    simp only [List.mem_append, List.mem_cons] at hi ⊢
    rcases hi with h | h | h
    · exact .inr h
    · exact absurd h (inv_ne a)
    · exact .inl h
  have hch : List.IsChain (fun x y => y = T.spin x) (a :: (q ++ p)) := by
    have hc := hrot.chain
    have h1 := (List.isChain_append.1 hc)
    rw [← List.cons_append, List.isChain_append]
    refine ⟨h1.2.1, h1.1, ?_⟩
    intro c hc1 d hd1
    have hcl := hrot.closes
    have e1 : (p ++ a :: q).getLast hrot.ne = c := by
      rw [List.getLast_append_of_ne_nil _ (by simp)]
      rw [List.getLast?_eq_getLast_of_ne_nil (by simp)] at hc1
      simpa using hc1
    rw [e1] at hcl
    rcases p with _ | ⟨c', p⟩
    · simp at hd1
    · simp only [List.head?_cons, Option.mem_def, Option.some.injEq] at hd1
      simp only [List.cons_append, List.head?_cons, Option.some.injEq] at hcl
      rw [← hd1, hcl]
  obtain ⟨X, Y, hXY⟩ := List.append_of_mem hmem
  have hn' : (a :: (X ++ inv a :: Y)).Nodup := by rw [← hXY]; exact hn
  have hX : inv a ∉ X := by
    have := (List.nodup_cons.1 hn').2
    rw [List.nodup_append] at this
    intro h; exact this.2.2 _ h _ (by simp) rfl
  refine ⟨X, ?_, ha, ?_, ?_, hX⟩
  · rw [hpq, cyclicSlice_eq p q a (inv a) hap, List.cons_append, hXY]
    congr 1
    rw [List.takeWhile_cons_of_pos (by simpa using (inv_ne a).symm), List.takeWhile_append_of_pos]
    · simp
    · intro z hz
      simp only [decide_not, Bool.not_eq_eq_eq_not, Bool.not_true, decide_eq_false_iff_not]
      rintro rfl; exact hX hz
  · have : a :: (q ++ p) = (a :: (X ++ [inv a])) ++ Y := by rw [hXY]; simp
    rw [this] at hch
    exact hch.left_of_append
  · have h0 : a :: (X ++ inv a :: Y) = (a :: X) ++ inv a :: Y := by simp
    rw [h0] at hn'
    exact hn'.of_append_left

namespace Sweep

theorem labels (h : Sweep T a X) (hT : T.Complete) : ∀ x ∈ X, T.IsLabel x := by
  have := chain_all (P := T.IsLabel) _ _ h.chain h.label (fun z _ hz => hT.isLabel_spin hz)
  intro x hx
  exact this x (by simp [hx])

theorem joined (h : Sweep T a X) (hT : T.Complete) : ∀ x ∈ X, T.Joined a x := by
  have := chain_all (P := fun x => T.IsLabel x ∧ T.Joined a x) _ _ h.chain ⟨h.label, .refl⟩ (fun z _ hz => ⟨hT.isLabel_spin hz.1,
    (hz.2.trans (Joined.of_glues (hT.glues_nxt hz.1)).2).trans Joined.of_inv⟩)
  intro x hx
  exact (this x (by simp [hx])).2

theorem spin_eq (hT : T.Complete) {x y z : Int} (h : T.Glues x y z) : T.spin x = inv z := by
  have hx := (hT.label_of_glues h).1
  unfold spin
  rw [((hT.glues_iff hx).1 h).2]

/-- the first edge -/
theorem first (h : Sweep T a X) (hT : T.Complete) (hg : T.Glues a b e) (hX : X ≠ []) : ∃ X', X = inv e :: X' := by
  cases X with
  | nil => exact absurd rfl hX
  | cons x X' =>
    have := h.chain
    rw [List.cons_append, List.isChain_cons_cons] at this
    rw [spin_eq hT hg] at this
    exact ⟨X', by rw [this.1]⟩

/-- the last edge -/
theorem last (h : Sweep T a X) (hT : T.Complete) (hg : T.Glues a b e) (hX : X ≠ []) : X.getLast hX = b := by
  have := h.chain
  have hc : List.IsChain (fun x y => y = T.spin x) (X ++ [inv a]) := (List.isChain_cons.1 this).2
  have hl := h.labels hT _ (List.getLast_mem hX)
  have h2 := (List.isChain_append.1 hc).2.2 (X.getLast hX) (by rw [List.getLast?_eq_getLast_of_ne_nil hX]; simp) (inv a) (by simp)
  obtain ⟨y, z, hg'⟩ := hT.exists_glues hl
  rw [spin_eq hT hg', inv_inj] at h2
  subst h2
  exact (hT.glues_unique hg'.rot.rot hg).1

theorem eq_concat (h : Sweep T a X) (hT : T.Complete) (hg : T.Glues a b e) (hX : X ≠ []) : X = X.dropLast ++ [b] := by
  conv_lhs => rw [← List.dropLast_append_getLast hX, h.last hT hg hX]

theorem base (h : Sweep T a X) (hT : T.Valid) (hg : T.Glues a b e) (hX : 2 ≤ X.length) : Base T a b e := by
  have hne : X ≠ [] := by rintro rfl; simp at hX
  obtain ⟨X', hX'⟩ := h.first hT.comp hg hne
  have hbm : b ∈ X := by rw [h.eq_concat hT.comp hg hne]; simp
  have hn := List.nodup_cons.1 h.nodup
  refine ⟨hT, hg, ?_, ?_, ?_⟩
  · intro hb
    have hn2 := hn.2
    rw [hX'] at hn2 hX
    have hX'ne : X' ≠ [] := by rintro rfl; simp at hX
    have hl := h.last hT.comp hg hne
    simp only [hX', List.getLast_cons hX'ne] at hl
    exact (List.nodup_cons.1 hn2).1 (by rw [← hb, ← hl]; exact List.getLast_mem hX'ne)
  · intro hb; exact h.notin (hb ▸ hbm)
  · intro he
    apply hn.1
    rw [hX', he, inv_inv]; simp

/-- folding the triangle away: the chain -/
theorem fold_chain (B : Base T a b e) : ∀ (l : List Int) (x y : Int), List.IsChain (fun x y => y = T.spin x) (x :: l) → (x :: l).Nodup → x ≠ e → (x :: l).getLast? = some b →
    T.IsLabel x → (∀ z ∈ l, z ≠ inv e) → ((y = b ∧ x = inv e) ∨ (x ≠ inv e ∧ y = x)) →
    List.IsChain (T.Follows b e) (y :: l.filter (fun z => z ≠ e))
  | [], x, y, _, _, _, _, _, _, _ => by simp
  | [z], x, y, h, hn, hx, hl, hxl, hm, hy => by
    have hz : z = b := by simpa using hl
    subst hz
    have hxb : x ≠ z := by simpa using hn
    rw [List.filter_cons_of_pos (by simpa using B.nes.2.1)]
    simp only [List.filter_nil, List.isChain_cons_cons, List.isChain_singleton, and_true]
    rw [List.isChain_cons_cons] at h
    obtain ⟨p, q, hg⟩ := B.comp.exists_glues hxl
    rw [spin_eq B.comp hg] at h
    have hq : q = inv z := by rw [h.1, inv_inv]
    have hh : hat z e y = x := by
      rcases hy with ⟨rfl, rfl⟩ | ⟨_, rfl⟩
      · exact Base.hat_b
      · exact Base.hat_of_ne hxb
    exact ⟨p, by rw [hh, Base.hat_of_ne (inv_ne z), ← hq]; exact hg⟩
  | z :: w :: l, x, y, h, hn, hx, hl, hxl, hm, hy => by
    rw [List.isChain_cons_cons] at h
    have hxb : x ≠ b := by
      rintro rfl
      have h1 : x ∈ z :: w :: l := by
        have : (z :: w :: l).getLast? = some x := by simpa using hl
        exact List.mem_of_getLast? this
      exact (List.nodup_cons.1 hn).1 h1
    have hh : hat b e y = x := by
      rcases hy with ⟨rfl, rfl⟩ | ⟨_, rfl⟩
      · exact Base.hat_b
      · exact Base.hat_of_ne hxb
    obtain ⟨p, q, hg⟩ := B.comp.exists_glues hxl
    have hq : q = inv z := by rw [h.1, spin_eq B.comp hg, inv_inv]
    have hzl : T.IsLabel z := by rw [h.1]; exact B.comp.isLabel_spin hxl
    have hlz : (z :: w :: l).getLast? = some b := by simpa using hl
    have hnz := (List.nodup_cons.1 hn).2
    by_cases hz : z = e
    · -- the folded edge is skipped
      rw [List.filter_cons_of_neg (by simpa using hz)]
      have h2 := h.2
      rw [List.isChain_cons_cons, hz, spin_eq B.comp B.glues.rot.rot] at h2
      have hwe : w ≠ e := by rw [h2.1]; exact fun k => B.bi (inv_eq_iff.1 k)
      have hwi : w ≠ inv e := hm w (by simp)
      rw [List.filter_cons_of_pos (by simpa using hwe), List.isChain_cons_cons]
      constructor
      · refine ⟨p, ?_⟩
        rw [hh, h2.1, inv_inv, Base.hat_b, ← hz, ← hq]; exact hg
      · refine fold_chain B l w w h2.2 (List.nodup_cons.1 hnz).2 hwe (by simpa using hlz) ?_ (fun u hu => hm u (by simp [hu])) (.inr ⟨hwi, rfl⟩)
        rw [h2.1]; exact isLabel_inv.2 B.labels.2.1
    · rw [List.filter_cons_of_pos (by simpa using hz), List.isChain_cons_cons]
      constructor
      · refine ⟨p, ?_⟩
        rw [hh, Base.hat_of_ne, ← hq]
        · exact hg
        · intro k
          rw [← hq] at k
          subst k
          exact hx (B.comp.glues_unique hg.rot.rot B.glues.rot).1
      · exact fold_chain B (w :: l) z z h.2 hnz hz hlz hzl (fun u hu => hm u (by simp at hu ⊢; tauto)) (.inr ⟨hm z (by simp), rfl⟩)

theorem fan (h : Sweep T a X) (hT : T.Valid) (hg : T.Glues a b e) (hX : 2 ≤ X.length) : Fan T a b e (X.tail.filter (fun z => z ≠ e)) := by
  have B := h.base hT hg hX
  have hc := hT.comp
  have hne : X ≠ [] := by rintro rfl; simp at hX
  obtain ⟨X', hX'⟩ := h.first hc hg hne
  have hn := List.nodup_cons.1 h.nodup
  have hX'ne : X' ≠ [] := by rintro rfl; rw [hX'] at hX; simp at hX
  have hlast : X'.getLast? = some b := by
    have := h.last hc hg hne
    simp only [hX', List.getLast_cons hX'ne] at this
    rw [List.getLast?_eq_getLast_of_ne_nil hX'ne, this]
  have htail : X.tail = X' := by rw [hX']; rfl
  rw [htail]
  have hn2 := hn.2
  rw [hX'] at hn2
  have hn3 := List.nodup_cons.1 hn2
  refine ⟨B, hn3.2.filter _, ?_, ?_, ?_, ?_⟩
  · obtain ⟨l, hl⟩ : ∃ l, X' = l ++ [b] := ⟨X'.dropLast, by
      have := List.dropLast_append_getLast? b (by rw [hlast]; simp)
      exact this.symm⟩
    rw [hl, List.filter_append, List.filter_cons_of_pos (by simpa using B.nes.2.1)]
    simp
  · intro d hd
    rw [List.mem_filter] at hd
    have hde : d ≠ e := by simpa using hd.2
    have hdX : d ∈ X := by rw [hX']; simp [hd.1]
    have h1 : d ≠ inv e := by rintro rfl; exact hn3.1 hd.1
    have h2 : d ≠ a := by rintro rfl; exact hn.1 hdX
    have h3 : d ≠ inv a := by rintro rfl; exact h.notin hdX
    have hl := h.labels hc d hdX
    exact ⟨⟨hl, h2, hde, h1⟩, isLabel_inv.2 hl, fun k => h3 (inv_eq_iff.1 k), fun k => h1 (inv_eq_iff.1 k), fun k => hde (inv_inj.1 k)⟩
  · intro d hd
    rw [List.mem_filter] at hd
    exact h.joined hc d (by rw [hX']; simp [hd.1])
  · have hch := h.chain
    rw [hX'] at hch
    have hch2 : List.IsChain (fun x y => y = T.spin x) (inv e :: X') := by
      have := (List.isChain_cons.1 hch).2
      exact this.left_of_append
    refine fold_chain B X' (inv e) b hch2 hn2 (inv_ne e) ?_ (isLabel_inv.2 B.labels.2.2) (fun z hz k => hn3.1 (k ▸ hz)) (.inl ⟨rfl, rfl⟩)
    rw [List.getLast?_cons_of_ne_nil hX'ne, hlast]

/-- the folded edge is passed exactly when `~b` is -/
theorem mem_iff (h : Sweep T a X) (hT : T.Valid) (hg : T.Glues a b e) (hX : 2 ≤ X.length) : e ∈ X ↔ inv b ∈ X := by
  have B := h.base hT hg hX
  have hc := hT.comp
  have hs : T.spin e = inv b := spin_eq hc B.glues.rot.rot
  constructor
  · intro he
    obtain ⟨z, hz, hr⟩ := chain_succ _ _ h.chain e (by
      have : (a :: (X ++ [inv a])).dropLast = a :: X := by rw [← List.cons_append, List.dropLast_concat]
      rw [this]; simp [he])
    rw [hs] at hr
    rw [hr] at hz
    rcases List.mem_append.1 hz with h | h
    · exact h
    · have : inv b = inv a := by simpa using h
      exact absurd (inv_inj.1 this).symm B.nes.1
  · intro hb
    obtain ⟨z, hz, hr⟩ := chain_prev _ _ h.chain (inv b) (by simp [hb])
    have : (a :: (X ++ [inv a])).dropLast = a :: X := by rw [← List.cons_append, List.dropLast_concat]
    rw [this] at hz
    have hzl : T.IsLabel z := by
      rcases List.mem_cons.1 hz with rfl | hz
      · exact h.label
      · exact h.labels hc z hz
    have hze := hc.spin_inj hzl B.labels.2.2 (by rw [← hr, hs])
    rcases List.mem_cons.1 hz with k | k
    · exact absurd (hze ▸ k) B.nes.2.2
    · exact hze ▸ k

end Sweep
end Triangulation
end Curver
