import Verif.Proofs.Room
import Verif.Proofs.HalfAct

/-!
# Encodings that keep an edge fixed
-/

namespace Curver
open Triangulation

/-- the move is a flip of another edge, or an isometry that fixes `f` -/
inductive LMove.Spares (f : Int) : LMove → Prop
  | flip (S T : Triangulation) (e : Int) (hS : S.Valid) (he : S.Flippable e) (h : S.IsMultiflip [e] T) (hf : f ≠ e ∧ f ≠ inv e) : LMove.Spares f (flipMove S T e)
  | isometry (S T : Triangulation) (φ g : Int → Int) (i i' : Isometry) (hS : S.Valid) (hT : T.Valid) (hf : S.IsIsometry T φ)
      (hg : T.IsIsometry S g) (hi : i.Acts S T φ) (hi' : i'.Acts T S g) (hgf : ∀ e, S.IsLabel e → g (φ e) = e)
      (hfg : ∀ e, T.IsLabel e → φ (g e) = e) (hl : S.IsLabel f) (hff : φ f = f) : LMove.Spares f ⟨.isometry i, .isometry i'⟩

/-- all moves keep `f` -/
def Enc.Spares (f : Int) (h : Enc) : Prop := ∀ m ∈ h.sequence, m.Spares f

theorem LMove.Legal.spares_isometry {m : LMove} (h : m.Legal) {S T : Triangulation} {φ : Int → Int} (hm : m.IsIsometryMove S T φ) {f : Int} (hl : S.IsLabel f) (hf : φ f = f) :
    m.Spares f := by
  obtain ⟨i, h1, h2, h3, h4, h5⟩ := hm
  cases h.shape with
  | flip S T e hS he hm => cases h1
  | multiflip S T es hS he hm => cases h1
  | isometry S' T' f' g' i' i'' hS hT' hf' hg hi hi' hgf hfg =>
    injection h1 with h1
    subst h1
    have hs := hi.source.symm.trans h2
    have ht := hi.target.symm.trans h3
    subst hs ht
    have := hi.label.get? hl
    rw [h4.get? hl, hf] at this
    injection this with this
    exact .isometry _ _ f' g' i' i'' hS hT' hf' hg hi hi' hgf hfg hl this.symm

namespace LMove
variable {f : Int} {m : LMove}

theorem Spares.inverse (h : m.Spares f) : m.inverse.Spares f := by
  cases h with
  | flip S T e hS he h hf =>
    have hd := disjoint_singleton.2 he
    have : (flipMove S T e).inverse = flipMove T S (inv e) := by unfold flipMove LMove.inverse; rw [inv_inv]
    rw [this]
    exact .flip T S (inv e) h.valid (disjoint_singleton.1 (h.disjoint hS hd)) (h.inverse hS hd) ⟨hf.2, by rw [inv_inv]; exact hf.1⟩
  | isometry S T φ g i i' hS hT hf hg hi hi' hgf hfg hl hff =>
    have hl' : T.IsLabel f := by have := hf.maps f hl; rwa [hff] at this
    refine .isometry T S g φ i' i hT hS hg hf hi' hi hfg hgf hl' ?_
    have := hgf f hl
    rwa [hff] at this

end LMove

namespace Enc
variable {f : Int} {g h k : Enc}

theorem mem_trim {s : List LMove} {m : LMove} (h : m ∈ trim s) : m ∈ s := by
  unfold trim at h
  dsimp only at h
  have key : ∀ t : List LMove, m ∈ (if droppable t t.head? = true then t.tail else t) → m ∈ t := by
    intro t ht
    split_ifs at ht
    · exact List.mem_of_mem_tail ht
    · exact ht
  have := key _ h
  split_ifs at this
  · exact List.dropLast_subset _ this
  · exact this

theorem create_spares {kind : EncKind} {s : List LMove} (hc : create kind s = .ok h) (hs : ∀ m ∈ s, m.Spares f) : h.Spares f := by
  unfold create at hc
  rw [py_bind_eq_ok] at hc
  obtain ⟨_, _, hc⟩ := hc
  dsimp only at hc
  split at hc
  · cases hc
    intro m hm
    exact hs m (mem_trim hm)
  · cases hc

theorem Spares.inverse (hh : h.Spares f) (hi : h.inverse = .ok k) : k.Spares f := by
  refine create_spares hi ?_
  intro m hm
  rw [List.mem_map] at hm
  obtain ⟨n, hn, rfl⟩ := hm
  exact (hh n (List.mem_reverse.1 hn)).inverse

theorem Spares.mul (hg : g.Spares f) (hh : h.Spares f) (hm : g.mul h = .ok k) : k.Spares f := by
  have : ∀ m ∈ g.sequence ++ h.sequence, m.Spares f := by
    intro m hm
    rcases List.mem_append.1 hm with hm | hm
    · exact hg m hm
    · exact hh m hm
  unfold Enc.mul at hm
  split_ifs at hm
  all_goals exact create_spares hm this

theorem Spares.conjugateBy (hg : g.Spares f) (hh : h.Spares f) (hm : g.conjugateBy h = .ok k) : k.Spares f := by
  unfold Enc.conjugateBy at hm
  rw [py_bind_eq_ok] at hm
  obtain ⟨i, h1, hm⟩ := hm
  rw [py_bind_eq_ok] at hm
  obtain ⟨x, h2, hm⟩ := hm
  exact ((hh.inverse h1).mul hg h2).mul hh hm

theorem Spares.promote (hh : h.Spares f) (hm : h.promote = .ok k) : k.Spares f := by
  unfold Enc.promote at hm
  split_ifs at hm
  all_goals exact create_spares hm hh

theorem encode_spares {m : LMove} (hm : m.Spares f) (he : m.encode = .ok h) : h.Spares f := by
  unfold LMove.encode at he
  rw [py_bind_eq_ok] at he
  obtain ⟨k, h1, he⟩ := he
  exact Spares.promote (create_spares h1 (by simpa using hm)) he

theorem id_spares {T : Triangulation} (hT : T.Valid) (hf : T.IsLabel f) (hi : T.idEncoding = .ok h) : h.Spares f := by
  obtain ⟨m, h1, h2, h3, h4, h5⟩ := hT.idEncoding
  rw [h1] at hi
  cases hi
  intro n hn
  rw [List.mem_singleton] at hn
  subst hn
  cases h2.shape with
  | flip S T e hS he hm => cases h5
  | multiflip S T es hS he hm => cases h5
  | isometry S T' φ g' i' i'' hS hT' hf' hg hi hi' hgf hfg =>
    replace h3 : i'.source = T := h3
    replace h5 : i'.isIdentity = true := h5
    have := hi.source
    rw [h3] at this
    subst this
    exact .isometry _ _ φ g' i' i'' hS hT' hf' hg hi hi' hgf hfg hf (hi.isIdentity_iff.1 h5 f hf)

theorem Spares.pow (hT : h.source.Valid) (hf : h.source.IsLabel f) (hh : h.Spares f) {n : Int} (hp : h.pow n = .ok k) : k.Spares f := by
  unfold Enc.pow at hp
  split_ifs at hp with h1 h2
  · exact id_spares hT hf hp
  · refine create_spares hp ?_
    intro m hm
    rw [List.mem_flatten] at hm
    obtain ⟨l, hl, hm⟩ := hm
    rw [List.eq_of_mem_replicate hl] at hm
    exact hh m hm
  · rw [py_bind_eq_ok] at hp
    obtain ⟨g, h3, hp⟩ := hp
    refine create_spares hp ?_
    intro m hm
    rw [List.mem_flatten] at hm
    obtain ⟨l, hl, hm⟩ := hm
    rw [List.eq_of_mem_replicate hl] at hm
    exact (hh.inverse h3) m hm

end Enc

namespace Lam

/-- the lamination with these weights -/
def make (T : Triangulation) (u : Int → Int) (k : LamClass) : Lam Int := ⟨T, (List.range T.zeta).map (fun (i : Nat) => u i), k⟩

theorem make_w {T : Triangulation} {u : Int → Int} (k : LamClass) (hu : ∀ x, u (inv x) = u x) {x : Int} (hx : T.IsLabel x) : (make T u k).w x = u x := by
  have := idx_lt hx
  unfold w make
  rw [List.getElem?_map, List.getElem?_range this]
  have h0 := norm_nonneg x
  simp only [Option.map_some, Option.getD_some, Int.toNat_of_nonneg h0]
  rcases lt_or_ge x 0 with h | h
  · rw [norm_of_neg h, hu]
  · rw [norm_of_nonneg h]

theorem make_wellFormed {T : Triangulation} (hT : T.Valid) (u : Int → Int) (k : LamClass) : (make T u k).WellFormed := ⟨hT, by simp [make]⟩

/-- what a flip does to the weights -/
theorem FlipsTo.flipW {L L1 : Lam Int} {e : Int} (hw : L.WellFormed) (he : L.tri.Flippable e) (hm : L.tri.IsMultiflip [e] L1.tri) (h : FlipsTo [e] L L1) :
    ∃ ε a b c d, FlipData L.tri L1.tri e ε a b c d ∧ FlipW L.tri L.w L1.w e ε a b c d := by
  obtain ⟨ε, a, b, c, d, D⟩ := he.flipData hw.1 hm
  refine ⟨ε, a, b, c, d, D, L.w_inv, L1.w_inv, ?_, ?_⟩
  · intro x hx h1 h2
    refine h.kept x hx ?_
    intro e' he'
    rw [List.mem_singleton] at he'
    subst he'
    exact ⟨h1, h2⟩
  · have := h.new e (by simp) a b c d D.s1 D.s2
    rw [flipWeight_ok_iff (le_max_right _ _) (le_max_right _ _) (le_max_right _ _) (le_max_right _ _)] at this
    have hε : L1.w ε = L1.w e := by rcases D.eps with q | q <;> rw [q]; exact L1.w_inv e
    rwa [hε]

/-- any weights that fit the rule are the result of the flip -/
theorem flip_make {N : Lam Int} {T : Triangulation} {e : Int} (hw : N.WellFormed) (he : N.tri.Flippable e) (hm : N.tri.IsMultiflip [e] T) {ε a b c d : Int}
    (D : FlipData N.tri T e ε a b c d) {u : Int → Int} (W : FlipW N.tri N.w u e ε a b c d) :
    (flipMove N.tri T e).move.applyLam N = .ok (make T u N.cls) := by
  have lab : ∀ x, T.IsLabel x ↔ N.tri.IsLabel x := fun x => by unfold IsLabel; rw [hm.zeta]
  change EdgeFlip.applyLam ⟨N.tri, T, e, N.tri.sq e⟩ N = _
  rw [ef_applyLam_iff hw he]
  refine ⟨rfl, rfl, ?_, ?_, ?_⟩
  · rw [hw.2]; simp [make, hm.zeta]
  · intro x hx hne
    have := hne e (by simp)
    rw [make_w _ W.inv' ((lab x).2 hx)]
    exact W.kept x hx this.1 this.2
  · intro e' he' a' b' c' d' g1 g2
    rw [List.mem_singleton] at he'
    subst he'
    obtain ⟨rfl, rfl⟩ := hw.1.comp.glues_unique g1 D.s1
    obtain ⟨rfl, rfl⟩ := hw.1.comp.glues_unique g2 D.s2
    rw [flipWeight_ok_iff (le_max_right _ _) (le_max_right _ _) (le_max_right _ _) (le_max_right _ _), make_w _ W.inv' ((lab _).2 he.1)]
    have hε : u ε = u e' := by rcases D.eps with q | q <;> rw [q]; exact W.inv' e'
    rw [← hε]
    exact W.new

end Lam
end Curver
