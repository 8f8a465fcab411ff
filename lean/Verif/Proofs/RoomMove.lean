import Verif.Proofs.Spares

/-!
# Copies of a short curve under the moves that keep its edge
-/

namespace Curver
open Triangulation
namespace Triangulation
variable {S T : Triangulation} {φ : Int → Int} {f β η : Int} {X : List Int} {k : Int} {U U' : Int → Int}

theorem IsIsometry.count (h : S.IsIsometry T φ) (hX : ∀ x ∈ X, S.IsLabel x) {x : Int} (hx : S.IsLabel x) : (X.map φ).count (φ x) = X.count x := by
  induction X with
  | nil => rfl
  | cons y X ih =>
    rw [List.map_cons, List.count_cons, List.count_cons, ih (fun z hz => hX z (by simp [hz]))]
    have : (φ y == φ x) = (y == x) := by
      by_cases q : y = x
      · simp [q]
      · have : φ y ≠ φ x := fun q' => q (h.inj y x (hX y (by simp)) hx q')
        simp [q, this]
    rw [this]

theorem IsIsometry.cn (h : S.IsIsometry T φ) (hX : ∀ x ∈ X, S.IsLabel x) {x : Int} (hx : S.IsLabel x) : Triangulation.cn (X.map φ) (φ x) = Triangulation.cn X x := by
  unfold Triangulation.cn
  rw [h.count hX hx, ← h.inverts x hx, h.count hX (isLabel_inv.2 hx)]

theorem Sweep.map (h : Sweep S f X) (hi : S.IsIsometry T φ) (hS : S.Complete) (hT : T.Complete) (hf : φ f = f) : Sweep T f (X.map φ) := by
  have hl := h.labels hS
  have hinv : φ (inv f) = inv f := by rw [hi.inverts f h.label, hf]
  have inj : ∀ x ∈ f :: X, ∀ y ∈ f :: X, φ x = φ y → x = y := by
    have : ∀ x ∈ f :: X, S.IsLabel x := by
      intro x hx
      rcases List.mem_cons.1 hx with rfl | hx
      · exact h.label
      · exact hl x hx
    exact fun x hx y hy q => hi.inj x y (this x hx) (this y hy) q
  refine ⟨by have := hi.maps f h.label; rwa [hf] at this, ?_, ?_, ?_⟩
  · have hch := h.chain
    have : f :: (X.map φ ++ [inv f]) = (f :: (X ++ [inv f])).map φ := by simp [hf, hinv]
    rw [this, List.isChain_map]
    have lab : ∀ x ∈ f :: (X ++ [inv f]), S.IsLabel x := by
      intro x hx
      simp only [List.mem_cons, List.mem_append, List.not_mem_nil, or_false] at hx
      rcases hx with rfl | hx | rfl
      · exact h.label
      · exact hl x hx
      · exact isLabel_inv.2 h.label
    generalize f :: (X ++ [inv f]) = l at hch lab
    clear this
    induction l with
    | nil => exact .nil
    | cons x l ih =>
      cases l with
      | nil => exact .singleton _
      | cons y l =>
        rw [List.isChain_cons_cons] at hch ⊢
        refine ⟨?_, ih hch.2 (fun z hz => lab z (by simp [hz]))⟩
        rw [← hi.spin hS hT (lab x (by simp)), ← hch.1]
  · have : f :: X.map φ = (f :: X).map φ := by simp [hf]
    rw [this]
    exact h.nodup.map_on inj
  · intro q
    rw [List.mem_map] at q
    obtain ⟨x, hx, q⟩ := q
    rw [← hinv] at q
    have := hi.inj x (inv f) (hl x hx) (isLabel_inv.2 h.label) q
    exact h.notin (this ▸ hx)

theorem Loop.map (h : Loop S f β η X) (hi : S.IsIsometry T φ) (hT : T.Valid) (hf : φ f = f) : Loop T f (φ β) (φ η) (X.map φ) :=
  ⟨hT, h.sweep.map hi h.valid.comp hT.comp hf, by have := hi.glues _ _ _ h.glues; rwa [hf] at this, by simpa using h.two⟩

theorem Room.map (h : Room S U f β η X k) (hi : S.IsIsometry T φ) (hT : T.Valid) (hf : φ f = f) (hU : ∀ x, S.IsLabel x → U' (φ x) = U x) :
    Room T U' f (φ β) (φ η) (X.map φ) k := by
  have hS := h.loop.valid.comp
  have hl := h.loop.sweep.labels hS
  have lg := hS.label_of_glues h.loop.glues
  refine ⟨h.loop.map hi hT hf, ?_, ?_, ?_⟩
  · have := hU f lg.1
    rw [hf] at this
    rw [this]; exact h.off
  · rw [hU β lg.2.1, hU η lg.2.2]; exact h.bal
  · intro x' y' z' hg
    obtain ⟨x, hx, rfl⟩ := hi.surj (hT.comp.label_of_glues hg).1
    obtain ⟨y, z, hg'⟩ := hS.exists_glues hx
    obtain ⟨rfl, rfl⟩ := hT.comp.glues_unique hg (hi.glues _ _ _ hg')
    have l := hS.label_of_glues hg'
    rw [hU x l.1, hU y l.2.1, hU z l.2.2]
    have : mu f (φ β) (φ η) (X.map φ) (φ x) = mu f β η X x := by
      have e : ∀ y, S.IsLabel y → (φ x = φ y ↔ x = y) := fun y hy => ⟨hi.inj x y hx hy, fun q => by rw [q]⟩
      unfold mu
      have e1 := e f lg.1
      rw [hf] at e1
      simp only [e1, e β lg.2.1, e η lg.2.2, hi.count hl hx, hi.count hl lg.2.2]
    rw [this]
    exact h.room _ _ _ hg'

end Triangulation

namespace Lam
variable {m : LMove} {f β η : Int} {X : List Int} {k : Int} {L L1 N : Lam Int}

/-- a move that keeps the edge takes the copies to copies, and what is left to what is left -/
theorem room_move (hs : m.Spares f) (hL : L.WellFormed) (ht : L.tri = m.move.source) (ha : m.move.applyLam L = .ok L1) (h : Room L.tri L.w f β η X k) (hk : 0 < k) :
    ∃ β' η' Y, Room L1.tri L1.w f β' η' Y k ∧ ∀ N : Lam Int, N.WellFormed → N.tri = L.tri → (∀ x, L.tri.IsLabel x → N.w x = L.w x - k * cn X x) →
      ∃ N1, m.move.applyLam N = .ok N1 ∧ N1.tri = L1.tri ∧ N1.WellFormed ∧ N1.cls = N.cls ∧ ∀ x, L1.tri.IsLabel x → N1.w x = L1.w x - k * cn Y x := by
  cases hs with
  | flip S T e hS he hm hf =>
    replace ht : L.tri = S := ht
    subst ht
    have ha' := ha
    replace ha' : EdgeFlip.applyLam ⟨L.tri, T, e, L.tri.sq e⟩ L = .ok L1 := ha'
    rw [ef_applyLam_iff hL he] at ha'
    obtain ⟨rfl, hF⟩ := ha'
    obtain ⟨ε, a, b, c, d, D, W⟩ := hF.flipW hL he hm
    obtain ⟨β', η', Y, hr⟩ := h.flip D hm.valid W hk hf
    refine ⟨β', η', Y, hr.room, ?_⟩
    intro N hN hNt hNw
    have la := D.hS.label_of_glues D.s1
    have lc := D.hS.label_of_glues D.s2
    have hinv : ∀ x, L1.w (inv x) - k * cn Y (inv x) = L1.w x - k * cn Y x := by intro x; rw [w_inv, cn_inv]
    rw [← hNt] at D he hm
    have := flip_make (u := fun x => L1.w x - k * cn Y x) hN he hm D ⟨N.w_inv, hinv, ?_, ?_⟩
    · rw [hNt] at this
      exact ⟨_, this, rfl, make_wellFormed hm.valid _ _, rfl, fun x hx => make_w _ hinv hx⟩
    · intro x hx h1 h2
      rw [hNt] at hx
      rw [hNw x hx, W.kept x hx h1 h2, hr.kept x h1 h2]
    · rw [hNw a la.2.1, hNw b la.2.2, hNw c lc.2.1, hNw d lc.2.2, hNw e la.1]
      exact hr.flip
  | isometry S T φ g i i' hS hT hi hg hA hA' hgf hfg hl hff =>
    have hsrc : i.source = S := hA.source
    replace ht : L.tri = i.source := ht
    rw [hsrc] at ht
    replace ha : i.applyLam L = .ok L1 := ha
    have hm := (hA.applyLam_iff hi hL ht).1 ha
    subst ht
    obtain ⟨rfl, hm⟩ := hm
    refine ⟨φ β, φ η, X.map φ, h.map hi hT hff hm.2.2, ?_⟩
    intro N hN hNt hNw
    obtain ⟨N1, n1, n2, n3⟩ := hA.applyLam hi hN hNt
    refine ⟨N1, n1, n2, ⟨by rw [n2]; exact hT, by rw [n3.2.1, hN.2, n2, hNt, hi.zeta]⟩, n3.1, ?_⟩
    intro x' hx'
    obtain ⟨x, hx, rfl⟩ := hi.surj hx'
    rw [n3.2.2 x (by rw [hNt]; exact hx), hNw x hx, hm.2.2 x hx, hi.cn (h.loop.sweep.labels h.loop.valid.comp) hx]

/-- the weight of the edge stays the same -/
theorem spares_w (hs : m.Spares f) (hf : L.tri.IsLabel f) (hL : L.WellFormed) (ht : L.tri = m.move.source) (ha : m.move.applyLam L = .ok L1) : L1.w f = L.w f ∧ L1.tri.IsLabel f := by
  cases hs with
  | flip S T e hS he hm hf =>
    replace ht : L.tri = S := ht
    subst ht
    replace ha : EdgeFlip.applyLam ⟨L.tri, T, e, L.tri.sq e⟩ L = .ok L1 := ha
    rw [ef_applyLam_iff hL he] at ha
    obtain ⟨rfl, hF⟩ := ha
    refine ⟨hF.kept f (by assumption) ?_, hm.isLabel_iff.2 (by assumption)⟩
    intro e' he'
    rw [List.mem_singleton] at he'
    subst he'
    exact hf
  | isometry S T φ g i i' hS hT hi hg hA hA' hgf hfg hl hff =>
    have hsrc : i.source = S := hA.source
    replace ht : L.tri = i.source := ht
    rw [hsrc] at ht
    replace ha : i.applyLam L = .ok L1 := ha
    have hm := (hA.applyLam_iff hi hL ht).1 ha
    subst ht
    obtain ⟨rfl, hm⟩ := hm
    have h1 := hm.2.2 f hf
    have h2 := hi.maps f hf
    rw [hff] at h1 h2
    exact ⟨h1, h2⟩

/-- taking away arcs that are parallel to the edge -/
theorem arc_move (hs : m.Spares f) (hf : L.tri.IsLabel f) (hL : L.WellFormed) (ht : L.tri = m.move.source) (ha : m.move.applyLam L = .ok L1) (h0 : L.w f ≤ 0) {N : Lam Int}
    (hN : N.WellFormed) (hNt : N.tri = L.tri) (hNf : N.w f ≤ 0) (hNw : ∀ x, L.tri.IsLabel x → x ≠ f → x ≠ inv f → N.w x = L.w x) :
    ∃ N1, m.move.applyLam N = .ok N1 ∧ N1.tri = L1.tri ∧ N1.WellFormed ∧ N1.cls = N.cls ∧ N1.w f = N.w f ∧ ∀ x, L1.tri.IsLabel x → x ≠ f → x ≠ inv f → N1.w x = L1.w x := by
  have hs0 := hs
  cases hs with
  | flip S T e hS he hm hfe =>
    replace ht : L.tri = S := ht
    subst ht
    have ha' := ha
    replace ha' : EdgeFlip.applyLam ⟨L.tri, T, e, L.tri.sq e⟩ L = .ok L1 := ha'
    rw [ef_applyLam_iff hL he] at ha'
    obtain ⟨rfl, hF⟩ := ha'
    obtain ⟨ε, a, b, c, d, D, W⟩ := hF.flipW hL he hm
    have la := D.hS.label_of_glues D.s1
    have lc := D.hS.label_of_glues D.s2
    have hmax : ∀ x, L.tri.IsLabel x → max (N.w x) 0 = max (L.w x) 0 := by
      intro x hx
      by_cases h1 : x = f
      · rw [h1, max_eq_right h0, max_eq_right hNf]
      by_cases h2 : x = inv f
      · rw [h2, w_inv, w_inv, max_eq_right h0, max_eq_right hNf]
      rw [hNw x hx h1 h2]
    let u : Int → Int := fun x => if x = f ∨ x = inv f then N.w f else L1.w x
    have hu : ∀ x, u (inv x) = u x := by
      intro x
      have : (inv x = f ∨ inv x = inv f) ↔ (x = f ∨ x = inv f) := by rw [inv_inj, inv_eq_iff]; tauto
      simp only [u, this, w_inv]
    have uf : u f = N.w f := if_pos (.inl rfl)
    have une : ∀ x, x ≠ f → x ≠ inv f → u x = L1.w x := fun x h1 h2 => if_neg (by tauto)
    have hlab : ∀ {x}, L1.tri.IsLabel x ↔ L.tri.IsLabel x := hm.isLabel_iff
    rw [← hNt] at D he hm
    have hinvfe : ∀ {x}, x = e ∨ x = inv e → x ≠ f ∧ x ≠ inv f := by
      have q : e ≠ inv f := fun q => hfe.2 (by rw [q, inv_inv])
      rintro x (rfl | rfl)
      · exact ⟨hfe.1.symm, q⟩
      · exact ⟨hfe.2.symm, fun q' => hfe.1 ((inv_inj.1 q').symm)⟩
    have := flip_make (u := u) hN he hm D ⟨N.w_inv, hu, ?_, ?_⟩
    · rw [hNt] at this
      refine ⟨_, this, rfl, make_wellFormed hm.valid _ _, rfl, ?_, ?_⟩
      · rw [make_w _ hu (hlab.2 hf)]; exact uf
      · intro x hx h1 h2
        rw [make_w _ hu hx, une x h1 h2]
    · intro x hx h1 h2
      rw [hNt] at hx
      by_cases q1 : x = f
      · rw [q1, uf]
      by_cases q2 : x = inv f
      · rw [q2, hu, uf, w_inv]
      rw [une x q1 q2, hNw x hx q1 q2, W.kept x hx h1 h2]
    · rw [hmax a la.2.1, hmax b la.2.2, hmax c lc.2.1, hmax d lc.2.2, hNw e la.1 (hinvfe (.inl rfl)).1 (hinvfe (.inl rfl)).2, une ε (hinvfe D.eps).1 (hinvfe D.eps).2]
      exact W.new
  | isometry S T φ g i i' hS hT hi hg hA hA' hgf hfg hl hff =>
    have hsrc : i.source = S := hA.source
    replace ht : L.tri = i.source := ht
    rw [hsrc] at ht
    replace ha : i.applyLam L = .ok L1 := ha
    have hm := (hA.applyLam_iff hi hL ht).1 ha
    subst ht
    obtain ⟨rfl, hm⟩ := hm
    obtain ⟨N1, n1, n2, n3⟩ := hA.applyLam hi hN hNt
    have hfl := n3.2.2 f (by rw [hNt]; exact hf)
    rw [hff] at hfl
    refine ⟨N1, n1, n2, ⟨by rw [n2]; exact hT, by rw [n3.2.1, hN.2, n2, hNt, hi.zeta]⟩, n3.1, hfl, ?_⟩
    intro x' hx' h1 h2
    obtain ⟨x, hx, rfl⟩ := hi.surj hx'
    rw [n3.2.2 x (by rw [hNt]; exact hx), hNw x hx (fun q => h1 (by rw [q, hff])) (fun q => h2 (by rw [q, hi.inverts f hf, hff])), hm.2.2 x hx]

end Lam
end Curver
