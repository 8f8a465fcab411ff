import Verif.Proofs.RoomPair

/-!
# Taking components away one after another, and the moves that keep their edges
-/

namespace Curver
open Triangulation

/-- the class of a lamination is carried along and has no influence -/
theorem Move.applyLam_cls {R : Type} [CommRing R] [LinearOrder R] [Halvable R] {m : Move} {L L1 N : Lam R} (h : m.applyLam L = .ok L1) (ht : N.tri = L.tri) (hg : N.geometric = L.geometric) :
    m.applyLam N = .ok ⟨L1.tri, L1.geometric, N.cls⟩ := by
  obtain ⟨T, g, c⟩ := L
  obtain ⟨T', g', c'⟩ := N
  subst ht hg
  cases m with
  | isometry m =>
    replace h : m.applyLam ⟨T', g', c⟩ = .ok L1 := h
    change m.applyLam ⟨T', g', c'⟩ = _
    unfold Isometry.applyLam at h ⊢
    rw [py_bind_eq_ok] at h
    obtain ⟨x, h1, h2⟩ := h
    cases h2
    have : (m.target.indices.mapM fun i => do let j ← m.inverseIndexMap.get i; (Lam.mk T' g' c').wt j) = .ok x := h1
    rw [this]; rfl
  | flip m =>
    replace h : m.applyLam ⟨T', g', c⟩ = .ok L1 := h
    change m.applyLam ⟨T', g', c'⟩ = _
    unfold EdgeFlip.applyLam at h ⊢
    rw [py_bind_eq_ok] at h
    obtain ⟨x, h1, h2⟩ := h
    cases h2
    have : flipStep (Lam.mk T' g' c') m.edge m.square g' = .ok x := h1
    rw [this]; rfl
  | multiflip m =>
    replace h : m.applyLam ⟨T', g', c⟩ = .ok L1 := h
    change m.applyLam ⟨T', g', c'⟩ = _
    unfold MultiFlip.applyLam at h ⊢
    rw [py_bind_eq_ok] at h
    obtain ⟨x, h1, h2⟩ := h
    cases h2
    have : m.edges.foldlM (fun geometric edge => do let s ← m.squares.get edge; flipStep (Lam.mk T' g' c') edge s geometric) g' = .ok x := h1
    rw [this]; rfl

namespace Lam

/-- there are no more copies of the curve that goes round `f` -/
def Exhausted (N : Lam Int) (f : Int) : Prop := ∀ β η X k, Room N.tri N.w f β η X k → k ≤ 0

/-- `μ` arcs parallel to the edge `f`, or `k` curves that go round it -/
inductive Item
  | arc (f μ : Int)
  | curve (f k : Int)

/-- the edge -/
def Item.edge : Item → Int
  | .arc f _ => f
  | .curve f _ => f

/-- `N'` is what is left of `N` -/
def Item.Takes : Item → Lam Int → Lam Int → Prop
  | .arc f μ, N, N' => N'.WellFormed ∧ N'.tri = N.tri ∧ N.tri.IsLabel f ∧ 0 < μ ∧ N.w f = -μ ∧ N'.w f = 0 ∧ ∀ x, N.tri.IsLabel x → x ≠ f → x ≠ inv f → N'.w x = N.w x
  | .curve f k, N, N' => N'.WellFormed ∧ N'.tri = N.tri ∧ 0 < k ∧ N'.Exhausted f ∧ ∃ β η X, Room N.tri N.w f β η X k ∧ ∀ x, N.tri.IsLabel x → N'.w x = N.w x - k * cn X x

/-- `M` is what is left of `N` when all the items have been taken away -/
def Chain : Lam Int → List Item → Lam Int → Prop
  | N, [], M => M.tri = N.tri ∧ M.geometric = N.geometric
  | N, i :: l, M => ∃ N', i.Takes N N' ∧ Chain N' l M

variable {m : LMove} {f : Int} {N N' N1 M M' : Lam Int} {i : Item} {l l' : List Item}

theorem Item.Takes.wf (h : i.Takes N N') : N'.WellFormed ∧ N'.tri = N.tri := by
  cases i with
  | arc f μ => exact ⟨h.1, h.2.1⟩
  | curve f k => exact ⟨h.1, h.2.1⟩

theorem Exhausted.move (hm : m.Legal) (hs : m.Spares f) (hN : N.WellFormed) (ht : N.tri = m.move.source) (ha : m.move.applyLam N = .ok N1) (h : N.Exhausted f) : N1.Exhausted f := by
  intro β η X k hr
  by_contra hk
  rw [not_le] at hk
  obtain ⟨h1, h2, h3, h4⟩ := hm.applyLam hN ht ha
  have h5 : N1.tri = m.inverse.move.source := by
    rw [h1]
    cases hs with
    | flip S T e hS he h hf => rfl
    | isometry S T φ g i i' hS hT hf hg hi hi' hgf hfg hl hff => exact hi.target.trans hi'.source.symm
  obtain ⟨β', η', Y, h6, -⟩ := room_move hs.inverse h2 h5 h4 hr hk
  have := h _ _ _ _ h6
  omega

theorem Item.Takes.move (hm : m.Legal) (hs : m.Spares i.edge) (hN : N.WellFormed) (ht : N.tri = m.move.source) (ha : m.move.applyLam N = .ok N1) (h : i.Takes N N') :
    ∃ N1', m.move.applyLam N' = .ok N1' ∧ i.Takes N1 N1' := by
  cases i with
  | arc f μ =>
    replace hs : m.Spares f := hs
    obtain ⟨h1, h2, h3, h4, h5, h6, h7⟩ := h
    obtain ⟨N1', k1, k2, k3, -, k4, k5⟩ := arc_move hs h3 hN ht ha (by rw [h5]; omega) h1 h2 h6.le h7
    obtain ⟨w1, w2⟩ := spares_w hs h3 hN ht ha
    exact ⟨N1', k1, k3, k2, w2, h4, by rw [w1, h5], by rw [k4, h6], k5⟩
  | curve f k =>
    obtain ⟨h1, h2, h3, h4, β, η, X, h5, h6⟩ := h
    obtain ⟨β', η', Y, r1, r2⟩ := room_move hs hN ht ha h5 h3
    obtain ⟨N1', k1, k2, k3, -, k4⟩ := r2 N' h1 h2 h6
    exact ⟨N1', k1, k3, k2, h3, h4.move hm hs h1 (h2.trans ht) k1, β', η', Y, r1, k4⟩

theorem Chain.move (hm : m.Legal) (hs : ∀ i ∈ l, m.Spares i.edge) (hN : N.WellFormed) (ht : N.tri = m.move.source) (ha : m.move.applyLam N = .ok N1) (h : Chain N l M) :
    ∃ M1, m.move.applyLam M = .ok M1 ∧ Chain N1 l M1 := by
  induction l generalizing N N1 with
  | nil => exact ⟨_, Move.applyLam_cls ha h.1 h.2, rfl, rfl⟩
  | cons i l ih =>
    obtain ⟨N', h1, h2⟩ := h
    obtain ⟨N1', k1, k2⟩ := h1.move hm (hs i (by simp)) hN ht ha
    obtain ⟨w1, w2⟩ := h1.wf
    obtain ⟨M1, k3, k4⟩ := ih (fun j hj => hs j (by simp [hj])) w1 (w2.trans ht) k1 h2
    exact ⟨M1, k3, N1', k2, k4⟩

theorem Chain.perform {ms : List LMove} {S T : Triangulation} (hp : Path S ms T) (hs : ∀ m ∈ ms, ∀ i ∈ l, m.Spares i.edge) (hN : N.WellFormed) (ht : N.tri = S)
    (ha : performLam ms N = .ok N1) (h : Chain N l M) : ∃ M1, performLam ms M = .ok M1 ∧ Chain N1 l M1 := by
  induction hp generalizing N M with
  | nil T hT => cases ha; exact ⟨M, rfl, h⟩
  | cons m ms T hm hp ih =>
    simp only [Curver.performLam, py_bind_eq_ok] at ha ⊢
    obtain ⟨N', h1, h2⟩ := ha
    obtain ⟨M', k1, k2⟩ := h.move hm (hs m (by simp)) hN ht h1
    obtain ⟨w1, w2, -, -⟩ := hm.applyLam hN ht h1
    obtain ⟨M1, k3, k4⟩ := ih (fun n hn => hs n (by simp [hn])) w2 w1 h2 k2
    exact ⟨M1, ⟨M', k1, k3⟩, k4⟩

theorem Chain.tri (h : Chain N l M) : M.tri = N.tri := by
  induction l generalizing N with
  | nil => exact h.1
  | cons i l ih =>
    obtain ⟨N', h1, h2⟩ := h
    rw [ih h2, h1.wf.2]

theorem Chain.wf (h : Chain N l M) (hN : N.WellFormed) : M.WellFormed := by
  induction l generalizing N with
  | nil => exact ⟨by rw [h.1]; exact hN.1, by rw [h.1, h.2]; exact hN.2⟩
  | cons i l ih =>
    obtain ⟨N', h1, h2⟩ := h
    exact ih h2 h1.wf.1

/-- an encoding that keeps the edges -/
theorem Chain.enc {h : Enc} (hh : h.Legal) (hs : ∀ i ∈ l, h.Spares i.edge) (hN : N.WellFormed) (ha : h.applyLam N = .ok N1) (hc : Chain N l M) :
    ∃ M1, h.applyLam M = .ok M1 ∧ Chain N1 l M1 := by
  rw [Enc.applyLam_eq] at ha
  split at ha
  · rename_i ht
    obtain ⟨M1, h1, h2⟩ := hc.perform hh.path (fun m hm i hi => hs i hi m (List.mem_reverse.1 hm)) hN ht.symm ha
    refine ⟨M1, ?_, h2⟩
    rw [Enc.applyLam_eq, if_pos (by rw [hc.tri]; exact ht)]
    exact h1
  · cases ha

theorem Item.Takes.congr (ht : N.tri = M.tri) (hg : N.geometric = M.geometric) (h : i.Takes N N') : i.Takes M N' := by
  have hw : ∀ x, N.w x = M.w x := fun x => by unfold w; rw [hg]
  have hw' : N.w = M.w := funext hw
  cases i with
  | arc f μ =>
    obtain ⟨h1, h2, h3, h4, h5, h6, h7⟩ := h
    rw [ht] at h2 h3 h7
    rw [hw'] at h5 h7
    exact ⟨h1, h2, h3, h4, h5, h6, h7⟩
  | curve f k =>
    obtain ⟨h1, h2, h3, h4, β, η, X, h5, h6⟩ := h
    rw [ht] at h2 h5 h6
    rw [hw'] at h5 h6
    exact ⟨h1, h2, h3, h4, β, η, X, h5, h6⟩

theorem Chain.congr (ht : N.tri = N1.tri) (hg : N.geometric = N1.geometric) (h : Chain N l M) : Chain N1 l M := by
  cases l with
  | nil => exact ⟨h.1.trans ht, h.2.trans hg⟩
  | cons i l =>
    obtain ⟨N', h1, h2⟩ := h
    exact ⟨N', h1.congr ht hg, h2⟩

theorem Chain.append (h : Chain N l M) (h' : Chain M l' M') : Chain N (l ++ l') M' := by
  induction l generalizing N with
  | nil => exact h'.congr h.1 h.2
  | cons i l ih =>
    obtain ⟨N', h1, h2⟩ := h
    exact ⟨N', h1, ih h2⟩

end Lam
end Curver
