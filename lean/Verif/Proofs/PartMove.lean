import Verif.Proofs.PartFlip
import Verif.Proofs.Spares
import Verif.Proofs.FlipSeq

/-!
# Parts of a lamination and moves
-/

namespace Curver
open Triangulation

namespace Triangulation

/-- `F x t` of the first `t` points on the edge `x` belong to the part, which has the weights `V` -/
structure Part (T : Triangulation) (U V : Int → Int) (F : Int → Int → Int) : Prop where
  side : ∀ x, T.IsLabel x → Side |U x| |V x| (F x) (F (inv x))
  pos : ∀ x, T.IsLabel x → 0 ≤ U x → 0 ≤ V x
  neg : ∀ x, T.IsLabel x → U x ≤ 0 → V x ≤ 0
  corner : ∀ x y z, T.Glues x y z → ∀ t, 0 ≤ t → t ≤ max (U x) 0 → t ≤ max (U z) 0 → 2 * t ≤ max (U x) 0 + max (U z) 0 - max (U y) 0 → F x t = F (inv z) t

variable {S T : Triangulation} {U U' V : Int → Int} {F : Int → Int → Int} {e ε a b c d : Int}

theorem Part.top (h : Part T U V F) {x : Int} (hx : T.IsLabel x) : Side (max (U x) 0) (max (V x) 0) (F x) (F (inv x)) := by
  have hs := h.side x hx
  rcases le_total 0 (U x) with q | q
  · have q' := h.pos x hx q
    rw [abs_of_nonneg q, abs_of_nonneg q'] at hs
    rw [max_eq_left q, max_eq_left q']
    exact hs
  · have q' := h.neg x hx q
    rw [max_eq_right q, max_eq_right q']
    have z1 := hs.zero
    have z2 := hs.symm.zero
    refine ⟨le_rfl, z1, z1, ?_, ?_⟩
    · intro s t h1 h2 h3
      have : s = 0 := by omega
      have : t = 0 := by omega
      subst s t
      omega
    · intro t h1 h2
      have : t = 0 := by omega
      subst t
      rw [sub_self, z1, z2]; rfl

end Triangulation

theorem corners_of {x y z : Int} (hx : 0 ≤ x) (hy : 0 ≤ y) (hz : 0 ≤ z) (h : TriEven x y z) : ∃ p q r, Corners x y z p q r := by
  unfold TriEven at h
  rw [max_eq_left hx, max_eq_left hy, max_eq_left hz] at h
  by_cases h1 : y + z ≤ x
  · exact ⟨z, y, 0, hz, hy, le_rfl, by omega⟩
  by_cases h2 : z + x ≤ y
  · exact ⟨0, x, z, le_rfl, hx, hz, by omega⟩
  by_cases h3 : x + y ≤ z
  · exact ⟨x, 0, y, hx, le_rfl, hy, by omega⟩
  · have := h (by omega) (by omega) (by omega)
    obtain ⟨k, hk⟩ := this
    exact ⟨(x + z - y) / 2, (x + y - z) / 2, (y + z - x) / 2, by omega, by omega, by omega, by omega⟩

namespace Triangulation
variable {S T : Triangulation} {U U' V : Int → Int} {F : Int → Int → Int} {e ε a b c d : Int}

theorem Part.zero (h : Part T U V F) {x : Int} (hx : T.IsLabel x) : F x 0 = 0 := (h.side x hx).zero

/-- the strands around a corner -/
theorem Part.around (h : Part T U V F) {x y z p q r : Int} (hg : T.Glues x y z) (hT : T.Complete) (hc : Corners (max (U x) 0) (max (U y) 0) (max (U z) 0) p q r) :
    ∀ t, 0 ≤ t → t ≤ p → F x t = F (inv z) t := by
  intro t h0 ht
  have l := hT.label_of_glues hg
  obtain ⟨h1, h2, h3, h4⟩ := hc
  by_cases q0 : t = 0
  · subst q0
    rw [h.zero l.1, h.zero (isLabel_inv.2 l.2.2)]
  · exact h.corner x y z hg t h0 (by omega) (by omega) (by omega)

theorem _root_.Curver.Corners.rot {x y z p q r : Int} (h : Corners x y z p q r) : Corners y z x q r p := by
  obtain ⟨h1, h2, h3, h4⟩ := h
  exact ⟨h2, h3, h1, by omega⟩

theorem Part.square (h : Part S U V F) (D : FlipData S T e ε a b c d) (hU : ∀ x, U (inv x) = U x) (hE : ∀ x y z, S.Glues x y z → TriEven (U x) (U y) (U z)) :
    ∃ p1 q1 r1 p2 q2 s2, _root_.Curver.Square (max (U a) 0) (max (U b) 0) (max (U c) 0) (max (U d) 0) (U e) p1 q1 r1 p2 q2 s2 (max (V a) 0) (max (V b) 0) (max (V c) 0) (max (V d) 0) (V e)
      (F a) (F (inv a)) (F b) (F (inv b)) (F c) (F (inv c)) (F d) (F (inv d)) (F e) (F (inv e)) := by
  have la := D.hS.label_of_glues D.s1
  have lc := D.hS.label_of_glues D.s2
  have n : ∀ u : Int, 0 ≤ max u 0 := fun u => le_max_right _ _
  obtain ⟨p1, q1, r1, c1⟩ := corners_of (n _) (n _) (n _) (triEven_max1.2 (hE _ _ _ D.s1))
  obtain ⟨q2, p2, s2, c2⟩ := corners_of (n _) (n _) (n _) (triEven_max1.2 (hE _ _ _ D.s2))
  refine ⟨p1, q1, r1, p2, q2, s2, c1, ?_, h.top la.2.1, h.top la.2.2, h.top lc.2.1, h.top lc.2.2, h.side e la.1, h.pos e la.1, h.neg e la.1, h.around D.s1 D.hS c1,
    h.around D.s1.rot D.hS c1.rot, h.around D.s1.rot.rot D.hS c1.rot.rot, ?_, h.around D.s2 D.hS c2, h.around D.s2.rot.rot D.hS c2.rot.rot⟩
  · rw [← hU e]; exact c2
  · have := h.around D.s2.rot D.hS c2.rot
    rwa [inv_inv] at this

/-- the weights after the flip -/
def flipped (V : Int → Int) (e X x : Int) : Int := if x = e ∨ x = inv e then X else V x

theorem flipped_inv {X x : Int} (hV : ∀ x, V (inv x) = V x) : flipped V e X (inv x) = flipped V e X x := by
  have : (inv x = e ∨ inv x = inv e) ↔ (x = e ∨ x = inv e) := by rw [inv_inj, inv_eq_iff]; tauto
  unfold flipped
  simp only [this, hV]

theorem flipped_ne {X x : Int} (h1 : x ≠ e) (h2 : x ≠ inv e) : flipped V e X x = V x := if_neg (by tauto)

/-- where there is less of it -/
theorem Part.max_sub (h : Part T U V F) {x : Int} (hx : T.IsLabel x) : max (U x - V x) 0 = max (U x) 0 - max (V x) 0 := by
  have hs := h.side x hx
  have b := hs.bounds hs.nonneg le_rfl
  rw [hs.total] at b
  rcases le_total 0 (U x) with q | q
  · have q' := h.pos x hx q
    rw [abs_of_nonneg q, abs_of_nonneg q'] at b
    omega
  · have q' := h.neg x hx q
    rw [abs_of_nonpos q, abs_of_nonpos q'] at b
    omega

/-- a flip takes a part to a part -/
theorem Part.flip (h : Part S U V F) (D : FlipData S T e ε a b c d) (W : FlipW S U U' e ε a b c d) (hV : ∀ x, V (inv x) = V x)
    (hE : ∀ x y z, S.Glues x y z → TriEven (U x) (U y) (U z)) :
    ∃ V' F', Part T U' V' F' ∧ FlipW S V V' e ε a b c d ∧ FlipW S (fun x => U x - V x) (fun x => U' x - V' x) e ε a b c d := by
  obtain ⟨p1, q1, r1, p2, q2, s2, Q⟩ := h.square D W.inv hE
  obtain ⟨X, f, g, R⟩ := Q.flip W.new
  have la := D.hS.label_of_glues D.s1
  have lc := D.hS.label_of_glues D.s2
  have ne := D.ne
  simp only [List.mem_cons, List.not_mem_nil, or_false, forall_eq_or_imp, forall_eq] at ne
  obtain ⟨na, nb, nc, nd⟩ := ne
  have ka := W.kept a la.2.1 na.1 na.2
  have kb := W.kept b la.2.2 nb.1 nb.2
  have kc := W.kept c lc.2.1 nc.1 nc.2
  have kd := W.kept d lc.2.2 nd.1 nd.2
  have hε : ε ≠ inv ε := (inv_ne ε).symm
  have eε : ∀ x, (x = e ∨ x = inv e) ↔ (x = ε ∨ x = inv ε) := by
    intro x
    rcases D.eps with q | q
    · rw [q]
    · rw [q, inv_inv]; tauto
  let F' : Int → Int → Int := fun x => if x = ε then f else if x = inv ε then g else F x
  have f1 : F' ε = f := if_pos rfl
  have f2 : F' (inv ε) = g := by
    change (if inv ε = ε then f else if inv ε = inv ε then g else F (inv ε)) = g
    rw [if_neg hε.symm, if_pos rfl]
  have f3 : ∀ x, x ≠ ε → x ≠ inv ε → F' x = F x := fun x h1 h2 => by
    change (if x = ε then f else if x = inv ε then g else F x) = F x
    rw [if_neg h1, if_neg h2]
  have ninv : ∀ {x : Int}, x ≠ ε ∧ x ≠ inv ε → inv x ≠ ε ∧ inv x ≠ inv ε := by
    rintro x ⟨h1, h2⟩
    exact ⟨fun q => h2 (inv_eq_iff.1 q), fun q => h1 (inv_inj.1 q)⟩
  have na' := (D.eps_pair a).1 na
  have nb' := (D.eps_pair b).1 nb
  have nc' := (D.eps_pair c).1 nc
  have nd' := (D.eps_pair d).1 nd
  have v1 : flipped V e X ε = X := if_pos ((eε ε).2 (.inl rfl))
  have hvi : ∀ x, flipped V e X (inv x) = flipped V e X x := fun x => flipped_inv hV
  have vk : ∀ x, x ≠ e ∧ x ≠ inv e → flipped V e X x = V x := fun x q => flipped_ne q.1 q.2
  have W1 : FlipW S V (flipped V e X) e ε a b c d := ⟨hV, hvi, fun x _ q1 q2 => vk x ⟨q1, q2⟩, by rw [v1]; exact R.flip⟩
  refine ⟨flipped V e X, F', ⟨?_, ?_, ?_, ?_⟩, W1, ?_⟩
  · intro x hx
    by_cases x1 : x = ε
    · subst x1
      rw [f1, f2, v1]; exact R.side
    by_cases x2 : x = inv ε
    · subst x2
      rw [inv_inv, f1, f2, hvi, v1, W.inv']; exact R.side.symm
    · have q := (D.eps_pair x).2 ⟨x1, x2⟩
      have q' := ninv ⟨x1, x2⟩
      rw [f3 x x1 x2, f3 _ q'.1 q'.2, vk x q, W.kept x (D.isLabel_iff.1 hx) q.1 q.2]
      exact h.side x (D.isLabel_iff.1 hx)
  · intro x hx
    by_cases x1 : x = ε
    · subst x1
      rw [v1]; exact R.pos
    by_cases x2 : x = inv ε
    · subst x2
      rw [hvi, v1, W.inv']; exact R.pos
    · have q := (D.eps_pair x).2 ⟨x1, x2⟩
      rw [vk x q, W.kept x (D.isLabel_iff.1 hx) q.1 q.2]
      exact h.pos x (D.isLabel_iff.1 hx)
  · intro x hx
    by_cases x1 : x = ε
    · subst x1
      rw [v1]; exact R.neg
    by_cases x2 : x = inv ε
    · subst x2
      rw [hvi, v1, W.inv']; exact R.neg
    · have q := (D.eps_pair x).2 ⟨x1, x2⟩
      rw [vk x q, W.kept x (D.isLabel_iff.1 hx) q.1 q.2]
      exact h.neg x (D.isLabel_iff.1 hx)
  · intro x y z hg t h0 ht1 ht2 ht3
    have hx : S.IsLabel x := D.isLabel_iff.1 (D.hT.label_of_glues hg).1
    have u := fun {x' y' z' : Int} (g : T.Glues x' y' z') (q : x = x') => D.hT.glues_unique (q ▸ hg) g
    have t1 := D.t1
    have t2 := D.t2
    by_cases q1 : x = ε
    · obtain ⟨rfl, rfl⟩ := u t1 q1
      rw [q1] at ht1 ht3 ⊢
      rw [ka] at ht2 ht3; rw [kd] at ht3
      rw [f1, f3 _ (ninv na').1 (ninv na').2]
      exact R.R1 t h0 ht1 ht2 ht3
    by_cases q2 : x = inv ε
    · obtain ⟨rfl, rfl⟩ := u t2 q2
      rw [q2, W.inv'] at ht1 ht3
      rw [kc] at ht2 ht3; rw [kb] at ht3
      rw [q2, f2, f3 _ (ninv nc').1 (ninv nc').2]
      exact R.S2 t h0 ht1 ht2 ht3
    by_cases q3 : x = a
    · obtain ⟨rfl, rfl⟩ := u t1.rot.rot q3
      rw [q3, ka] at ht1 ht3
      rw [kd] at ht2 ht3
      rw [q3, f3 _ na'.1 na'.2, f3 _ (ninv nd').1 (ninv nd').2]
      exact R.Q1 t h0 ht1 ht2 ht3
    by_cases q4 : x = b
    · obtain ⟨rfl, rfl⟩ := u t2.rot q4
      rw [q4, kb] at ht1 ht3
      rw [W.inv'] at ht2 ht3; rw [kc] at ht3
      rw [q4, f3 _ nb'.1 nb'.2, inv_inv, f1]
      exact R.R2 t h0 ht1 ht2 ht3
    by_cases q5 : x = c
    · obtain ⟨rfl, rfl⟩ := u t2.rot.rot q5
      rw [q5, kc] at ht1 ht3
      rw [W.inv'] at ht3
      rw [kb] at ht2 ht3
      rw [q5, f3 _ nc'.1 nc'.2, f3 _ (ninv nb').1 (ninv nb').2]
      exact R.P2 t h0 ht1 ht2 ht3
    by_cases q6 : x = d
    · obtain ⟨rfl, rfl⟩ := u t1.rot q6
      rw [q6, kd] at ht1 ht3
      rw [ka] at ht3
      rw [q6, f3 _ nd'.1 nd'.2, f2]
      exact R.S1 t h0 ht1 ht2 ht3
    have q7 := (D.eps_pair x).2 ⟨q1, q2⟩
    have hgS : S.Glues x y z := D.symm.far hg (by simp [q1, q2, q3, q4, q5, q6])
    have hn : ∀ y', y' = y ∨ y' = z → y' ≠ e ∧ y' ≠ inv e := by
      intro y' hy'
      rw [D.eps_pair]
      constructor
      · rintro rfl
        rcases hy' with rfl | rfl
        · exact q3 (D.hT.glues_unique hg.rot t1).2
        · exact q6 (D.hT.glues_unique hg.rot.rot t1).1
      · rintro rfl
        rcases hy' with rfl | rfl
        · exact q5 (D.hT.glues_unique hg.rot t2).2
        · exact q4 (D.hT.glues_unique hg.rot.rot t2).1
    have ly := D.hS.label_of_glues hgS
    have hz := ninv ((D.eps_pair z).1 (hn z (.inr rfl)))
    rw [W.kept x hx q7.1 q7.2] at ht1 ht3
    rw [W.kept z ly.2.2 (hn z (.inr rfl)).1 (hn z (.inr rfl)).2] at ht2 ht3
    rw [W.kept y ly.2.1 (hn y (.inl rfl)).1 (hn y (.inl rfl)).2] at ht3
    rw [f3 x q1 q2, f3 _ hz.1 hz.2]
    exact h.corner x y z hgS t h0 ht1 ht2 ht3
  · refine ⟨fun x => by rw [W.inv, hV], fun x => by rw [W.inv', hvi], ?_, ?_⟩
    · intro x hx q1 q2
      beta_reduce
      rw [W.kept x hx q1 q2, vk x ⟨q1, q2⟩]
    · beta_reduce
      rw [h.max_sub la.2.1, h.max_sub la.2.2, h.max_sub lc.2.1, h.max_sub lc.2.2, v1]
      exact R.rest

/-- an isometry takes a part to a part -/
theorem Part.map {φ g : Int → Int} {V' : Int → Int} (h : Part S U V F) (hi : S.IsIsometry T φ) (hS : S.Complete) (hT : T.Complete) (hg : ∀ x, T.IsLabel x → S.IsLabel (g x) ∧ φ (g x) = x)
    (hU : ∀ x, S.IsLabel x → U' (φ x) = U x) (hV : ∀ x, S.IsLabel x → V' (φ x) = V x) : Part T U' V' (fun x => F (g x)) := by
  have hgf : ∀ x, S.IsLabel x → g (φ x) = x := fun x hx => hi.inj _ _ (hg _ (hi.maps x hx)).1 hx (hg _ (hi.maps x hx)).2
  have hginv : ∀ x, S.IsLabel x → g (inv (φ x)) = inv x := fun x hx => by rw [← hi.inverts x hx, hgf _ (isLabel_inv.2 hx)]
  refine ⟨?_, ?_, ?_, ?_⟩
  · intro x' hx'
    obtain ⟨x, hx, rfl⟩ := hi.surj hx'
    rw [hU x hx, hV x hx, hgf x hx, hginv x hx]
    exact h.side x hx
  · intro x' hx'
    obtain ⟨x, hx, rfl⟩ := hi.surj hx'
    rw [hU x hx, hV x hx]
    exact h.pos x hx
  · intro x' hx'
    obtain ⟨x, hx, rfl⟩ := hi.surj hx'
    rw [hU x hx, hV x hx]
    exact h.neg x hx
  · intro x' y' z' hg'
    obtain ⟨x, hx, rfl⟩ := hi.surj (hT.label_of_glues hg').1
    obtain ⟨y, z, hg2⟩ := hS.exists_glues hx
    obtain ⟨rfl, rfl⟩ := hT.glues_unique hg' (hi.glues _ _ _ hg2)
    have l := hS.label_of_glues hg2
    rw [hU x l.1, hU y l.2.1, hU z l.2.2, hgf x l.1, hginv z l.2.2]
    exact h.corner x y z hg2

end Triangulation

namespace Lam

/-- the lamination consists of a part and the rest -/
structure Splits (L X N : Lam Int) : Prop where
  wX : X.WellFormed
  tX : X.tri = L.tri
  wN : N.WellFormed
  tN : N.tri = L.tri
  sum : ∀ x, L.tri.IsLabel x → L.w x = X.w x + N.w x
  part : ∃ F, Part L.tri L.w X.w F

variable {L L1 X N : Lam Int} {m : LMove}

theorem Splits.flip (h : Splits L X N) (hL : L.Consistent) {T : Triangulation} {e : Int} (he : L.tri.Flippable e) (hm : L.tri.IsMultiflip [e] T)
    (ha : (flipMove L.tri T e).move.applyLam L = .ok L1) :
    ∃ X1 N1, (flipMove L.tri T e).move.applyLam X = .ok X1 ∧ (flipMove L.tri T e).move.applyLam N = .ok N1 ∧ Splits L1 X1 N1 := by
  obtain ⟨wX, tX, wN, tN, hs, F, hF⟩ := h
  replace ha : EdgeFlip.applyLam ⟨L.tri, T, e, L.tri.sq e⟩ L = .ok L1 := ha
  rw [ef_applyLam_iff hL.1 he] at ha
  obtain ⟨rfl, hFl⟩ := ha
  obtain ⟨ε, a, b, c, d, D, W⟩ := hFl.flipW hL.1 he hm
  obtain ⟨V', F', hP, W1, W2⟩ := hF.flip D W X.w_inv (consistent_iff.1 hL).2
  have la := D.hS.label_of_glues D.s1
  have lc := D.hS.label_of_glues D.s2
  have hN : ∀ x, L.tri.IsLabel x → N.w x = L.w x - X.w x := fun x hx => by rw [hs x hx]; ring
  have W3 : FlipW N.tri N.w (fun x => L1.w x - V' x) e ε a b c d := by
    refine ⟨N.w_inv, W2.inv', ?_, ?_⟩
    · intro x hx q1 q2
      rw [tN] at hx
      rw [W2.kept x hx q1 q2, hN x hx]
    · rw [hN a la.2.1, hN b la.2.2, hN c lc.2.1, hN d lc.2.2, hN e la.1]
      exact W2.new
  have he1 := he; have hm1 := hm; have D1 := D
  have he2 := he; have hm2 := hm; have D2 := D
  rw [← tX] at he1 hm1 D1 W1
  rw [← tN] at he2 hm2 D2
  have x1 := flip_make wX he1 hm1 D1 W1
  have x2 := flip_make wN he2 hm2 D2 W3
  rw [tX] at x1
  rw [tN] at x2
  refine ⟨_, _, x1, x2, make_wellFormed hm.valid _ _, rfl, make_wellFormed hm.valid _ _, rfl, ?_, F', ?_⟩
  · intro x hx
    rw [make_w _ W1.inv' hx, make_w _ W2.inv' hx]; ring
  · refine ⟨?_, ?_, ?_, hP.corner⟩
    · intro x hx
      rw [make_w _ W1.inv' hx]; exact hP.side x hx
    · intro x hx
      rw [make_w _ W1.inv' hx]; exact hP.pos x hx
    · intro x hx
      rw [make_w _ W1.inv' hx]; exact hP.neg x hx

theorem Splits.flips : ∀ (es : List Int) {T : Triangulation} {ms : List LMove} {L L1 X N : Lam Int}, T.Valid → T.DisjointSupport es → flipOneByOne T es = .ok ms → Splits L X N → L.Consistent →
    L.tri = T → performLam ms L = .ok L1 → ∃ X1 N1, performLam ms X = .ok X1 ∧ performLam ms N = .ok N1 ∧ Splits L1 X1 N1 := by
  intro es
  induction es with
  | nil =>
    intro T ms L L1 X N hT hd hf h hL ht ha
    simp only [flipOneByOne, Except.ok.injEq] at hf
    subst hf
    cases ha
    exact ⟨X, N, rfl, rfl, h⟩
  | cons e es ih =>
    intro T ms L L1 X N hT hd hf h hL ht ha
    subst ht
    have he := hd.flippable (e := e) (by simp)
    obtain ⟨T', h1, h2⟩ := hT.encodeFlip_eq he
    have hdt := (h1.disjoint_tail hT hd).1
    simp only [flipOneByOne, h2, py_bind_ok, Move.target, py_bind_eq_ok] at hf
    obtain ⟨ms', h3, hf⟩ := hf
    cases hf
    simp only [performLam, py_bind_eq_ok] at ha
    obtain ⟨K, g1, g2⟩ := ha
    obtain ⟨X1, N1, x1, n1, hs⟩ := h.flip hL he h1 g1
    have hK : K.Consistent ∧ K.tri = T' := by
      replace g1 : EdgeFlip.applyLam ⟨L.tri, T', e, L.tri.sq e⟩ L = .ok K := g1
      obtain ⟨k1, k2⟩ := (ef_applyLam_iff hL.1 he).1 g1
      subst k1
      exact ⟨k2.consistent hL (disjoint_singleton.2 he) h1, rfl⟩
    obtain ⟨X2, N2, x2, n2, hs2⟩ := ih h1.valid hdt h3 hs hK.1 hK.2 g2
    refine ⟨X2, N2, ?_, ?_, hs2⟩
    · simp only [performLam]
      replace x1 : Move.applyLam (.flip ⟨L.tri, T', e, L.tri.sq e⟩) X = .ok X1 := x1
      rw [x1, py_bind_ok, x2]
    · simp only [performLam]
      replace n1 : Move.applyLam (.flip ⟨L.tri, T', e, L.tri.sq e⟩) N = .ok N1 := n1
      rw [n1, py_bind_ok, n2]

/-- a move takes a part to a part -/
theorem Splits.move (h : Splits L X N) (hL : L.Consistent) (hm : m.Legal) (ht : L.tri = m.move.source) (ha : m.move.applyLam L = .ok L1) :
    ∃ X1 N1, m.move.applyLam X = .ok X1 ∧ m.move.applyLam N = .ok N1 ∧ Splits L1 X1 N1 := by
  cases hm.shape with
  | flip S T e hS he hm' =>
    replace ht : L.tri = S := ht
    subst ht
    exact h.flip hL he hm' ha
  | multiflip S T es hS he hm' =>
    replace ht : L.tri = S := ht
    subst ht
    obtain ⟨rfl, hF⟩ := (mf_applyLam_iff hL.1 he).1 ha
    obtain ⟨ms, f1, f2, f3, -⟩ := flipOneByOne_ok (R := Int) es L.tri hS he
    have hend : L1.tri = endOf L.tri ms := IsMultiflip.unique hS.comp he.1 hm' f2
    obtain ⟨X1, N1, x1, n1, hs⟩ := h.flips es hS he f1 hL rfl ((f3 L L1 hL.1 rfl).2 ⟨hend, hF⟩)
    have x2 := (f3 X X1 h.wX h.tX).1 x1
    have n2 := (f3 N N1 h.wN h.tN).1 n1
    have he1 := he; have he2 := he
    rw [← h.tX] at he1
    rw [← h.tN] at he2
    have x3 := (mf_applyLam_iff (T' := L1.tri) h.wX he1).2 ⟨by rw [x2.1, hend], x2.2⟩
    have n3 := (mf_applyLam_iff (T' := L1.tri) h.wN he2).2 ⟨by rw [n2.1, hend], n2.2⟩
    rw [h.tX] at x3
    rw [h.tN] at n3
    exact ⟨X1, N1, x3, n3, hs⟩
  | isometry S T f g i i' hS hT hf hg hi hi' hgf hfg =>
    replace ht : L.tri = S := ht.trans hi.source
    subst ht
    obtain ⟨rfl, hm'⟩ := (hi.applyLam_iff hf hL.1 rfl).1 ha
    obtain ⟨wX, tX, wN, tN, hs, F, hF⟩ := h
    obtain ⟨X1, x1, x2, x3⟩ := hi.applyLam hf wX tX
    obtain ⟨N1, n1, n2, n3⟩ := hi.applyLam hf wN tN
    refine ⟨X1, N1, x1, n1, ⟨by rw [x2]; exact hT, by rw [x3.2.1, wX.2, x2, tX, hf.zeta]⟩, x2, ⟨by rw [n2]; exact hT, by rw [n3.2.1, wN.2, n2, tN, hf.zeta]⟩, n2, ?_, _,
      hF.map hf hS.comp hT.comp (g := g) (fun x hx => ⟨hg.maps x hx, hfg x hx⟩) hm'.2.2 (fun x hx => x3.2.2 x (by rw [tX]; exact hx))⟩
    intro x' hx'
    obtain ⟨x, hx, rfl⟩ := hf.surj hx'
    rw [hm'.2.2 x hx, x3.2.2 x (by rw [tX]; exact hx), n3.2.2 x (by rw [tN]; exact hx), hs x hx]

theorem Splits.path {S T : Triangulation} {ms : List LMove} (hp : Path S ms T) : ∀ {L L1 X N : Lam Int}, Splits L X N → L.Consistent → L.tri = S → performLam ms L = .ok L1 →
    ∃ X1 N1, performLam ms X = .ok X1 ∧ performLam ms N = .ok N1 ∧ Splits L1 X1 N1 := by
  induction hp with
  | nil T hT =>
    intro L L1 X N h _ _ ha
    cases ha
    exact ⟨X, N, rfl, rfl, h⟩
  | cons m ms T h hs ih =>
    intro L L1 X N hsp hL ht ha
    simp only [performLam, py_bind_eq_ok] at ha
    obtain ⟨K, h1, h2⟩ := ha
    obtain ⟨X1, N1, x1, n1, hs1⟩ := hsp.move hL h ht h1
    obtain ⟨K', k1, k2, k3, k4⟩ := h.applyLam_total hL ht
    rw [h1] at k1
    cases k1
    obtain ⟨X2, N2, x2, n2, hs2⟩ := ih hs1 k3 k2 h2
    exact ⟨X2, N2, by simp only [performLam, x1, py_bind_ok, x2], by simp only [performLam, n1, py_bind_ok, n2], hs2⟩

/-- a mapping takes a part to a part and the rest to the rest -/
theorem Splits.enc {h : Enc} (hs : Splits L X N) (hL : L.Consistent) (hh : h.Legal) (ha : h.applyLam L = .ok L1) :
    ∃ X1 N1, h.applyLam X = .ok X1 ∧ h.applyLam N = .ok N1 ∧ Splits L1 X1 N1 := by
  rw [Enc.applyLam_eq] at ha
  split_ifs at ha with q
  obtain ⟨X1, N1, x1, n1, hs1⟩ := Splits.path hh.path hs hL q.symm ha
  refine ⟨X1, N1, ?_, ?_, hs1⟩
  · rw [Enc.applyLam_eq, hs.tX, if_pos q, x1]
  · rw [Enc.applyLam_eq, hs.tN, if_pos q, n1]

end Lam

end Curver
