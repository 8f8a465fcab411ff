import Verif.Proofs.UnionRestrict
import Verif.Proofs.Action

/-!
# Connected parts
-/

namespace Curver
open Triangulation
namespace Lam
variable {L X Y N M : Lam Int} {red blue : Int → Nat → Bool} {b : Bool}

theorem Colouring.not (h : L.Colouring red) : L.Colouring (fun x t => !red x t) :=
  ⟨fun x t hx ht => by rw [h.back x t hx ht], fun x y z t hg h1 h2 h3 => by rw [h.corner x y z t hg h1 h2 h3]⟩

theorem count_not (p : Nat → Bool) (b : Bool) (n : Nat) : Nat.count (fun t => (!p t) = b) n = Nat.count (fun t => p t = !b) n := by
  congr 1
  · funext t
    cases p t <;> cases b <;> simp

theorem IsPart.not (h : L.IsPart red b X) : L.IsPart (fun x t => !red x t) (!b) X := by
  refine ⟨h.1, h.2.1, fun x hx => ?_⟩
  rw [h.2.2 x hx, count_not, Bool.not_not]

theorem IsUnion.symm (h : L.IsUnion X Y) : L.IsUnion Y X := by
  obtain ⟨red, h1, h2, h3⟩ := h
  exact ⟨_, h1.not, h3.not, h2.not⟩

theorem Colouring.exists_part (hL : L.WellFormed) (h : L.Colouring red) (b : Bool) (k : LamClass) : ∃ X, L.IsPart red b X ∧ X.cls = k := by
  classical
  let u : Int → Int := fun x => if L.tri.IsLabel x then (L.w x).sign * (Nat.count (fun t => red x t = b) (L.w x).natAbs : Nat) else 0
  have hu : ∀ x, u (inv x) = u x := by
    intro x
    by_cases hx : L.tri.IsLabel x
    · have e : ∀ q : Nat → Bool, ∀ p : Nat → Bool, ∀ n, (∀ t < n, q t = p (n - 1 - t)) → Nat.count (fun t => q t = b) n = Nat.count (fun t => p t = b) n := by
        intro q p n hq
        have k := count_back hq n le_rfl
        simp only [Nat.sub_self, Nat.count_zero, Nat.add_zero] at k
        cases b
        · have k1 := count_split p n
          have k2 := count_split q n
          omega
        · exact k
      simp only [u, if_pos hx, if_pos (isLabel_inv.2 hx), w_inv]
      rw [e (red (inv x)) (red x) _ (fun t ht => h.back x t hx ht)]
    · have hx' : ¬ L.tri.IsLabel (inv x) := fun q => hx (isLabel_inv.1 q)
      simp only [u, if_neg hx, if_neg hx']
  refine ⟨make L.tri u k, ⟨make_wellFormed hL.1 u k, rfl, fun x hx => ?_⟩, rfl⟩
  rw [make_w k hu hx]
  exact if_pos hx

theorem Colouring.exists_union (hL : L.WellFormed) (h : L.Colouring red) : ∃ X Y, L.IsPart red true X ∧ L.IsPart red false Y ∧ L.IsUnion X Y := by
  obtain ⟨X, hX, -⟩ := h.exists_part hL true .integral
  obtain ⟨Y, hY, -⟩ := h.exists_part hL false .integral
  exact ⟨X, Y, hX, hY, red, h, hX, hY⟩

theorem IsUnion.consistent (hL : L.Consistent) (h : L.IsUnion X Y) : X.Consistent ∧ Y.Consistent := by
  have h' := h.symm
  obtain ⟨red, h1, h2, h3⟩ := h
  obtain ⟨red', h1', h2', h3'⟩ := h'
  exact ⟨h2.consistent hL h1, h2'.consistent hL h1'⟩

theorem IsUnion.sum (hL : L.WellFormed) (h : L.IsUnion X Y) {x : Int} (hx : L.tri.IsLabel x) : L.w x = X.w x + Y.w x := (h.splits hL).sum x hx

theorem IsUnion.congr (h : L.IsUnion X Y) {L' X' Y' : Lam Int} (e1 : L'.tri = L.tri) (e2 : ∀ x, L'.w x = L.w x) (wX : X'.WellFormed) (e3 : X'.tri = X.tri) (e4 : ∀ x, L.tri.IsLabel x → X'.w x = X.w x)
    (wY : Y'.WellFormed) (e5 : Y'.tri = Y.tri) (e6 : ∀ x, L.tri.IsLabel x → Y'.w x = Y.w x) : L'.IsUnion X' Y' := by
  obtain ⟨red, h1, h2, h3⟩ := h
  refine ⟨red, ⟨?_, ?_⟩, ⟨wX, by rw [e3, h2.2.1, e1], ?_⟩, wY, by rw [e5, h3.2.1, e1], ?_⟩
  · intro x t; rw [e1, e2]; exact h1.back x t
  · intro x y z t; rw [e1, e2, e2, e2]; exact h1.corner x y z t
  · intro x hx; rw [e1] at hx; rw [e4 x hx, e2]; exact h2.2.2 x hx
  · intro x hx; rw [e1] at hx; rw [e6 x hx, e2]; exact h3.2.2 x hx

/-- the part all of whose points have the colour -/
theorem count_all {p : Nat → Bool} {b : Bool} {n : Nat} : Nat.count (fun t => p t = b) n = n ↔ ∀ t < n, p t = b := by
  constructor
  · intro h t ht
    have := Nat.count_iff_forall (p := fun t => p t = b) (n := n)
    exact this.1 h t ht
  · intro h
    exact Nat.count_iff_forall.2 (fun t ht => h t ht)

theorem count_none {p : Nat → Bool} {b : Bool} {n : Nat} : Nat.count (fun t => p t = b) n = 0 ↔ ∀ t < n, p t = !b := by
  have h := count_split p n
  rw [← count_all]
  cases b <;> simp <;> omega

theorem IsPart.blank_iff (h : L.IsPart red b X) : X.Blank ↔ ∀ x t, L.tri.IsLabel x → t < (L.w x).natAbs → red x t = !b := by
  constructor
  · intro hb x t hx ht
    have := hb x (by rw [h.2.1]; exact hx)
    rw [h.2.2 x hx, mul_eq_zero] at this
    rcases this with q | q
    · rw [Int.sign_eq_zero_iff_zero] at q
      omega
    · exact count_none.1 (by exact_mod_cast q) t ht
  · intro hb x hx
    rw [h.2.1] at hx
    rw [h.2.2 x hx, count_none.2 (fun t ht => hb x t hx ht)]
    simp

/-- a connected lamination is coloured with one colour -/
theorem Connected.constant (h : L.Connected) (hL : L.WellFormed) (hc : L.Colouring red) : ∃ b, ∀ x t, L.tri.IsLabel x → t < (L.w x).natAbs → red x t = b := by
  obtain ⟨X, Y, hX, hY, hU⟩ := hc.exists_union hL
  rcases h.2 X Y hU with q | q
  · exact ⟨_, hX.blank_iff.1 q⟩
  · exact ⟨_, hY.blank_iff.1 q⟩

theorem connected_of (h0 : ¬ L.Blank) (h : ∀ red, L.Colouring red → ∃ b, ∀ x t, L.tri.IsLabel x → t < (L.w x).natAbs → red x t = b) : L.Connected := by
  refine ⟨h0, ?_⟩
  rintro X Y ⟨red, h1, h2, h3⟩
  obtain ⟨b, hb⟩ := h red h1
  cases b
  · exact .inl (h2.blank_iff.2 hb)
  · exact .inr (h3.blank_iff.2 hb)

/-- a connected part lies on one side of every colouring -/
theorem IsPart.one_side (hL : L.Consistent) (hc : L.Colouring red) (h : L.IsPart red true X) (hX : X.Connected) (hb : L.Colouring blue) :
    ∃ b, ∀ x t, L.tri.IsLabel x → t < (L.w x).natAbs → red x t = true → blue x t = b := by
  obtain ⟨b, k⟩ := hX.constant h.1 (hc.restrict hL h hb)
  refine ⟨b, ?_⟩
  intro x t hx ht hr
  have := k x (Nat.count (fun t => red x t = true) t) (by rw [h.2.1]; exact hx) (by
    rw [h.abs hx]
    have := (count_mono (red x) (show t + 1 ≤ (L.w x).natAbs by omega)).1
    rw [count_succ_of hr] at this
    omega)
  rwa [restrict_at hr] at this

/-- a part that does not meet another part is a part of the rest -/
theorem IsPart.in_rest (hL : L.Consistent) (hc : L.Colouring red) (hX : L.IsPart red true X) (hb : L.Colouring blue) (hM : L.IsPart blue false M)
    (hd : ∀ x t, L.tri.IsLabel x → t < (L.w x).natAbs → red x t = true → blue x t = false) : ∃ K, M.IsUnion X K := by
  have hM' := hM.not
  have hb' := hb.not
  have h1 := hb'.restrict hL hM' hc
  have h2 := hM'.restrict hX (fun x t hx ht hr => by rw [hd x t hx ht hr]; rfl)
  obtain ⟨K, hK, -⟩ := h1.exists_part hM.1 false .integral
  exact ⟨K, _, h1, h2, hK⟩

/-- the two laminations have the same weights -/
def Same (X Y : Lam Int) : Prop := X.tri = Y.tri ∧ X.geometric = Y.geometric

theorem Same.refl : Same X X := ⟨rfl, rfl⟩
theorem Same.symm (h : Same X Y) : Same Y X := ⟨h.1.symm, h.2.symm⟩
theorem Same.trans (h : Same X Y) (h' : Same Y N) : Same X N := ⟨h.1.trans h'.1, h.2.trans h'.2⟩

theorem Same.w (h : Same X Y) (x : Int) : X.w x = Y.w x := by
  unfold Lam.w; rw [h.2]

theorem Same.wf (h : Same X Y) (hX : X.WellFormed) : Y.WellFormed := by
  unfold WellFormed at *
  rw [← h.1, ← h.2]; exact hX

theorem Same.blank (h : Same X Y) (hX : X.Blank) : Y.Blank := by
  intro x hx
  rw [← h.w]; exact hX x (by rw [h.1]; exact hx)

theorem same_of_w (hX : X.WellFormed) (hY : Y.WellFormed) (ht : X.tri = Y.tri) (h : ∀ x, X.tri.IsLabel x → X.w x = Y.w x) : Same X Y := by
  have := Lam.ext_w (L := ⟨X.tri, X.geometric, X.cls⟩) (L' := ⟨Y.tri, Y.geometric, X.cls⟩) ht rfl hX.2 hY.2 h
  injection this with _ h2 _
  exact ⟨ht, h2⟩

theorem IsUnion.same (h : L.IsUnion X Y) {L' X' Y' : Lam Int} (wX : X.WellFormed) (wY : Y.WellFormed) (e : Same L L') (e1 : Same X X') (e2 : Same Y Y') : L'.IsUnion X' Y' :=
  h.congr e.1.symm (fun x => (e.w x).symm) (e1.wf wX) e1.1.symm (fun x _ => (e1.w x).symm) (e2.wf wY) e2.1.symm (fun x _ => (e2.w x).symm)

theorem IsUnion.wf (h : L.IsUnion X Y) : X.WellFormed ∧ Y.WellFormed ∧ X.tri = L.tri ∧ Y.tri = L.tri := by
  obtain ⟨red, h1, h2, h3⟩ := h
  exact ⟨h2.1, h3.1, h2.2.1, h3.2.1⟩

theorem Unions.same {Xs : List (Lam Int)} (h : L.Unions Xs) : ∀ {L'}, Same L L' → L'.Unions Xs := by
  cases h with
  | nil h => exact fun e => .nil (e.blank h)
  | cons h1 h2 =>
    intro L' e
    exact .cons (h1.same h1.wf.1 h1.wf.2.1 e .refl .refl) h2

theorem Connected.same (h : X.Connected) (e : Same X Y) : Y.Connected := by
  refine ⟨fun q => h.1 (e.symm.blank q), ?_⟩
  intro A B hu
  exact h.2 A B (hu.same hu.wf.1 hu.wf.2.1 e.symm .refl .refl)

/-- a connected part is one of the parts -/
theorem Unions.find {Ys : List (Lam Int)} (h : L.Unions Ys) : L.Consistent → (∀ Y ∈ Ys, Y.Connected) → ∀ {X N}, L.IsUnion X N → X.Connected →
    ∃ Ys1 Y Ys2, Ys = Ys1 ++ Y :: Ys2 ∧ Same X Y ∧ N.Unions (Ys1 ++ Ys2) := by
  induction h with
  | @nil L hb =>
    intro hL _ X N hu hX
    exfalso
    obtain ⟨red, h1, h2, h3⟩ := hu
    apply hX.1
    rw [h2.blank_iff]
    intro x t hx ht
    rw [hb x hx] at ht
    simp at ht
  | @cons L Y M Ys hu hr ih =>
    intro hL hcon X N hu' hX
    have hsum := fun x hx => hu.sum hL.1 (x := x) hx
    have hsum' := fun x hx => hu'.sum hL.1 (x := x) hx
    have c := hu.consistent hL
    have w1 := hu.wf
    have w2 := hu'.wf
    obtain ⟨blue, b1, b2, b3⟩ := hu
    obtain ⟨red, r1, r2, r3⟩ := hu'
    have hY := hcon Y (by simp)
    obtain ⟨b, hb⟩ := r2.one_side hL r1 hX b1
    obtain ⟨b', hb'⟩ := b2.one_side hL b1 hY r1
    cases b with
    | true =>
      have hb2 : b' = true := by
        by_contra q
        rw [Bool.not_eq_true] at q
        subst q
        apply hX.1
        rw [r2.blank_iff]
        intro x t hx ht
        by_contra q
        have q' : red x t = true := by simpa using q
        have := hb' x t hx ht (hb x t hx ht q')
        rw [q'] at this
        cases this
      subst hb2
      have e : Same X Y := by
        refine same_of_w w2.1 w1.1 (by rw [w2.2.2.1, w1.2.2.1]) ?_
        intro x hx
        rw [w2.2.2.1] at hx
        rw [r2.2.2 x hx, b2.2.2 x hx]
        congr 2
        refine count_congr_lt (fun t ht => ?_)
        rw [Bool.eq_iff_iff]
        exact ⟨hb x t hx ht, hb' x t hx ht⟩
      refine ⟨[], Y, Ys, rfl, e, ?_⟩
      refine hr.same ?_
      refine same_of_w w1.2.1 w2.2.1 (by rw [w1.2.2.2, w2.2.2.2]) ?_
      intro x hx
      rw [w1.2.2.2] at hx
      have := hsum x hx
      have := hsum' x hx
      have := e.w x
      omega
    | false =>
      obtain ⟨K, hK⟩ := r2.in_rest hL r1 b1 b3 hb
      have hb2 : ∀ x t, L.tri.IsLabel x → t < (L.w x).natAbs → blue x t = true → red x t = false := by
        intro x t hx ht hbt
        by_contra q
        have := hb x t hx ht (by simpa using q)
        rw [hbt] at this
        cases this
      obtain ⟨K', hK'⟩ := b2.in_rest hL b1 r1 r3 hb2
      obtain ⟨Ys1, Z, Ys2, rfl, hs, hn⟩ := ih c.2 (fun Y hY => hcon Y (by simp [hY])) hK hX
      refine ⟨Y :: Ys1, Z, Ys2, rfl, hs, ?_⟩
      refine .cons hK' (hn.same ?_)
      have w3 := hK.wf
      have w4 := hK'.wf
      refine same_of_w w3.2.1 w4.2.1 (by rw [w3.2.2.2, w4.2.2.2, w1.2.2.2, w2.2.2.2]) ?_
      intro x hx
      rw [w3.2.2.2] at hx
      have s1 := hK.sum w1.2.1 hx
      rw [w1.2.2.2] at hx
      have s2 := hK'.sum w2.2.1 (x := x) (by rw [w2.2.2.2]; exact hx)
      have := hsum x hx
      have := hsum' x hx
      omega

theorem Unions.consistent {Xs : List (Lam Int)} (h : L.Unions Xs) : L.Consistent → ∀ X ∈ Xs, X.Consistent ∧ X.tri = L.tri := by
  induction h with
  | nil _ => intro _ X hX; simp at hX
  | cons hu hr ih =>
    intro hL X hX
    rw [List.mem_cons] at hX
    rcases hX with rfl | hX
    · exact ⟨(hu.consistent hL).1, hu.wf.2.2.1⟩
    · obtain ⟨k1, k2⟩ := ih (hu.consistent hL).2 X hX
      exact ⟨k1, by rw [k2, hu.wf.2.2.2]⟩

/-- the decomposition into connected parts is unique -/
theorem Unions.unique {Xs : List (Lam Int)} (h : L.Unions Xs) : ∀ {Ys : List (Lam Int)}, L.Consistent → L.Unions Ys → (∀ X ∈ Xs, X.Connected) → (∀ Y ∈ Ys, Y.Connected) →
    (Xs.map Lam.geometric).Perm (Ys.map Lam.geometric) := by
  induction h with
  | nil hb =>
    intro Ys hL hY _ hc
    cases hY with
    | nil _ => exact .refl _
    | cons hu _ =>
      exfalso
      obtain ⟨red, h1, h2, h3⟩ := hu
      apply (hc _ List.mem_cons_self).1
      rw [h2.blank_iff]
      intro x t hx ht
      rw [hb x hx] at ht
      simp at ht
  | @cons L X N Xs hu hr ih =>
    intro Ys hL hY hXs hYs
    obtain ⟨Ys1, Y, Ys2, rfl, hs, hn⟩ := hY.find hL hYs hu (hXs X (by simp))
    have k := ih (hu.consistent hL).2 hn (fun Z hZ => hXs Z (by simp [hZ])) (fun Z hZ => hYs Z (by simp only [List.mem_append, List.mem_cons] at hZ ⊢; tauto))
    rw [List.map_cons, List.map_append, List.map_cons, ← hs.2]
    rw [List.map_append] at k
    exact (List.Perm.cons _ k).trans List.perm_middle.symm

end Lam
end Curver
