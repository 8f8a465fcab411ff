import Verif.Proofs.Slide
import Mathlib.Tactic.Linarith

namespace Curver
open Triangulation
namespace Triangulation

variable {R : Type} [CommRing R] [LinearOrder R] [IsStrictOrderedRing R]

/-- what one turn does to the weights -/
structure TurnW (T : Triangulation) (a b e d d' p : Int) (U U' : Int → R) : Prop where
  gl : T.Glues (hat b e d) p (hat b e (inv d'))
  ue : U e = U (hat b e d)
  at_b : U' b = max (U a + U p) (U b + U (hat b e (inv d'))) - U e
  at_q : U' (hat b e (inv d')) = U' b
  at_e : U' e = U (hat b e (inv d'))
  at_d : U' (hat b e d) = U b
  other : ∀ x, x ≠ b → x ≠ e → x ≠ hat b e d → x ≠ hat b e (inv d') → U' x = U x

/-- twice the weight to the left of an edge -/
def lw2 (T : Triangulation) (U : Int → R) (x : Int) : R := U x + U (T.nxt (T.nxt x)) - U (T.nxt x)

theorem Complete.lw2_eq {T : Triangulation} (hT : T.Complete) {x y z : Int} (h : T.Glues x y z) (U : Int → R) : T.lw2 U x = U x + U z - U y := by
  have hx := (hT.label_of_glues h).1
  obtain ⟨h1, h2⟩ := (hT.glues_iff hx).1 h
  unfold lw2
  rw [← h2, ← h1]

namespace TurnW
variable {T : Triangulation} {a b e d d' p : Int} {U U' : Int → R}

/-- the two triangles before and after -/
theorem values (B : Base T a b e) (hd : T.Left a e d) (hid' : T.Left a e (inv d')) (h : TurnW T a b e d d' p U U') :
    U' a = U a ∧ U' p = U p ∧
    (T.lw2 U a = U a + U e - U b ∧ T.lw2 U b = U b + U a - U e ∧ T.lw2 U e = U e + U b - U a) ∧
    (T.lw2 U (hat b e d) = U e + U (hat b e (inv d')) - U p ∧ T.lw2 U p = U p + U e - U (hat b e (inv d')) ∧ T.lw2 U (hat b e (inv d')) = U (hat b e (inv d')) + U p - U e) ∧
    (T.lw2 U' a = U a + U (hat b e (inv d')) - U' b ∧ T.lw2 U' b = U' b + U a - U (hat b e (inv d')) ∧ T.lw2 U' e = U (hat b e (inv d')) + U' b - U a) ∧
    (T.lw2 U' (hat b e d) = U b + U' b - U p ∧ T.lw2 U' p = U p + U b - U' b ∧ T.lw2 U' (hat b e (inv d')) = U' b + U p - U b) := by
  have nd := B.hat_ne hd
  have nq := B.hat_ne hid'
  have no := B.other h.gl nd
  have nn := B.comp.glues_ne h.gl
  have ne := B.nes
  have ha : U' a = U a := h.other a ne.1 ne.2.2.symm nd.1.symm nq.1.symm
  have hp : U' p = U p := h.other p no.1.2.1 no.1.2.2 nn.1.symm nn.2.1
  have hc := B.comp
  refine ⟨ha, hp, ⟨?_, ?_, ?_⟩, ⟨?_, ?_, ?_⟩, ⟨?_, ?_, ?_⟩, ?_, ?_, ?_⟩
  · rw [hc.lw2_eq B.glues]
  · rw [hc.lw2_eq B.glues.rot]
  · rw [hc.lw2_eq B.glues.rot.rot]
  · rw [hc.lw2_eq h.gl, h.ue]
  · rw [hc.lw2_eq h.gl.rot, h.ue]
  · rw [hc.lw2_eq h.gl.rot.rot, h.ue]
  · rw [hc.lw2_eq B.glues, ha, h.at_e]
  · rw [hc.lw2_eq B.glues.rot, ha, h.at_e]
  · rw [hc.lw2_eq B.glues.rot.rot, ha, h.at_e]
  · rw [hc.lw2_eq h.gl, h.at_d, h.at_q, hp]
  · rw [hc.lw2_eq h.gl.rot, h.at_d, h.at_q, hp]
  · rw [hc.lw2_eq h.gl.rot.rot, h.at_d, h.at_q, hp]

omit [IsStrictOrderedRing R] in
/-- the corners of the other triangles do not change -/
theorem far (B : Base T a b e) (h : TurnW T a b e d d' p U U') {x : Int} (hx : T.IsLabel x)
    (h1 : x ≠ a ∧ x ≠ b ∧ x ≠ e) (h2 : x ≠ hat b e d ∧ x ≠ p ∧ x ≠ hat b e (inv d')) : T.lw2 U' x = T.lw2 U x := by
  have hc := B.comp
  have g := hc.glues_nxt hx
  have no := B.other g h1
  have g1 := h.gl
  unfold lw2
  rw [h.other x h1.2.1 h1.2.2 h2.1 h2.2.2, h.other _ no.1.2.1 no.1.2.2, h.other _ no.2.2.1 no.2.2.2]
  · intro k; exact h2.2.1 (hc.glues_unique (k ▸ g.rot.rot) g1).1
  · intro k; exact h2.1 (hc.glues_unique (k ▸ g.rot.rot) g1.rot.rot).1
  · intro k; exact h2.2.2 (hc.glues_unique (k ▸ g.rot) g1).2
  · intro k; exact h2.2.1 (hc.glues_unique (k ▸ g.rot) g1.rot.rot).2

/-- what happens to the corners -/
theorem corners (B : Base T a b e) (hd : T.Left a e d) (hid' : T.Left a e (inv d')) (h : TurnW T a b e d d' p U U') :
    T.lw2 U' a = min (T.lw2 U (hat b e d)) (T.lw2 U a) ∧
    T.lw2 U b ≤ T.lw2 U' b ∧ T.lw2 U b ≤ T.lw2 U' (hat b e d) ∧
    (T.lw2 U (hat b e d) < T.lw2 U a → T.lw2 U' (hat b e d) = T.lw2 U b) ∧
    (T.lw2 U a ≤ T.lw2 U (hat b e d) → T.lw2 U' b = T.lw2 U b) ∧
    T.lw2 U' p = min (T.lw2 U e) (T.lw2 U p) ∧
    T.lw2 U (hat b e (inv d')) ≤ T.lw2 U' (hat b e (inv d')) ∧ T.lw2 U (hat b e (inv d')) ≤ T.lw2 U' e ∧
    (T.lw2 U' (hat b e (inv d')) = T.lw2 U (hat b e (inv d')) ∨ T.lw2 U' e = T.lw2 U (hat b e (inv d'))) ∧
    (T.lw2 U a ≤ T.lw2 U (hat b e d) → T.lw2 U' (hat b e (inv d')) = T.lw2 U (hat b e (inv d'))) := by
  obtain ⟨_, _, ⟨k1, k2, k3⟩, ⟨k4, k5, k6⟩, ⟨k7, k8, k9⟩, k10, k11, k12⟩ := h.values B hd hid'
  have hb := h.at_b
  rw [k1, k2, k3, k4, k5, k6, k7, k8, k9, k10, k11, k12]
  rcases le_total (U a + U p) (U b + U (hat b e (inv d'))) with hle | hle
  · rw [max_eq_right hle] at hb
    refine ⟨?_, by linarith, by linarith, fun h => by linarith, fun h => by linarith, ?_, by linarith, by linarith, .inl (by linarith), fun h => by linarith⟩
    · rw [min_eq_right (by linarith)]; linarith
    · rw [min_eq_right (by linarith)]; linarith
  · rw [max_eq_left hle] at hb
    refine ⟨?_, by linarith, by linarith, fun h => by linarith, fun h => by linarith, ?_, by linarith, by linarith, .inr (by linarith), fun h => by linarith⟩
    · rw [min_eq_left (by linarith)]; linarith
    · rw [min_eq_left (by linarith)]; linarith

end TurnW

/-- after `d`, the edge `d'` is next, once the triangle `(a, b, e)` is folded away -/
def Follows (T : Triangulation) (b e d d' : Int) : Prop := ∃ p, T.Glues (hat b e d) p (hat b e (inv d'))

/-- the edges that leave the vertex on the left of the loop `a`, once the triangle `(a, b, e)` is folded away -/
structure Fan (T : Triangulation) (a b e : Int) (D : List Int) : Prop where
  base : Base T a b e
  nodup : D.Nodup
  last : D.getLast? = some b
  left : ∀ d ∈ D, T.Left a e d ∧ T.Left a e (inv d)
  joined : ∀ d ∈ D, T.Joined a d
  chain : List.IsChain (T.Follows b e) (b :: D)

theorem Follows.unique {T : Triangulation} {a b e : Int} (B : Base T a b e) {d x y : Int} (hx : T.Left a e (inv x)) (hy : T.Left a e (inv y))
    (h : T.Follows b e d x) (h' : T.Follows b e d y) : x = y := by
  obtain ⟨p, h⟩ := h
  obtain ⟨q, h'⟩ := h'
  exact inv_inj.1 (B.hat_inj hx hy (B.comp.glues_unique h h').2)

theorem Follows.unique' {T : Triangulation} {a b e : Int} (B : Base T a b e) {d x y : Int} (hx : T.Left a e x) (hy : T.Left a e y)
    (h : T.Follows b e x d) (h' : T.Follows b e y d) : x = y := by
  obtain ⟨p, h⟩ := h
  obtain ⟨q, h'⟩ := h'
  exact B.hat_inj hx hy (B.comp.glues_unique h.rot.rot h'.rot.rot).1

/-- a chain: every element but the last is followed by the next one -/
theorem chain_succ {α : Type _} {r : α → α → Prop} : ∀ (l : List α) (x : α), List.IsChain r (x :: l) → ∀ y ∈ (x :: l).dropLast, ∃ z ∈ l, r y z
  | [], x, _, y, hy => by simp at hy
  | z :: l, x, h, y, hy => by
    rw [List.isChain_cons_cons] at h
    rw [List.dropLast_cons_of_ne_nil (by simp)] at hy
    rcases List.mem_cons.1 hy with rfl | hy
    · exact ⟨z, by simp, h.1⟩
    · obtain ⟨w, hw, hr⟩ := chain_succ l z h.2 y hy
      exact ⟨w, List.mem_cons_of_mem _ hw, hr⟩

theorem chain_prev {α : Type _} {r : α → α → Prop} : ∀ (l : List α) (x : α), List.IsChain r (x :: l) → ∀ z ∈ l, ∃ y ∈ (x :: l).dropLast, r y z
  | [], x, _, z, hz => by simp at hz
  | w :: l, x, h, z, hz => by
    rw [List.isChain_cons_cons] at h
    rw [List.dropLast_cons_of_ne_nil (by simp)]
    rcases List.mem_cons.1 hz with rfl | hz
    · exact ⟨x, by simp, h.1⟩
    · obtain ⟨y, hy, hr⟩ := chain_prev l w h.2 z hz
      exact ⟨y, List.mem_cons_of_mem _ hy, hr⟩

namespace Fan
variable {T : Triangulation} {a b e : Int} {D : List Int}

theorem ne_nil (F : Fan T a b e D) : D ≠ [] := by
  intro h; have := F.last; rw [h] at this; cases this

theorem eq_concat (F : Fan T a b e D) : D = D.dropLast ++ [b] := by
  have := F.last
  rw [List.getLast?_eq_getLast_of_ne_nil F.ne_nil] at this
  injection this with this
  conv_lhs => rw [← List.dropLast_append_getLast F.ne_nil, this]

theorem b_mem (F : Fan T a b e D) : b ∈ D := by rw [F.eq_concat]; simp

theorem rotated (F : Fan T a b e D) : (b :: D).dropLast.Perm D := by
  rw [List.dropLast_cons_of_ne_nil F.ne_nil]
  conv_rhs => rw [F.eq_concat]
  exact (List.perm_append_singleton b D.dropLast).symm

/-- the fan is a cycle: the edge before -/
theorem follows_mem (F : Fan T a b e D) {x y : Int} (hx : T.Left a e x) (hy : T.Left a e y) (hiy : T.Left a e (inv y)) (h : T.Follows b e x y) : x ∈ D ↔ y ∈ D := by
  constructor
  · intro hm
    obtain ⟨z, hz, hr⟩ := chain_succ D b F.chain x (F.rotated.mem_iff.2 hm)
    rw [Follows.unique F.base hiy (F.left z hz).2 h hr]; exact hz
  · intro hm
    obtain ⟨z, hz, hr⟩ := chain_prev D b F.chain y hm
    have hz' := F.rotated.mem_iff.1 hz
    rw [Follows.unique' F.base hx (F.left z hz').1 h hr]; exact hz'

end Fan

/-- the weights as `a` is pushed past the edges of a list -/
inductive WRun (T : Triangulation) (a b e : Int) : Int → List Int → (Int → R) → (Int → R) → Prop
  | nil (d : Int) (U : Int → R) : WRun T a b e d [] U U
  | cons (d d' p : Int) (rest : List Int) (U U' U'' : Int → R) (h : TurnW T a b e d d' p U U') (hr : WRun T a b e d' rest U' U'') : WRun T a b e d (d' :: rest) U U''


/-- `d` is reached and `rest` remains -/
def Fan.At (_ : Fan T a b e D) (d : Int) (rest : List Int) : Prop := ∃ pre, b :: D = pre ++ d :: rest

namespace Fan.At
variable {T : Triangulation} {a b e : Int} {D : List Int} {F : Fan T a b e D} {d d' : Int} {rest : List Int}

theorem start (F : Fan T a b e D) : F.At b D := ⟨[], rfl⟩

theorem next (h : F.At d (d' :: rest)) : F.At d' rest := by
  obtain ⟨pre, h⟩ := h
  exact ⟨pre ++ [d], by rw [h]; simp⟩

theorem mem (h : F.At d rest) : d ∈ D := by
  obtain ⟨pre, h⟩ := h
  have : d ∈ b :: D := by rw [h]; simp
  rcases List.mem_cons.1 this with rfl | h
  · exact F.b_mem
  · exact h

theorem rest_mem (h : F.At d rest) {x : Int} (hx : x ∈ rest) : x ∈ D := by
  obtain ⟨pre, h⟩ := h
  cases pre with
  | nil =>
    simp only [List.nil_append, List.cons.injEq] at h
    rw [h.2]; exact hx
  | cons y pre =>
    simp only [List.cons_append, List.cons.injEq] at h
    rw [h.2]; simp [hx]

theorem chain (h : F.At d rest) : List.IsChain (T.Follows b e) (d :: rest) := by
  obtain ⟨pre, h⟩ := h
  have := F.chain
  rw [h] at this
  exact this.right_of_append

theorem nodup (h : F.At d rest) : (d :: rest).dropLast.Nodup := by
  obtain ⟨pre, h⟩ := h
  have h1 := F.rotated.nodup_iff.2 F.nodup
  rw [h, List.dropLast_append_of_ne_nil (by simp)] at h1
  exact h1.of_append_right

theorem rest_nodup (h : F.At d rest) : rest.Nodup := by
  obtain ⟨pre, h⟩ := h
  have := F.nodup
  cases pre with
  | nil =>
    simp only [List.nil_append, List.cons.injEq] at h
    rw [← h.2]; exact this
  | cons y pre =>
    simp only [List.cons_append, List.cons.injEq] at h
    rw [h.2] at this
    exact (List.nodup_cons.1 this.of_append_right).2

end Fan.At

section
variable {T : Triangulation} {a b e : Int} {D : List Int} {F : Fan T a b e D} {d d' p : Int} {rest : List Int} {U U' U'' : Int → R}

theorem Fan.At.mem_dropLast_next (h : F.At d (d' :: rest)) {x : Int} (hx : x ∈ (d' :: rest).dropLast) : x ∈ (d :: d' :: rest).dropLast ∧ x ≠ d := by
  rw [List.dropLast_cons_of_ne_nil (by simp)]
  refine ⟨List.mem_cons_of_mem _ hx, ?_⟩
  rintro rfl
  have := h.nodup
  rw [List.dropLast_cons_of_ne_nil (by simp)] at this
  exact (List.nodup_cons.1 this).1 hx

theorem Fan.At.mem_dropLast (h : F.At d rest) {x : Int} (hx : x ∈ (d :: rest).dropLast) : x ∈ D := by
  rcases List.mem_cons.1 (List.dropLast_subset _ hx) with rfl | hx
  · exact h.mem
  · exact h.rest_mem hx

/-- all turns shift the weights by the same amount -/
theorem WRun.shift (t : R) (h : WRun T a b e d rest U U'') : F.At d rest → U b = U e + t → (∀ x ∈ (d :: rest).dropLast, U a - t ≤ T.lw2 U (hat b e x)) →
    (∀ y, T.Left a e y → U'' (hat b e y) = U (hat b e y) + t * ((List.count y (d :: rest).dropLast : R) + (List.count (inv y) rest : R))) ∧ U'' b = U'' e + t ∧ U'' a = U a := by
  induction h with
  | nil d U => intro _ h1 _; exact ⟨fun y _ => by simp, h1, rfl⟩
  | cons d d' p rest U U' U'' h hr ih =>
    intro hA h1 h2
    have B := F.base
    have hd := F.left d hA.mem
    have hd' := F.left d' hA.next.mem
    obtain ⟨ka, kp, ⟨k1, k2, k3⟩, ⟨k4, k5, k6⟩, ⟨k7, k8, k9⟩, k10, k11, k12⟩ := h.values B hd.1 hd'.2
    have hκ := h2 d (by rw [List.dropLast_cons_of_ne_nil (by simp)]; simp)
    have hb : U' b = U (hat b e (inv d')) + t := by
      rw [h.at_b, max_eq_right (by linarith)]; linarith
    have ih' := ih hA.next (by rw [hb, h.at_e]) (by
      intro x hx
      obtain ⟨m1, m2⟩ := hA.mem_dropLast_next hx
      have hx2 := F.left x (hA.mem_dropLast m1)
      have hb2 := h2 x m1
      rw [ka]
      by_cases q1 : hat b e x = p
      · rw [q1] at hb2 ⊢; rw [k11]; rw [k5] at hb2; linarith
      by_cases q2 : hat b e x = hat b e (inv d')
      · rw [q2] at hb2 ⊢; rw [k12]; rw [k6] at hb2; linarith
      · rw [h.far B (B.hat_label hx2.1) (B.hat_ne hx2.1) ⟨fun k => m2 (B.hat_inj hx2.1 hd.1 k), q1, q2⟩]
        exact hb2)
    obtain ⟨j1, j2, j3⟩ := ih'
    refine ⟨?_, j2, j3.trans ka⟩
    intro y hy
    rw [j1 y hy, List.dropLast_cons_of_ne_nil (by simp : (d' :: rest) ≠ [])]
    have nn := B.comp.glues_ne h.gl
    by_cases y1 : y = d
    · subst y1
      have : inv y ≠ d' := by
        rintro rfl; rw [inv_inv] at nn; exact nn.2.2 rfl
      rw [h.at_d, List.count_cons_self, List.count_cons_of_ne this.symm]
      push_cast
      rw [h1, h.ue]; ring
    by_cases y2 : y = inv d'
    · subst y2
      rw [h.at_q, hb, inv_inv, List.count_cons_self, List.count_cons_of_ne (Ne.symm y1)]
      push_cast
      ring
    · have yn := B.hat_ne hy
      rw [h.other _ yn.2.1 yn.2.2 (fun k => y1 (B.hat_inj hy hd.1 k)) (fun k => y2 (B.hat_inj hy hd'.2 k)), List.count_cons_of_ne (Ne.symm y1),
        List.count_cons_of_ne (fun k => y2 (by rw [k, inv_inv]))]

/-- the corners on the left of `a` when the triangle is beside `d` -/
def Fan.Range (_ : Fan T a b e D) (d y : Int) : Prop := y = a ∨ y = b ∨ (∃ x ∈ D, y = hat b e x) ∨ (y = e ∧ inv d ∈ D)

theorem Fan.third (F : Fan T a b e D) (hd : d ∈ D) (hd' : d' ∈ D) (hg : T.Glues (hat b e d) p (hat b e (inv d'))) : (∃ x ∈ D, p = hat b e x) ↔ inv d ∈ D := by
  have B := F.base
  have ld := F.left d hd
  have ld' := F.left d' hd'
  have no := B.other hg (B.hat_ne ld.1)
  obtain ⟨x, hx, rfl⟩ := B.exists_hat (B.comp.label_of_glues hg).2.1 no.1
  have hf : T.Follows b e x (inv d) := ⟨_, by rw [inv_inv]; exact hg.rot⟩
  rw [← F.follows_mem hx ld.2 (by rw [inv_inv]; exact ld.1) hf]
  constructor
  · rintro ⟨y, hy, hxy⟩
    rw [B.hat_inj hx (F.left y hy).1 hxy]; exact hy
  · intro h; exact ⟨x, h, rfl⟩

/-- a lower bound for the corners stays one -/
theorem TurnW.ge (h : TurnW T a b e d d' p U U') (hd : d ∈ D) (hd' : d' ∈ D) {μ : R} (hμ : ∀ y, F.Range d y → μ ≤ T.lw2 U y) : ∀ y, F.Range d' y → μ ≤ T.lw2 U' y := by
  have B := F.base
  have ld := F.left d hd
  have ld' := F.left d' hd'
  obtain ⟨c1, c2, c3, c4, c5, c6, c7, c8, c9, c10⟩ := h.corners B ld.1 ld'.2
  have ra := hμ a (.inl rfl)
  have rb := hμ b (.inr (.inl rfl))
  have rd := hμ _ (.inr (.inr (.inl ⟨d, hd, rfl⟩)))
  rintro y (rfl | rfl | ⟨x, hx, rfl⟩ | ⟨rfl, hi⟩)
  · rw [c1]; exact le_min rd ra
  · linarith
  · have lx := F.left x hx
    by_cases q1 : hat b e x = hat b e d
    · rw [q1]; linarith
    by_cases q2 : hat b e x = p
    · have hi := (F.third hd hd' h.gl).1 ⟨x, hx, q2.symm⟩
      rw [q2, c6]
      have := hμ _ (.inr (.inr (.inl ⟨x, hx, rfl⟩)))
      rw [q2] at this
      exact le_min (hμ e (.inr (.inr (.inr ⟨rfl, hi⟩)))) this
    by_cases q3 : hat b e x = hat b e (inv d')
    · have := hμ _ (.inr (.inr (.inl ⟨x, hx, rfl⟩)))
      rw [q3] at this ⊢; linarith
    · rw [h.far B (B.hat_label lx.1) (B.hat_ne lx.1) ⟨q1, q2, q3⟩]
      exact hμ _ (.inr (.inr (.inl ⟨x, hx, rfl⟩)))
  · have := hμ _ (.inr (.inr (.inl ⟨inv d', hi, rfl⟩)))
    linarith

/-- some corner other than the one at the end of the range is at most `μ` -/
def Fan.Low (F : Fan T a b e D) (d : Int) (U : Int → R) (μ : R) : Prop := ∃ y, F.Range d y ∧ y ≠ b ∧ T.lw2 U y ≤ μ

theorem TurnW.low (h : TurnW T a b e d d' p U U') (hd : d ∈ D) (hd' : d' ∈ D) {μ : R} (hμ : F.Low d U μ) : F.Low d' U' μ := by
  have B := F.base
  have ld := F.left d hd
  have ld' := F.left d' hd'
  obtain ⟨c1, c2, c3, c4, c5, c6, c7, c8, c9, c10⟩ := h.corners B ld.1 ld'.2
  have ne := B.nes
  have toA : T.lw2 U' a ≤ μ → F.Low d' U' μ := fun k => ⟨a, .inl rfl, ne.1, k⟩
  have toX : ∀ x ∈ D, T.lw2 U' (hat b e x) ≤ μ → F.Low d' U' μ := fun x hx k => ⟨_, .inr (.inr (.inl ⟨x, hx, rfl⟩)), (B.hat_ne (F.left x hx).1).2.1, k⟩
  have toP : inv d ∈ D → T.lw2 U' p ≤ μ → F.Low d' U' μ := by
    intro hi k
    obtain ⟨x, hx, rfl⟩ := (F.third hd hd' h.gl).2 hi
    exact toX x hx k
  obtain ⟨y, hy, hyb, hle⟩ := hμ
  rcases hy with rfl | rfl | ⟨x, hx, rfl⟩ | ⟨rfl, hi⟩
  · exact toA (by rw [c1]; exact (min_le_right _ _).trans hle)
  · exact absurd rfl hyb
  · have lx := F.left x hx
    by_cases q1 : hat b e x = hat b e d
    · exact toA (by rw [c1, ← q1]; exact (min_le_left _ _).trans hle)
    by_cases q2 : hat b e x = p
    · have hi := (F.third hd hd' h.gl).1 ⟨x, hx, q2.symm⟩
      rw [q2] at hle
      exact toP hi (by rw [c6]; exact (min_le_right _ _).trans hle)
    by_cases q3 : hat b e x = hat b e (inv d')
    · rcases c9 with c9 | c9
      · exact toX x hx (by rw [q3, c9, ← q3]; exact hle)
      · have : x = inv d' := B.hat_inj lx.1 ld'.2 q3
        exact ⟨e, .inr (.inr (.inr ⟨rfl, this ▸ hx⟩)), ne.2.1.symm, by rw [c9, ← q3]; exact hle⟩
    · exact toX x hx (by rw [h.far B (B.hat_label lx.1) (B.hat_ne lx.1) ⟨q1, q2, q3⟩]; exact hle)
  · exact toP hi (by rw [c6]; exact (min_le_left _ _).trans hle)

theorem TurnW.attained (h : TurnW T a b e d d' p U U') (hd : d ∈ D) (hd' : d' ∈ D) {μ : R} (hμ : F.Low d U μ ∨ T.lw2 U b ≤ μ) : F.Low d' U' μ ∨ T.lw2 U' b ≤ μ := by
  rcases hμ with hμ | hμ
  · exact .inl (h.low hd hd' hμ)
  · have B := F.base
    have ld := F.left d hd
    have ld' := F.left d' hd'
    obtain ⟨c1, c2, c3, c4, c5, c6, c7, c8, c9, c10⟩ := h.corners B ld.1 ld'.2
    rcases lt_or_ge (T.lw2 U (hat b e d)) (T.lw2 U a) with k | k
    · left
      exact ⟨_, .inr (.inr (.inl ⟨d, hd, rfl⟩)), (B.hat_ne ld.1).2.1, by rw [c4 k]; exact hμ⟩
    · right; rw [c5 k]; exact hμ

/-- some corner that will be passed is at most `μ` -/
def Fan.Ahead (_ : Fan T a b e D) (d : Int) (rest : List Int) (U : Int → R) (μ : R) : Prop :=
  T.lw2 U a ≤ μ ∨ (∃ x ∈ (d :: rest).dropLast, T.lw2 U (hat b e x) ≤ μ) ∨ (inv d ∈ rest ∧ T.lw2 U e ≤ μ)

theorem TurnW.ahead (h : TurnW T a b e d d' p U U') (hA : F.At d (d' :: rest)) {μ : R} (hμ : F.Ahead d (d' :: rest) U μ) : F.Ahead d' rest U' μ := by
  have B := F.base
  have hd := hA.mem
  have hd' := hA.next.mem
  have ld := F.left d hd
  have ld' := F.left d' hd'
  obtain ⟨c1, c2, c3, c4, c5, c6, c7, c8, c9, c10⟩ := h.corners B ld.1 ld'.2
  have nn := B.comp.glues_ne h.gl
  have split : ∀ x ∈ (d :: d' :: rest).dropLast, x = d ∨ x ∈ (d' :: rest).dropLast := by
    intro x hx; rw [List.dropLast_cons_of_ne_nil (by simp)] at hx; exact List.mem_cons.1 hx
  rcases hμ with hle | ⟨x, hx, hle⟩ | ⟨hi, hle⟩
  · exact .inl (by rw [c1]; exact (min_le_right _ _).trans hle)
  · have lx := F.left x (hA.mem_dropLast hx)
    rcases split x hx with rfl | hx'
    · exact .inl (by rw [c1]; exact (min_le_left _ _).trans hle)
    have q1 : hat b e x ≠ hat b e d := fun k => (hA.mem_dropLast_next hx').2 (B.hat_inj lx.1 ld.1 k)
    by_cases q2 : hat b e x = p
    · exact .inr (.inl ⟨x, hx', by rw [q2, c6, ← q2]; exact (min_le_right _ _).trans hle⟩)
    by_cases q3 : hat b e x = hat b e (inv d')
    · rcases c9 with c9 | c9
      · exact .inr (.inl ⟨x, hx', by rw [q3, c9, ← q3]; exact hle⟩)
      · have hxd : x = inv d' := B.hat_inj lx.1 ld'.2 q3
        refine .inr (.inr ⟨?_, by rw [c9, ← q3]; exact hle⟩)
        have := List.dropLast_subset _ hx'
        rcases List.mem_cons.1 this with k | k
        · rw [k] at hxd; exact absurd hxd.symm (inv_ne d')
        · rw [← hxd]; exact k
    · exact .inr (.inl ⟨x, hx', by rw [h.far B (B.hat_label lx.1) (B.hat_ne lx.1) ⟨q1, q2, q3⟩]; exact hle⟩)
  · obtain ⟨z, hz, hr⟩ := chain_prev _ _ hA.chain _ hi
    have lz := F.left z (hA.mem_dropLast hz)
    have no := B.other h.gl (B.hat_ne ld.1)
    obtain ⟨x, hx, hxp⟩ := B.exists_hat (B.comp.label_of_glues h.gl).2.1 no.1
    have hf : T.Follows b e x (inv d) := ⟨hat b e (inv d'), by rw [inv_inv, hxp]; exact h.gl.rot⟩
    have hxz := Follows.unique' B hx lz.1 hf hr
    subst hxz
    rcases split _ hz with k | k
    · rw [k] at hxp; exact absurd hxp nn.1
    · exact .inr (.inl ⟨x, k, by rw [hxp, c6]; exact (min_le_left _ _).trans hle⟩)

/-- a corner that is smaller than the one at the start of the range will be passed -/
theorem TurnW.dip (h : TurnW T a b e d d' p U U') (hA : F.At d (d' :: rest)) {μ : R} (hb : T.lw2 U b ≤ μ) (hμ : ∃ x ∈ (d :: d' :: rest).dropLast, T.lw2 U (hat b e x) < T.lw2 U a) :
    F.Low d' U' μ ∨ (T.lw2 U' b ≤ μ ∧ ∃ x ∈ (d' :: rest).dropLast, T.lw2 U' (hat b e x) < T.lw2 U' a) := by
  have B := F.base
  have hd := hA.mem
  have hd' := hA.next.mem
  have ld := F.left d hd
  have ld' := F.left d' hd'
  obtain ⟨c1, c2, c3, c4, c5, c6, c7, c8, c9, c10⟩ := h.corners B ld.1 ld'.2
  rcases lt_or_ge (T.lw2 U (hat b e d)) (T.lw2 U a) with k | k
  · left
    exact ⟨_, .inr (.inr (.inl ⟨d, hd, rfl⟩)), (B.hat_ne ld.1).2.1, by rw [c4 k]; exact hb⟩
  · right
    refine ⟨by rw [c5 k]; exact hb, ?_⟩
    obtain ⟨x, hx, hle⟩ := hμ
    have lx := F.left x (hA.mem_dropLast hx)
    have hxd : x ≠ d := by rintro rfl; exact absurd hle (not_lt.2 k)
    have hx' : x ∈ (d' :: rest).dropLast := by
      rw [List.dropLast_cons_of_ne_nil (by simp)] at hx
      rcases List.mem_cons.1 hx with q | q
      · exact absurd q hxd
      · exact q
    refine ⟨x, hx', ?_⟩
    rw [c1, min_eq_right k]
    have q1 : hat b e x ≠ hat b e d := fun k => hxd (B.hat_inj lx.1 ld.1 k)
    by_cases q2 : hat b e x = p
    · rw [q2] at hle ⊢; rw [c6]; exact (min_le_right _ _).trans_lt hle
    by_cases q3 : hat b e x = hat b e (inv d')
    · rw [q3] at hle ⊢; rw [c10 k]; exact hle
    · rw [h.far B (B.hat_label lx.1) (B.hat_ne lx.1) ⟨q1, q2, q3⟩]; exact hle

/-! the whole run -/

theorem Fan.At.last (h : F.At d []) : d = b := by
  obtain ⟨pre, h⟩ := h
  have h1 : (b :: D).getLast? = some b := by
    rw [List.getLast?_cons_of_ne_nil F.ne_nil, F.last]
  rw [h] at h1
  simpa using h1

theorem WRun.ge (h : WRun T a b e d rest U U'') : F.At d rest → ∀ {μ : R}, (∀ y, F.Range d y → μ ≤ T.lw2 U y) → ∀ y, F.Range b y → μ ≤ T.lw2 U'' y := by
  induction h with
  | nil d U => intro hA μ hμ; rw [hA.last] at hμ; exact hμ
  | cons d d' p rest U U' U'' h hr ih => intro hA μ hμ; exact ih hA.next (h.ge hA.mem hA.next.mem hμ)

theorem WRun.low (h : WRun T a b e d rest U U'') : F.At d rest → ∀ {μ : R}, F.Low d U μ → F.Low b U'' μ := by
  induction h with
  | nil d U => intro hA μ hμ; rw [hA.last] at hμ; exact hμ
  | cons d d' p rest U U' U'' h hr ih => intro hA μ hμ; exact ih hA.next (h.low hA.mem hA.next.mem hμ)

theorem WRun.attained (h : WRun T a b e d rest U U'') : F.At d rest → ∀ {μ : R}, F.Low d U μ ∨ T.lw2 U b ≤ μ → F.Low b U'' μ ∨ T.lw2 U'' b ≤ μ := by
  induction h with
  | nil d U => intro hA μ hμ; rw [hA.last] at hμ; exact hμ
  | cons d d' p rest U U' U'' h hr ih => intro hA μ hμ; exact ih hA.next (h.attained hA.mem hA.next.mem hμ)

theorem WRun.ahead (h : WRun T a b e d rest U U'') : F.At d rest → ∀ {μ : R}, F.Ahead d rest U μ → T.lw2 U'' a ≤ μ := by
  induction h with
  | nil d U =>
    intro hA μ hμ
    rcases hμ with h | ⟨x, hx, _⟩ | ⟨h, _⟩
    · exact h
    · simp at hx
    · simp at h
  | cons d d' p rest U U' U'' h hr ih => intro hA μ hμ; exact ih hA.next (h.ahead hA hμ)

theorem WRun.dip (h : WRun T a b e d rest U U'') : F.At d rest → ∀ {μ : R}, T.lw2 U b ≤ μ → (∃ x ∈ (d :: rest).dropLast, T.lw2 U (hat b e x) < T.lw2 U a) → F.Low b U'' μ := by
  induction h with
  | nil d U => intro hA μ _ hμ; obtain ⟨x, hx, _⟩ := hμ; simp at hx
  | cons d d' p rest U U' U'' h hr ih =>
    intro hA μ hb hμ
    rcases h.dip hA hb hμ with h | ⟨h1, h2⟩
    · exact hr.low hA.next h
    · exact ih hA.next h1 h2

end
end Triangulation
end Curver
