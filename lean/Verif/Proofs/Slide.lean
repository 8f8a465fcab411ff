import Verif.Proofs.Topology

namespace Curver
open Triangulation
namespace Triangulation

/-- the triangle `(a, b, e)` is folded away: `~e` becomes `b` -/
def hat (b e x : Int) : Int := if x = b then inv e else x

/-- the labels that are left when the triangle `(a, b, e)` is folded away -/
structure Left (T : Triangulation) (a e x : Int) : Prop where
  label : T.IsLabel x
  na : x ≠ a
  ne : x ≠ e
  ni : x ≠ inv e

/-- the triangle to the left of `a` and that it can be folded away -/
structure Base (T : Triangulation) (a b e : Int) : Prop where
  valid : T.Valid
  glues : T.Glues a b e
  bi : b ≠ inv e
  bn : b ≠ inv a
  en : e ≠ inv a

namespace Base
variable {T : Triangulation} {a b e : Int}

theorem comp (B : Base T a b e) : T.Complete := B.valid.comp

theorem nes (B : Base T a b e) : a ≠ b ∧ b ≠ e ∧ e ≠ a := B.comp.glues_ne B.glues

theorem labels (B : Base T a b e) : T.IsLabel a ∧ T.IsLabel b ∧ T.IsLabel e := B.comp.label_of_glues B.glues

theorem left_b (B : Base T a b e) : T.Left a e b := ⟨B.labels.2.1, B.nes.1.symm, B.nes.2.1, B.bi⟩

theorem left_inv_b (B : Base T a b e) : T.Left a e (inv b) :=
  ⟨isLabel_inv.2 B.labels.2.1, fun h => B.bn (inv_eq_iff.1 h), fun h => B.bi (inv_eq_iff.1 h), fun h => B.nes.2.1 (inv_inj.1 h)⟩

theorem hat_b : hat b e b = inv e := by simp [hat]

theorem hat_of_ne {x : Int} (h : x ≠ b) : hat b e x = x := by simp [hat, h]

theorem hat_label (B : Base T a b e) {x : Int} (h : T.Left a e x) : T.IsLabel (hat b e x) := by
  unfold hat; split
  · exact isLabel_inv.2 B.labels.2.2
  · exact h.label

theorem hat_ne (B : Base T a b e) {x : Int} (h : T.Left a e x) : hat b e x ≠ a ∧ hat b e x ≠ b ∧ hat b e x ≠ e := by
  unfold hat; split
  · exact ⟨fun h => B.en (inv_eq_iff.1 h), B.bi.symm, inv_ne e⟩
  · rename_i hx; exact ⟨h.na, hx, h.ne⟩

theorem hat_inj (_ : Base T a b e) {x y : Int} (h : T.Left a e x) (h' : T.Left a e y) (hxy : hat b e x = hat b e y) : x = y := by
  unfold hat at hxy
  split at hxy <;> split at hxy
  · rename_i h1 h2; rw [h1, h2]
  · exact absurd hxy.symm h'.ni
  · exact absurd hxy h.ni
  · exact hxy

theorem exists_hat (B : Base T a b e) {y : Int} (hy : T.IsLabel y) (h : y ≠ a ∧ y ≠ b ∧ y ≠ e) : ∃ x, T.Left a e x ∧ hat b e x = y := by
  by_cases hi : y = inv e
  · exact ⟨b, B.left_b, by rw [hat_b, hi]⟩
  · exact ⟨y, ⟨hy, h.1, h.2.2, hi⟩, hat_of_ne h.2.1⟩

/-- a triangle other than `(a, b, e)` has no side among `a`, `b`, `e` -/
theorem other (B : Base T a b e) {x y z : Int} (h : T.Glues x y z) (hx : x ≠ a ∧ x ≠ b ∧ x ≠ e) :
    (y ≠ a ∧ y ≠ b ∧ y ≠ e) ∧ (z ≠ a ∧ z ≠ b ∧ z ≠ e) := by
  have hc := B.comp
  have g1 := B.glues
  have g2 := g1.rot
  have g3 := g2.rot
  have k1 := h.rot
  have k2 := k1.rot
  refine ⟨⟨?_, ?_, ?_⟩, ?_, ?_, ?_⟩
  · rintro rfl; exact hx.2.2 (hc.glues_unique k1 g1).2
  · rintro rfl; exact hx.1 (hc.glues_unique k1 g2).2
  · rintro rfl; exact hx.2.1 (hc.glues_unique k1 g3).2
  · rintro rfl; exact hx.2.1 (hc.glues_unique k2 g1).1
  · rintro rfl; exact hx.2.2 (hc.glues_unique k2 g2).1
  · rintro rfl; exact hx.1 (hc.glues_unique k2 g3).1

end Base

/-- `S` is `T` after flips that push `a` round: the triangles of `S` are the triangles of `T`, relabelled by `F`, but with the triangle `(a, b, e)` glued in beside `d` -/
structure Slid (T S : Triangulation) (a b e d : Int) (F : Int → Int) : Prop where
  valid : S.Valid
  zeta : S.zeta = T.zeta
  maps : ∀ x, T.IsLabel x → S.IsLabel (F x)
  inj : ∀ x y, T.IsLabel x → T.IsLabel y → F x = F y → x = y
  glues : ∀ x y z, T.Glues x y z → S.Glues (F x) (F y) (F z)
  fa : F a = a
  fia : F (inv a) = inv a
  fb : F b = inv (F (hat b e (inv d)))
  fe : F e = inv (F (hat b e d))
  tw : ∀ x, T.Left a e x → T.Left a e (inv x) → x ≠ d → x ≠ inv d → F (hat b e (inv x)) = inv (F (hat b e x))
  fix : ∀ x, T.IsLabel x → ¬ T.Joined a x → F x = x

/-- one turn: the new relabelling -/
structure Turn (F F' : Int → Int) (b e d d' ε : Int) : Prop where
  eps : ε = F e ∨ ε = inv (F e)
  at_b : F' b = ε
  at_q : F' (hat b e (inv d')) = inv ε
  at_e : F' e = F (hat b e (inv d'))
  at_d : F' (hat b e d) = F b
  other : ∀ x, x ≠ b → x ≠ e → x ≠ hat b e d → x ≠ hat b e (inv d') → F' x = F x

section
variable {T S : Triangulation} {a b e d : Int} {F : Int → Int}

theorem Base.slid (B : Base T a b e) : Slid T T a b e b (fun x => x) := by
  have hib : inv b ≠ b := inv_ne b
  refine ⟨B.valid, rfl, fun _ h => h, fun _ _ _ _ h => h, fun _ _ _ h => h, rfl, rfl, ?_, ?_, ?_, fun _ _ _ => rfl⟩
  · rw [Base.hat_of_ne hib, inv_inv]
  · rw [Base.hat_b, inv_inv]
  · intro x _ _ h1 h2
    rw [Base.hat_of_ne h1, Base.hat_of_ne]
    rintro rfl; exact h2 (inv_inv _).symm

theorem Slid.corner (B : Base T a b e) (h : Slid T S a b e d F) : S.Glues a (F b) (F e) := by
  have := h.glues _ _ _ B.glues
  rwa [h.fa] at this

theorem Slid.flippable (B : Base T a b e) (h : Slid T S a b e d F) (hd : T.Left a e d) : S.Flippable (F e) := by
  have hl := B.labels
  refine ⟨h.maps _ hl.2.2, ?_⟩
  rw [h.valid.comp.sameTriangle_iff (h.maps _ hl.2.2)]
  have g := (h.corner B).rot.rot
  have := h.valid.comp.glues_nxt (h.maps _ hl.2.2)
  obtain ⟨h1, h2⟩ := h.valid.comp.glues_unique this g
  rw [h1] at h2
  rw [h1, h2]
  have hh := B.hat_ne hd
  have hlab := B.hat_label hd
  have hk : inv (F e) = F (hat b e d) := by rw [h.fe, inv_inv]
  rw [hk]
  push Not
  refine ⟨fun k => hh.2.2 (h.inj _ _ hlab hl.2.2 k), fun k => hh.1 ?_, fun k => hh.2.1 (h.inj _ _ hlab hl.2.1 k)⟩
  exact h.inj _ _ hlab hl.1 (by rw [h.fa]; exact k)

theorem Joined.of_glues {x y z : Int} (h : T.Glues x y z) : T.Joined x y ∧ T.Joined x z :=
  ⟨.single (.inr ⟨z, h⟩), .tail (.single (.inr ⟨z, h⟩)) (.inr ⟨x, h.rot⟩)⟩

theorem Joined.of_inv {x : Int} : T.Joined x (inv x) := .single (.inl rfl)

theorem exists_cycle {b e q δ : Int} (h1 : b ≠ e) (h2 : q ≠ b) (h3 : δ ≠ b) (h4 : q ≠ e) (h5 : δ ≠ e) (h6 : q ≠ δ) : ∃ π : Int → Int, π b = e ∧ π q = δ ∧ π e = q ∧ π δ = b ∧
    (∀ x, (x = b ∧ π x = e) ∨ (x = q ∧ π x = δ) ∨ (x = e ∧ π x = q) ∨ (x = δ ∧ π x = b) ∨ (x ≠ b ∧ x ≠ q ∧ x ≠ e ∧ x ≠ δ ∧ π x = x)) ∧ ∀ x y, π x = π y → x = y := by
  refine ⟨fun x => if x = b then e else if x = q then δ else if x = e then q else if x = δ then b else x, ?_⟩
  have key : ∀ x : Int, (x = b ∧ (if x = b then e else if x = q then δ else if x = e then q else if x = δ then b else x) = e) ∨
      (x = q ∧ (if x = b then e else if x = q then δ else if x = e then q else if x = δ then b else x) = δ) ∨
      (x = e ∧ (if x = b then e else if x = q then δ else if x = e then q else if x = δ then b else x) = q) ∨
      (x = δ ∧ (if x = b then e else if x = q then δ else if x = e then q else if x = δ then b else x) = b) ∨
      (x ≠ b ∧ x ≠ q ∧ x ≠ e ∧ x ≠ δ ∧ (if x = b then e else if x = q then δ else if x = e then q else if x = δ then b else x) = x) := by
    intro x; omega
  refine ⟨by simp, by simp [h2], by simp [h1.symm, h4.symm], by simp [h3, h5, h6.symm], key, ?_⟩
  intro x y
  have k1 := key x
  have k2 := key y
  dsimp only
  omega

theorem exists_cycle' {b e q δ : Int} (h1 : b ≠ e) (h2 : q ≠ b) (h3 : δ ≠ b) (h4 : q ≠ e) (h5 : δ ≠ e) (h6 : q ≠ δ) : ∃ π : Int → Int, π b = δ ∧ π q = e ∧ π e = q ∧ π δ = b ∧
    (∀ x, (x = b ∧ π x = δ) ∨ (x = q ∧ π x = e) ∨ (x = e ∧ π x = q) ∨ (x = δ ∧ π x = b) ∨ (x ≠ b ∧ x ≠ q ∧ x ≠ e ∧ x ≠ δ ∧ π x = x)) ∧ ∀ x y, π x = π y → x = y := by
  refine ⟨fun x => if x = b then δ else if x = q then e else if x = e then q else if x = δ then b else x, ?_⟩
  have key : ∀ x : Int, (x = b ∧ (if x = b then δ else if x = q then e else if x = e then q else if x = δ then b else x) = δ) ∨
      (x = q ∧ (if x = b then δ else if x = q then e else if x = e then q else if x = δ then b else x) = e) ∨
      (x = e ∧ (if x = b then δ else if x = q then e else if x = e then q else if x = δ then b else x) = q) ∨
      (x = δ ∧ (if x = b then δ else if x = q then e else if x = e then q else if x = δ then b else x) = b) ∨
      (x ≠ b ∧ x ≠ q ∧ x ≠ e ∧ x ≠ δ ∧ (if x = b then δ else if x = q then e else if x = e then q else if x = δ then b else x) = x) := by
    intro x; omega
  refine ⟨by simp, by simp [h2], by simp [h1.symm, h4.symm], by simp [h3, h5, h6.symm], key, ?_⟩
  intro x y
  have k1 := key x
  have k2 := key y
  dsimp only
  omega

/-- one turn -/
theorem Slid.turn (B : Base T a b e) (h : Slid T S a b e d F) (hd : T.Left a e d) (hid : T.Left a e (inv d)) {d' p : Int} (hd' : T.Left a e d') (hid' : T.Left a e (inv d'))
    (hg : T.Glues (hat b e d) p (hat b e (inv d'))) (hj : T.Joined a d) (hj' : T.Joined a d') {S' : Triangulation} (hm : S.IsMultiflip [F e] S') :
    ∃ F' ε, Slid T S' a b e d' F' ∧ Turn F F' b e d d' ε ∧ S.Glues (F e) a (F b) ∧ S.Glues (inv (F e)) (F p) (F (hat b e (inv d'))) := by
  have hf := h.flippable B hd
  obtain ⟨ε, A, B', C, D, K⟩ := hf.flipData h.valid hm
  have hl := B.labels
  have g1 := (h.corner B).rot.rot
  obtain ⟨e1, e2⟩ := h.valid.comp.glues_unique K.s1 g1
  subst A B'
  have hk : inv (F e) = F (hat b e d) := by rw [h.fe, inv_inv]
  have g2 := h.glues _ _ _ hg
  rw [← hk] at g2
  obtain ⟨rfl, rfl⟩ := h.valid.comp.glues_unique K.s2 g2
  have t1 := K.t1
  have t2 := K.t2
  have ne := B.nes
  have nd := B.hat_ne hd
  have nq := B.hat_ne hid'
  have ndq := B.comp.glues_ne hg
  have ld := B.hat_label hd
  have lq := B.hat_label hid'
  have no := B.other hg nd
  have lp := (B.comp.label_of_glues hg).2.1
  -- the new relabelling
  let F' : Int → Int := fun x => if x = b then ε else if x = hat b e (inv d') then inv ε else if x = e then F (hat b e (inv d'))
    else if x = hat b e d then F b else F x
  have vb : F' b = ε := by simp [F']
  have vq : F' (hat b e (inv d')) = inv ε := by simp [F', nq.2.1]
  have ve : F' e = F (hat b e (inv d')) := by simp [F', ne.2.1.symm, nq.2.2.symm]
  have vd : F' (hat b e d) = F b := by simp [F', nd.2.1, nd.2.2, ndq.2.2.symm]
  have vo : ∀ x, x ≠ b → x ≠ e → x ≠ hat b e d → x ≠ hat b e (inv d') → F' x = F x := by
    intro x h1 h2 h3 h4; simp [F', h1, h2, h3, h4]
  have turn : Turn F F' b e d d' ε := ⟨K.eps, vb, vq, ve, vd, vo⟩
  have hε : inv ε = F e ∨ inv ε = F (hat b e d) := by
    rcases K.eps with h | h
    · right; rw [h, hk]
    · left; rw [h, inv_inv]
  have hε' : ε = F e ∨ ε = F (hat b e d) := by
    rcases K.eps with h | h
    · left; rw [h]
    · right; rw [h, hk]
  -- every value is a value of `F`, by a permutation
  have src : ∃ π : Int → Int, (∀ x, T.IsLabel x → T.IsLabel (π x)) ∧ (∀ x, T.IsLabel x → F' x = F (π x)) ∧ (∀ x y, T.IsLabel x → T.IsLabel y → π x = π y → x = y) := by
    rcases K.eps with he | he
    · obtain ⟨π, p1, p2, p3, p4, p5, p6⟩ := exists_cycle ne.2.1 nq.2.1 nd.2.1 nq.2.2 nd.2.2 ndq.2.2
      refine ⟨π, ?_, ?_, fun x y _ _ => p6 x y⟩
      · intro x hx
        rcases p5 x with ⟨_, k⟩ | ⟨_, k⟩ | ⟨_, k⟩ | ⟨_, k⟩ | ⟨_, _, _, _, k⟩ <;> rw [k]
        exacts [hl.2.2, ld, lq, hl.2.1, hx]
      · intro x hx
        rcases p5 x with ⟨rfl, k⟩ | ⟨rfl, k⟩ | ⟨rfl, k⟩ | ⟨rfl, k⟩ | ⟨k1, k2, k3, k4, k⟩ <;> rw [k]
        exacts [vb.trans he, by rw [vq, he, hk], ve, vd, vo x k1 k3 k4 k2]
    · obtain ⟨π, p1, p2, p3, p4, p5, p6⟩ := exists_cycle' ne.2.1 nq.2.1 nd.2.1 nq.2.2 nd.2.2 ndq.2.2
      refine ⟨π, ?_, ?_, fun x y _ _ => p6 x y⟩
      · intro x hx
        rcases p5 x with ⟨_, k⟩ | ⟨_, k⟩ | ⟨_, k⟩ | ⟨_, k⟩ | ⟨_, _, _, _, k⟩ <;> rw [k]
        exacts [ld, hl.2.2, lq, hl.2.1, hx]
      · intro x hx
        rcases p5 x with ⟨rfl, k⟩ | ⟨rfl, k⟩ | ⟨rfl, k⟩ | ⟨rfl, k⟩ | ⟨k1, k2, k3, k4, k⟩ <;> rw [k]
        exacts [by rw [vb, he, hk], by rw [vq, he, inv_inv], ve, vd, vo x k1 k3 k4 k2]
  obtain ⟨π, π1, π2, π3⟩ := src
  refine ⟨F', ε, ⟨hm.valid, hm.zeta.trans h.zeta, ?_, ?_, ?_, ?_, ?_, ?_, ?_, ?_, ?_⟩, turn, g1, g2⟩
  · intro x hx
    rw [π2 x hx, K.isLabel_iff]
    exact h.maps _ (π1 x hx)
  · intro x y hx hy hxy
    rw [π2 x hx, π2 y hy] at hxy
    exact π3 x y hx hy (h.inj _ _ (π1 x hx) (π1 y hy) hxy)
  · -- triangles
    have fa' : F' a = a := by rw [vo a ne.1 ne.2.2.symm nd.1.symm nq.1.symm, h.fa]
    have first : S'.Glues (F' a) (F' b) (F' e) := by
      rw [fa', vb, ve]; exact t1.rot.rot
    have hp : F' p = F p := vo p no.1.2.1 no.1.2.2 ndq.1.symm ndq.2.1
    have second : S'.Glues (F' (hat b e d)) (F' p) (F' (hat b e (inv d'))) := by
      rw [vd, hp, vq]; exact t2.rot
    intro x y z hxyz
    by_cases hx : x ≠ a ∧ x ≠ b ∧ x ≠ e
    · have hyz := B.other hxyz hx
      by_cases hx2 : x = hat b e d
      · subst hx2
        obtain ⟨rfl, rfl⟩ := B.comp.glues_unique hxyz hg
        exact second
      by_cases hy2 : y = hat b e d
      · subst hy2
        obtain ⟨rfl, rfl⟩ := B.comp.glues_unique hxyz.rot hg
        exact second.rot.rot
      by_cases hz2 : z = hat b e d
      · subst hz2
        obtain ⟨rfl, rfl⟩ := B.comp.glues_unique hxyz.rot.rot hg
        exact second.rot
      have q1 : x ≠ hat b e (inv d') := by
        rintro rfl; exact hy2 (B.comp.glues_unique hxyz hg.rot.rot).1
      have q2 : y ≠ hat b e (inv d') := by
        rintro rfl; exact hz2 (B.comp.glues_unique hxyz.rot hg.rot.rot).1
      have q3 : z ≠ hat b e (inv d') := by
        rintro rfl; exact hx2 (B.comp.glues_unique hxyz.rot.rot hg.rot.rot).1
      rw [vo x hx.2.1 hx.2.2 hx2 q1, vo y hyz.1.2.1 hyz.1.2.2 hy2 q2, vo z hyz.2.2.1 hyz.2.2.2 hz2 q3]
      have ll := B.comp.label_of_glues hxyz
      refine K.kept _ _ _ (h.glues _ _ _ hxyz) ?_
      intro u hu
      simp only [List.mem_cons, List.not_mem_nil, or_false] at hu
      rcases hu with rfl | rfl | rfl
      · exact ⟨fun k => hx.2.2 (h.inj _ _ ll.1 hl.2.2 k), fun k => hx2 (h.inj _ _ ll.1 ld (k.trans hk))⟩
      · exact ⟨fun k => hyz.1.2.2 (h.inj _ _ ll.2.1 hl.2.2 k), fun k => hy2 (h.inj _ _ ll.2.1 ld (k.trans hk))⟩
      · exact ⟨fun k => hyz.2.2.2 (h.inj _ _ ll.2.2 hl.2.2 k), fun k => hz2 (h.inj _ _ ll.2.2 ld (k.trans hk))⟩
    · have : x = a ∨ x = b ∨ x = e := by tauto
      rcases this with rfl | rfl | rfl
      · obtain ⟨rfl, rfl⟩ := B.comp.glues_unique hxyz B.glues
        exact first
      · obtain ⟨rfl, rfl⟩ := B.comp.glues_unique hxyz B.glues.rot
        exact first.rot
      · obtain ⟨rfl, rfl⟩ := B.comp.glues_unique hxyz B.glues.rot.rot
        exact first.rot.rot
  · rw [vo a ne.1 ne.2.2.symm nd.1.symm nq.1.symm, h.fa]
  · rw [vo (inv a) B.bn.symm B.en.symm _ _, h.fia]
    · intro k
      unfold hat at k
      split at k
      · exact ne.2.2 (inv_inj.1 k).symm
      · exact hid.na (by rw [← k, inv_inv])
    · intro k
      unfold hat at k
      split at k
      · exact ne.2.2 (inv_inj.1 k).symm
      · exact hd'.na (inv_inj.1 k).symm
  · rw [vb, vq, inv_inv]
  · -- the new `e`
    rw [ve]
    by_cases hdd : d' = d
    · subst hdd
      rw [vd, h.fb, inv_inv]
    · have hne : d' ≠ inv d := by
        intro k
        apply ndq.2.2.symm
        rw [k, inv_inv]
      have n1 : hat b e d' ≠ hat b e d := fun k => hdd (B.hat_inj hd' hd k)
      have n2 : hat b e d' ≠ hat b e (inv d') := fun k => inv_ne d' (B.hat_inj hd' hid' k).symm
      have nn := B.hat_ne hd'
      rw [vo _ nn.2.1 nn.2.2 n1 n2]
      rw [h.tw d' hd' hid' hdd hne]
  · -- other pairs
    intro x hx hix h1 h2
    have nx := B.hat_ne hx
    have nix := B.hat_ne hix
    by_cases hxd : x = d
    · subst hxd
      have n1 : hat b e (inv x) ≠ hat b e x := fun k => inv_ne x (B.hat_inj hix hx k)
      have n2 : hat b e (inv x) ≠ hat b e (inv d') := fun k => h1 (inv_inj.1 (B.hat_inj hix hid' k))
      rw [vd, vo _ nix.2.1 nix.2.2 n1 n2, h.fb, inv_inv]
    by_cases hxd2 : x = inv d
    · subst hxd2
      have n1 : hat b e (inv d) ≠ hat b e d := fun k => inv_ne d (B.hat_inj hx hd k)
      have n2 : hat b e (inv d) ≠ hat b e (inv d') := fun k => h2 (B.hat_inj hx hid' k)
      rw [inv_inv, vd, vo _ nx.2.1 nx.2.2 n1 n2, h.fb]
    have n1 : hat b e x ≠ hat b e d := fun k => hxd (B.hat_inj hx hd k)
    have n2 : hat b e x ≠ hat b e (inv d') := fun k => h2 (B.hat_inj hx hid' k)
    have n3 : hat b e (inv x) ≠ hat b e d := fun k => hxd2 (by rw [← B.hat_inj hix hd k, inv_inv])
    have n4 : hat b e (inv x) ≠ hat b e (inv d') := fun k => h1 (inv_inj.1 (B.hat_inj hix hid' k))
    rw [vo _ nx.2.1 nx.2.2 n1 n2, vo _ nix.2.1 nix.2.2 n3 n4]
    exact h.tw x hx hix hxd hxd2
  · -- other components
    intro x hx hj2
    have jb := Joined.of_glues B.glues
    have je : T.Joined a (inv e) := jb.2.trans Joined.of_inv
    have k : ∀ y, T.Joined a y → T.Joined a (hat b e y) := by
      intro y hy; unfold hat; split
      · exact je
      · exact hy
    rw [vo x (fun k => hj2 (k ▸ jb.1)) (fun k => hj2 (k ▸ jb.2)) (fun q => hj2 (q ▸ k _ hj)) (fun q => hj2 (q ▸ k _ (hj'.trans Joined.of_inv)))]
    exact h.fix x hx hj2

end

end Triangulation
end Curver
