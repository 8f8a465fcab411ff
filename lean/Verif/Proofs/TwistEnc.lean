import Verif.Proofs.Turns

namespace Curver
open Triangulation

theorem LMove.Legal.isometry_acts {m : LMove} (h : m.Legal) {S T : Triangulation} {f : Int → Int} (hf : m.IsIsometryMove S T f) : ∃ i, m.move = .isometry i ∧ i.Acts S T f := by
  obtain ⟨i, h1, h2, h3, h4, h5⟩ := hf
  refine ⟨i, h1, ?_⟩
  cases h.shape with
  | flip S T e hS he hm => cases h1
  | multiflip S T es hS he hm => cases h1
  | isometry S' T' f' g' i' i'' hS hT' hf hg hi hi' hgf hfg =>
    injection h1 with h1
    subst h1
    have hs := hi.source.symm.trans h2
    have ht := hi.target.symm.trans h3
    subst hs; subst ht
    have e : ∀ x, S'.IsLabel x → f' x = f x := by
      intro x hx
      have a1 := hi.label.get? hx
      rw [h4.get? hx] at a1
      exact (Option.some.inj a1).symm
    refine ⟨h2, h3, h4, ?_, ?_, ?_⟩
    · intro j hj; rw [hi.index j hj, e j (mem_indices_isLabel hj)]
    · intro j hj; rw [← e j hj, hi.invLabel j hj]
    · intro j hj; rw [← e j (mem_indices_isLabel hj), hi.invIndex j hj]

namespace Triangulation

/-- an edge `a` that joins a vertex to itself: at least two edges `X` leave on its left; its left triangle is `(a, b, e)` -/
structure Loop (T : Triangulation) (a b e : Int) (X : List Int) : Prop where
  valid : T.Valid
  sweep : Sweep T a X
  glues : T.Glues a b e
  two : 2 ≤ X.length

/-- the edges on the left, once the triangle is folded away -/
def fold (e : Int) (X : List Int) : List Int := X.tail.filter (fun z => z ≠ e)

variable {T S : Triangulation} {a b e : Int} {X : List Int} {F : Int → Int} {ms : List LMove}

theorem Loop.fan (h : Loop T a b e X) : Fan T a b e (fold e X) := h.sweep.fan h.valid h.glues h.two

theorem Slid.isometry (B : Base T a b e) (h : Slid T S a b e b F) : T.IsIsometry S F := by
  refine ⟨h.zeta, h.maps, h.inj, ?_, h.glues⟩
  have hib : inv b ≠ b := inv_ne b
  have fb : F (inv b) = inv (F b) := by
    have := h.fb
    rw [Base.hat_of_ne hib] at this
    rw [this, inv_inv]
  have fe : F (inv e) = inv (F e) := by
    have := h.fe
    rw [Base.hat_b] at this
    rw [this, inv_inv]
  intro x hx
  by_cases h1 : x = a
  · rw [h1, h.fa, h.fia]
  by_cases h2 : x = inv a
  · rw [h2, h.fia, inv_inv, h.fa]
  by_cases h3 : x = b
  · rw [h3, fb]
  by_cases h4 : x = inv b
  · rw [h4, fb, inv_inv, inv_inv]
  by_cases h5 : x = e
  · rw [h5, fe]
  by_cases h6 : x = inv e
  · rw [h6, fe, inv_inv, inv_inv]
  have := h.tw x ⟨hx, h1, h5, h6⟩ ⟨isLabel_inv.2 hx, fun k => h2 (inv_eq_iff.1 k), fun k => h6 (inv_eq_iff.1 k), fun k => h5 (inv_inj.1 k)⟩ h3 h4
  rwa [Base.hat_of_ne h3, Base.hat_of_ne (fun k => h4 (inv_eq_iff.1 k))] at this

/-- the flips and the isometry that make up the twist -/
structure Loop.Data (T : Triangulation) (a b e : Int) (X : List Int) (ms : List LMove) (S : Triangulation) (F G : Int → Int) (m : LMove) : Prop where
  turns : Turns T a b e b (fold e X) T (fun x => x) ms S F
  iso : T.IsIsometry S F
  legal : m.Legal
  back : m.IsIsometryMove S T G
  gf : ∀ x, T.IsLabel x → G (F x) = x
  fg : ∀ x, S.IsLabel x → F (G x) = x

theorem Loop.exists_data (h : Loop T a b e X) : ∃ ms S F G m, Loop.Data T a b e X ms S F G m ∧ S.findIsometry T [(a, a)] = .ok m := by
  have B := h.fan.base
  obtain ⟨ms, S, F, ht⟩ := h.fan.turns _ _ _ _ (Fan.At.start h.fan) B.slid
  have hl := ht.last
  have hlast : (b :: fold e X).getLast (by simp) = b := by
    have := h.fan.eq_concat
    rw [List.getLast_cons h.fan.ne_nil]
    have := h.fan.last
    rw [List.getLast?_eq_getLast_of_ne_nil h.fan.ne_nil] at this
    exact Option.some.inj this
  rw [hlast] at hl
  have hi := hl.isometry B
  obtain ⟨g, g1, g2, g3⟩ := hi.exists_inverse h.valid.comp hl.valid.comp
  have la := B.labels.1
  have lS : S.IsLabel a := by have := hi.maps a la; rwa [hl.fa] at this
  have ga : g a = a := by have := g2 a la; rwa [hl.fa] at this
  have hext : S.ExtendsTo T [(a, a)] g := by
    refine ⟨g1, ?_, ?_⟩
    · intro x y hxy
      simp only [List.mem_singleton, Prod.mk.injEq] at hxy
      rw [hxy.1, hxy.2, ga]
    · intro x hx hk
      have hx' : T.IsLabel x := by rwa [hi.isLabel] at hx
      have hj : ¬ S.Joined a x := hk a (by simp [PyDict.keys])
      obtain ⟨y, hy, rfl⟩ := hi.surj hx
      have hj' : ¬ T.Joined a y := by
        intro k
        have := hi.joined h.valid.comp la k
        rw [hl.fa] at this
        exact hj this
      rw [hl.fix y hy hj'] at *
      have := g2 y hy
      rwa [hl.fix y hy hj'] at this
  rcases hl.valid.findIsometry_main h.valid (d := [(a, a)]) (by simp [PyDict.keys]) (by simp [la, lS]) g1.zeta with ⟨m, f, k1, k2, k3, k4⟩ | ⟨_, k2⟩
  · have hfg := ExtendsTo.unique hl.valid.comp h.valid.comp (by simp [PyDict.keys, lS]) k4 hext
    refine ⟨ms, S, F, f, m, ⟨ht, hi, k3, k2, ?_, ?_⟩, k1⟩
    · intro x hx; rw [hfg _ (hi.maps x hx), g2 x hx]
    · intro x hx; rw [hfg x hx, g3 x hx]
  · exact absurd hext (k2 g)

/-- the encoding made of the flips and the isometry -/
structure Loop.Twists (T : Triangulation) (ms : List LMove) (m : LMove) (k : Enc) : Prop where
  legal : k.Legal
  kind : k.kind = .mappingClass
  source : k.source = T
  target : k.target = T
  lam : ∀ (R : Type) [CommRing R] [LinearOrder R] [IsStrictOrderedRing R] [Halvable R] (L : Lam R), L.WellFormed → L.tri = T → k.applyLam L = (performLam ms L >>= m.move.applyLam)
  hom : ∀ x : Hom, x.WellFormed → x.tri = T → k.applyHom x = (performHom ms x >>= m.move.applyHom)

theorem Loop.build (h : Loop T a b e X) {c : Lam Int} (hc : c.tri = T) {n : Int} (hd : c.dualWeight a = .ok n) (hn : c.weight - n = ((fold e X).length : Int)) :
    ∃ k ms S F G m, Twist.build c a = .ok k ∧ Loop.Data T a b e X ms S F G m ∧ Loop.Twists T ms m k := by
  obtain ⟨ms, S, F, G, m, hD, hm⟩ := h.exists_data
  obtain ⟨p, p1, p2, p3, p4, p5, p6, p7⟩ := h.valid.idEncoding_spec
  obtain ⟨t, t1, t2, t3, t4, t5, t6, t7⟩ := hD.turns.flips p2 p5 (by rw [p3]; simp)
  obtain ⟨f, f1, f2, f3, f4, f5, f6⟩ := hD.legal.encoded
  obtain ⟨i, i1, i2⟩ := hD.legal.isometry_acts hD.back
  have fs : f.source = S := by rw [f5, i1]; exact i2.source
  have ft : f.target = T := by rw [f6, i1]; exact i2.target
  obtain ⟨k, k1, k2, k3⟩ := C14_composition f t f2 t2 (fs.trans t5.symm)
  have ks : k.source = T := by rw [k3.source, t4, p4]
  have kt : k.target = T := by rw [k3.target, ft]
  refine ⟨k, ms, S, F, G, m, ?_, hD, k2, ?_, ks, kt, ?_, ?_⟩
  · unfold Twist.build
    rw [hd, py_bind_ok, hc, p1, py_bind_ok, hn, Int.toNat_natCast, t1, py_bind_ok, t5, t4, p4, hm, py_bind_ok, f1, py_bind_ok]
    exact k1
  · exact (C14_class f t k f2 t2 k1).2.2 ⟨f3, t3, by rw [ft, t4, p4]⟩
  · intro R _ _ _ _ L hL ht
    rw [k3.lam R L hL, t6 R L hL, p6 R L hL ht, py_bind_ok]
    cases hx : performLam ms L with
    | error x => rfl
    | ok L' =>
      rw [py_bind_ok, py_bind_ok]
      have : L'.tri = S := (hD.turns.path.performLam hL ht hx).1
      rw [Enc.applyLam_eq, fs, this, if_pos rfl]
      simp only [Enc.performed, f4, List.reverse_singleton, performLam]
      cases m.move.applyLam L' <;> rfl
  · intro x hx ht
    rw [k3.hom x hx, t7 x hx, p7 x hx ht, py_bind_ok]
    obtain ⟨y, y1, y2, y3⟩ := hD.turns.path.performHom hx ht
    rw [y1, py_bind_ok, py_bind_ok]
    rw [Enc.applyHom_eq, fs, y2, if_pos rfl]
    simp only [Enc.performed, f4, List.reverse_singleton, performHom]
    cases m.move.applyHom y <;> rfl

section
variable {R : Type} [CommRing R] [LinearOrder R] [IsStrictOrderedRing R] [Halvable R]

open Classical in
/-- the weights of the labels -/
noncomputable def wts (T : Triangulation) (L : Lam R) (x : Int) : R := if T.IsLabel x then L.w x else 0

omit [LinearOrder R] [IsStrictOrderedRing R] [Halvable R] in
theorem wts_eq {L : Lam R} {x : Int} (hx : T.IsLabel x) : T.wts L x = L.w x := if_pos hx

/-- what the twist does to laminations without arcs -/
theorem Loop.run (h : Loop T a b e X) {ms S F G m k} (hD : Loop.Data T a b e X ms S F G m) (hk : Loop.Twists T ms m k) {L : Lam R} (hL : L.NoArcs) (ht : L.tri = T) :
    ∃ L', k.applyLam L = .ok L' ∧ L'.NoArcs ∧ L'.tri = T ∧ L'.cls = L.cls ∧ WRun T a b e b (fold e X) (T.wts L) (T.wts L') := by
  obtain ⟨hC, hT⟩ := Lam.noArcs_iff.1 hL
  obtain ⟨K, k1, k2, k3, k4⟩ := hD.turns.path.performLam_total hC ht
  obtain ⟨L', l1, l2, l3, l4⟩ := hD.legal.applyLam_total k3 (k2.trans (by
    obtain ⟨i, i1, i2⟩ := hD.legal.isometry_acts hD.back
    rw [i1]; exact i2.source.symm))
  obtain ⟨i, i1, i2⟩ := hD.legal.isometry_acts hD.back
  have hiso : S.IsIsometry T G := hD.back.choose_spec.2.2.2.2
  have la := l1
  rw [i1] at la
  obtain ⟨j1, j2⟩ := (i2.applyLam_iff hiso k3.1 k2).1 la
  have hKt : K.Taut := by
    clear l1 la j1 j2 l2 l3 l4
    have : ∀ {S ms S'} (hp : Path S ms S') {L K : Lam R}, L.Consistent → L.Taut → L.tri = S → performLam ms L = .ok K → K.Taut := by
      intro S ms S' hp
      induction hp with
      | nil S hS => intro L K _ hT _ hp; cases hp; exact hT
      | cons m ms S' hm hs ih =>
        intro L K hC hT ht hp
        simp only [performLam, py_bind_eq_ok] at hp
        obtain ⟨L1, a1, a2⟩ := hp
        obtain ⟨L2, b1, b2, b3, b4⟩ := hm.applyLam_total hC ht
        cases a1.symm.trans b1
        exact ih b3 (hm.taut hC.1 hT ht a1) b2 a2
    exact this hD.turns.path hC hT ht k1
  have hT' := hD.legal.taut k3.1 hKt (k2.trans (by rw [i1]; exact i2.source.symm)) l1
  refine ⟨L', ?_, Lam.noArcs_iff.2 ⟨l3, hT'⟩, j1, l4.trans k4, ?_⟩
  · rw [hk.lam R L hC.1 ht, k1, py_bind_ok, l1]
  · have := hD.turns.run h.fan.base hC hT ht k1
    have e1 : T.pull (fun x => x) L = T.wts L := rfl
    have e2 : T.pull F K = T.wts L' := by
      funext x
      by_cases hx : T.IsLabel x
      · rw [pull_eq hx, wts_eq hx]
        have := j2.2.2 (F x) (by rw [k2]; exact hD.iso.maps x hx)
        rw [hD.gf x hx] at this
        exact this.symm
      · unfold pull wts; rw [if_neg hx, if_neg hx]
    rwa [e1, e2] at this

end
end Triangulation
end Curver
