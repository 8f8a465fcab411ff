import Verif.Proofs.Half

namespace Curver
open Triangulation

/-- the conjugate of `h` by `c` -/
structure Enc.ConjOf (k h c : Enc) : Prop where
  legal : k.Legal
  kind : k.kind = .mappingClass
  source : k.source = c.source
  target : k.target = c.source
  lam : ∀ (R : Type) [CommRing R] [LinearOrder R] [IsStrictOrderedRing R] [Halvable R] (L : Lam R), L.WellFormed →
    k.applyLam L = (do let L1 ← c.applyLam L; let L2 ← h.applyLam L1; c.inv'.applyLam L2)
  hom : ∀ x : Hom, x.WellFormed → k.applyHom x = (do let x1 ← c.applyHom x; let x2 ← h.applyHom x1; c.inv'.applyHom x2)

theorem Enc.Legal.conjugateBy {h c : Enc} (hh : h.Legal) (hc : c.Legal) (hk : h.kind = .mappingClass) (hck : c.kind ≠ .encoding) (ht : c.target = h.source) :
    ∃ k i x, h.conjugateBy c = .ok k ∧ k.ConjOf h c ∧ c.inverse = .ok i ∧ i = c.inv' ∧ i.mul h = .ok x ∧ x.mul c = .ok k ∧ x.Legal := by
  have hht := hh.mappingClass hk
  have hi := Enc.inverse_eq hc
  change c.inverse = .ok c.inv' at hi
  have li := hc.inv'
  obtain ⟨x, x1, x2, x3⟩ := C14_composition c.inv' h li hh (by change c.target = _; rw [ht, hht])
  obtain ⟨k, k1, k2, k3⟩ := C14_composition x c x2 hc (by rw [x3.source, ht])
  refine ⟨k, c.inv', x, ?_, ⟨k2, ?_, k3.source, ?_, ?_, ?_⟩, hi, rfl, x1, k1, x2⟩
  · unfold Enc.conjugateBy
    rw [hi, py_bind_ok, x1, py_bind_ok, k1]
  · refine (C14_class x c k x2 hc k1).2.2 ⟨?_, hck, ?_⟩
    · intro hx
      rcases (C14_class c.inv' h x li hh x1).1.1 hx with h' | h'
      · exact hck h'
      · rw [hk] at h'; cases h'
    · rw [x3.target]; rfl
  · rw [k3.target, x3.target]; rfl
  · intro R _ _ _ _ L hL
    rw [k3.lam R L hL]
    cases hx : c.applyLam L with
    | error e => rfl
    | ok L1 =>
      simp only [py_bind_ok]
      rw [x3.lam R L1 (hc.undo hL hx).1]
  · intro y hy
    rw [k3.hom y hy]
    cases hx : c.applyHom y with
    | error e => rfl
    | ok y1 =>
      simp only [py_bind_ok]
      rw [x3.hom y1 (hc.applyHom_ok hy hx).1]

namespace Triangulation
variable {T : Triangulation} {a b e : Int} {D : List Int}

/-- flips of edges other than `a` -/
def Off (a : Int) (ms : List LMove) : Prop := ∀ m ∈ ms, ∃ S S' x, m = flipMove S S' x ∧ S.Valid ∧ S.Flippable x ∧ S.IsMultiflip [x] S' ∧ x ≠ a ∧ x ≠ inv a

theorem Turns.off (B : Base T a b e) {d : Int} {S : Triangulation} {rest : List Int} {F F'' : Int → Int} {ms : List LMove} {S'' : Triangulation}
    (h : Turns T a b e d rest S F ms S'' F'') : Off a ms := by
  induction h with
  | nil d S F hs => intro m hm; cases hm
  | cons d d' p ε rest S S' S'' F F' F'' ms hs _ _ hg hf hm ht g1 g2 hr ih =>
    intro m hm'
    rcases List.mem_cons.1 hm' with rfl | hm'
    · have hl := B.labels
      refine ⟨S, S', F e, rfl, hs.valid, hf, hm, ?_, ?_⟩
      · intro k; rw [← hs.fa] at k; exact B.nes.2.2 (hs.inj _ _ hl.2.2 (by simpa [hs.fa] using hl.1) (by simpa [hs.fa] using k))
      · intro k; rw [← hs.fia] at k; exact B.en (hs.inj _ _ hl.2.2 (isLabel_inv.2 hl.1) k)
    · exact ih m hm'

theorem Swept.off (B : Base T a b e) {S S' : Triangulation} {ms : List LMove} {F : Int → Int} {ε r p : Int} (h : Swept T a b e D ms S F S' ε r p) :
    Off a (ms ++ [flipMove S S' (F e)]) := by
  intro m hm
  rcases List.mem_append.1 hm with hm | hm
  · exact h.turns.off B m hm
  · rw [List.mem_singleton] at hm
    have hl := B.labels
    refine ⟨S, S', F e, hm, h.slid.valid, h.flippable, h.flipped, ?_, ?_⟩
    · exact (h.data.ne a (by simp)).1.symm
    · exact (h.data.ne (inv a) (by simp)).1.symm

theorem Off.inv' {ms : List LMove} (h : Off a ms) : Off (inv a) ms := by
  intro m hm
  obtain ⟨S, S', x, h1, h2, h3, h4, h5, h6⟩ := h m hm
  exact ⟨S, S', x, h1, h2, h3, h4, h6, by rw [inv_inv]; exact h5⟩

theorem Off.cons {S S' : Triangulation} {x : Int} {ms : List LMove} (hS : S.Valid) (hf : S.Flippable x) (hm : S.IsMultiflip [x] S') (h1 : x ≠ a) (h2 : x ≠ inv a)
    (h : Off a ms) : Off a (flipMove S S' x :: ms) := by
  intro m hm'
  rcases List.mem_cons.1 hm' with rfl | hm'
  · exact ⟨S, S', x, rfl, hS, hf, hm, h1, h2⟩
  · exact h m hm'

/-- the first loop -/
theorem Valid.cleared (hT : T.Valid) (ha : T.IsLabel a) (hs : ¬ T.SV a (inv a)) {v u : List Int} (hv : T.vertexOf a = .ok v) (hu : T.vertexOf (inv a) = .ok u)
    (hvu : v.length ≤ u.length) {h0 : Enc} (hl : h0.Legal) (ht : h0.target = T) (hk : h0.kind ≠ .encoding) :
    ∃ ms T1 e1 h1, h1.After h0 ms T1 ∧ Off a ms ∧ T1.Glues a e1 (inv a) ∧ T1.zeta = T.zeta ∧ ∀ n, 2 * T.zeta ≤ n → HalfTwist.clear a n h0 = .ok h1 := by
  have hc := hT.comp
  obtain ⟨b, e, hg⟩ := hc.exists_glues ha
  by_cases he : e = inv a
  · subst he
    refine ⟨[], T, b, h0, ht ▸ Enc.After.refl hl hk, (fun m hm => by cases hm), hg, rfl, fun n _ => clear_stop hT hg ht n⟩
  · have sa : T.spin a = inv e := Sweep.spin_eq hc hg
    have sb : T.spin b = inv a := Sweep.spin_eq hc hg.rot
    have base : Base T a b e := by
      refine ⟨hT, hg, ?_, ?_, he⟩
      · rintro rfl
        apply hs
        have h1 := hc.sv_spin ha
        rw [sa] at h1
        have h2 := hc.sv_spin (hc.sv_label ha h1)
        rw [sb] at h2
        exact hc.sv_trans ha h1 h2
      · rintro rfl
        have h1 : ¬ u.length > 1 := by
          rw [hc.valence (isLabel_inv.2 ha) hu, sb]; simp
        have h2 : v.length > 1 := by
          rw [hc.valence ha hv, sa]
          intro k; exact he (inv_eq_iff.1 k)
        omega
    obtain ⟨D, K⟩ := base.swing hs
    obtain ⟨ms, S, F, S', ε, r, p, W⟩ := K.swept
    obtain ⟨h1, k1, k2⟩ := W.cleared K hl ht hk
    refine ⟨_, S', ε, h1, k1, W.off base, W.data.t1.rot.rot, by rw [W.data.zeta, W.slid.zeta], fun n hn => k2 n ?_⟩
    have := K.length
    omega

/-- the half twist, once `a` is surrounded by the edge `e`, as it is built -/
structure HalfData (T : Triangulation) (a e P Q : Int) (S1 : Triangulation) (ε : Int) (D : List Int) (ms : List LMove) (S : Triangulation) (F : Int → Int) (S' : Triangulation)
    (ε2 r : Int) (Ψ G : Int → Int) (m : LMove) (h : Enc) : Prop where
  half : Half T a e P Q S1 ε D ms S F S' ε2 r Ψ
  legal : m.Legal
  back : m.IsIsometryMove S' T G
  gf : ∀ x, T.IsLabel x → G (Ψ x) = x
  fg : ∀ x, S'.IsLabel x → Ψ (G x) = x
  hl : h.Legal
  kind : h.kind = .mappingClass
  source : h.source = T
  target : h.target = T
  path : Path T (flipMove T S1 e :: (ms ++ [flipMove S S' (F Q)])) S'
  off : Off a (flipMove T S1 e :: (ms ++ [flipMove S S' (F Q)]))
  lam : ∀ (R : Type) [CommRing R] [LinearOrder R] [IsStrictOrderedRing R] [Halvable R] (L : Lam R), L.WellFormed → L.tri = T →
    h.applyLam L = (performLam (flipMove T S1 e :: (ms ++ [flipMove S S' (F Q)])) L >>= m.move.applyLam)
  hom : ∀ x : Hom, x.WellFormed → x.tri = T → h.applyHom x = (performHom (flipMove T S1 e :: (ms ++ [flipMove S S' (F Q)])) x >>= m.move.applyHom)
  run : ∃ p h2 i, T.idEncoding = .ok p ∧ HalfTwist.clear (inv a) (2 * T.zeta) p = .ok h2 ∧ m.encode = .ok i ∧ i.mul h2 = .ok h

theorem Valid.rotated (hT : T.Valid) (hg : T.Glues a e (inv a)) :
    ∃ P Q S1 ε D ms S F S' ε2 r Ψ G m h, HalfData T a e P Q S1 ε D ms S F S' ε2 r Ψ G m h ∧ HalfTwist.rotate a T = .ok h := by
  obtain ⟨P, Q, S1, ε, D, ms, S, F, S', ε2, r, Ψ, H⟩ := hT.half hg
  obtain ⟨p, p1, p2, p3, p4, p5, p6, p7⟩ := hT.idEncoding_spec
  have pk : p.kind ≠ .encoding := by rw [p3]; simp
  have la := (hT.comp.label_of_glues hg).1
  have d := H.data.distinct
  have hn : e ≠ inv (inv a) := by rw [inv_inv]; exact d.2.2.2.2.2.1.symm
  obtain ⟨h1, k1, k2⟩ := clear_step hT H.data.s1.rot hn H.flippable H.flipped p2 pk p5
  obtain ⟨h2, j1, j2⟩ := H.swept.cleared H.swing k1.legal k1.target k1.kind
  have hA := k1.trans j1
  have hi := H.iso
  have hS' : S'.Valid := H.swept.flipped.valid
  obtain ⟨g, g1, g2, g3⟩ := hi.exists_inverse hT.comp hS'.comp
  have lS : S'.IsLabel a := by have := hi.maps _ (isLabel_inv.2 la); rwa [H.at_c] at this
  have ga : g a = inv a := by have := g2 _ (isLabel_inv.2 la); rwa [H.at_c] at this
  have hext : S'.ExtendsTo T [(a, inv a)] g := by
    refine ⟨g1, ?_, ?_⟩
    · intro x y hxy
      simp only [List.mem_singleton, Prod.mk.injEq] at hxy
      rw [hxy.1, hxy.2, ga]
    · intro x hx hk
      have hj : ¬ S'.Joined a x := hk a (by simp [PyDict.keys])
      obtain ⟨y, hy, rfl⟩ := hi.surj hx
      have hj' : ¬ T.Joined a y := by
        intro k
        have := hi.joined hT.comp (isLabel_inv.2 la) ((Joined.of_inv (x := a)).symm.trans k)
        rw [H.at_c] at this
        exact hj this
      rw [H.fix y hy hj'] at *
      have := g2 y hy
      rwa [H.fix y hy hj'] at this
  rcases hS'.findIsometry_main hT (d := [(a, inv a)]) (by simp [PyDict.keys]) (by simp [isLabel_inv.2 la, lS]) g1.zeta with ⟨m, f, q1, q2, q3, q4⟩ | ⟨_, q2⟩
  swap
  · exact absurd hext (q2 g)
  have hfg := ExtendsTo.unique hS'.comp hT.comp (by simp [PyDict.keys, lS]) q4 hext
  obtain ⟨i, i1, i2⟩ := q3.isometry_acts q2
  obtain ⟨f', k, f1, f2, f3, f4⟩ := Enc.After.step q3 hA.legal hA.kind (by rw [hA.target, i1]; exact i2.source.symm)
  have hmt : m.move.target = T := by rw [i1]; exact i2.target
  have ks : k.source = T := by rw [f3.source, hA.source, p4]
  refine ⟨P, Q, S1, ε, D, ms, S, F, S', ε2, r, Ψ, f, m, k, ⟨H, q3, q2, ?_, ?_, f3.legal, f4 (by rw [hmt, hA.source, p4]), ks, f3.target.trans hmt, ?_, ?_, ?_, ?_, ⟨p, h2, f', p1, ?_, f1, f2⟩⟩, ?_⟩
  · intro x hx; rw [hfg _ (hi.maps x hx), g2 x hx]
  · intro x hx; rw [hfg x hx, g3 x hx]
  · have := hA.path; rw [p5] at this; exact this
  · refine Off.cons hT H.flippable H.flipped d.2.2.2.2.2.1.symm d.2.1.symm ?_
    have := (H.swept.off H.swing.base).inv'
    rwa [inv_inv] at this
  · intro R _ _ _ _ L hL ht
    rw [f3.lam R L hL, hA.lam R L hL, p6 R L hL ht, py_bind_ok]
    rw [List.singleton_append]
    cases performLam (flipMove T S1 e :: (ms ++ [flipMove S S' (F Q)])) L with
    | error x => rfl
    | ok L' => simp only [py_bind_ok, performLam]; cases m.move.applyLam L' <;> rfl
  · intro x hx ht
    rw [f3.hom x hx, hA.hom x hx, p7 x hx ht, py_bind_ok]
    rw [List.singleton_append]
    cases performHom (flipMove T S1 e :: (ms ++ [flipMove S S' (F Q)])) x with
    | error x => rfl
    | ok L' => simp only [py_bind_ok, performHom]; cases m.move.applyHom L' <;> rfl
  · have hz : S1.zeta = T.zeta := H.data.zeta
    have hlen := H.swing.length
    rw [hz] at hlen
    obtain ⟨n, hn⟩ : ∃ n, 2 * T.zeta = n + 1 := ⟨2 * T.zeta - 1, by omega⟩
    rw [hn, k2, j2 n (by omega)]
  · unfold HalfTwist.rotate
    have hz : S1.zeta = T.zeta := H.data.zeta
    have hlen := H.swing.length
    rw [hz] at hlen
    obtain ⟨n, hn⟩ : ∃ n, 2 * T.zeta = n + 1 := ⟨2 * T.zeta - 1, by omega⟩
    rw [p1, py_bind_ok, hn, k2, j2 n (by omega), py_bind_ok, hA.target, hA.source, p4, q1, py_bind_ok, f1, py_bind_ok, f2]

/-- the whole half twist -/
structure Built (T : Triangulation) (a : Int) (ns : List LMove) (T1 : Triangulation) (e1 : Int) (c h k : Enc) : Prop where
  clegal : c.Legal
  ckind : c.kind ≠ .encoding
  csource : c.source = T
  ctarget : c.target = T1
  cpath : Path T ns T1
  coff : Off a ns
  clam : ∀ (R : Type) [CommRing R] [LinearOrder R] [IsStrictOrderedRing R] [Halvable R] (L : Lam R), L.WellFormed → L.tri = T → c.applyLam L = performLam ns L
  chom : ∀ x : Hom, x.WellFormed → x.tri = T → c.applyHom x = performHom ns x
  glues : T1.Glues a e1 (inv a)
  half : ∃ P Q S1 ε D ms S F S' ε2 r Ψ G m, HalfData T1 a e1 P Q S1 ε D ms S F S' ε2 r Ψ G m h
  conj : k.ConjOf h c
  made : ∃ i x, c.inverse = .ok i ∧ i.mul h = .ok x ∧ x.mul c = .ok k ∧ x.Legal
  run : ∃ p, T.idEncoding = .ok p ∧ HalfTwist.clear a (2 * T.zeta) p = .ok c

theorem Valid.halfTwist (hT : T.Valid) {a0 : Int} (ha : T.IsLabel a0) (hs : ¬ T.SV a0 (inv a0)) :
    ∃ a ns T1 e1 c h k, (a = a0 ∨ a = inv a0) ∧ HalfTwist.build T a0 = .ok k ∧ Built T a ns T1 e1 c h k := by
  have hc := hT.comp
  obtain ⟨v, _, hv, _⟩ := hc.vertexOf_ok ha
  obtain ⟨u, _, hu, _⟩ := hc.vertexOf_ok (isLabel_inv.2 ha)
  obtain ⟨p, p1, p2, p3, p4, p5, p6, p7⟩ := hT.idEncoding_spec
  have pk : p.kind ≠ .encoding := by rw [p3]; simp
  have hor : ∃ a, (a = a0 ∨ a = inv a0) ∧ HalfTwist.orient T a0 = .ok a ∧ T.IsLabel a ∧ ¬ T.SV a (inv a) ∧ ∃ v u, T.vertexOf a = .ok v ∧ T.vertexOf (inv a) = .ok u ∧ v.length ≤ u.length := by
    by_cases h : v.length > u.length
    · refine ⟨inv a0, .inr rfl, ?_, isLabel_inv.2 ha, ?_, u, v, hu, by rw [inv_inv]; exact hv, h.le⟩
      · unfold HalfTwist.orient
        rw [hv, py_bind_ok, hu, py_bind_ok, if_pos h]; rfl
      · rw [inv_inv]
        exact fun k => hs (hc.sv_symm (isLabel_inv.2 ha) k)
    · refine ⟨a0, .inl rfl, ?_, ha, hs, v, u, hv, hu, by omega⟩
      unfold HalfTwist.orient
      rw [hv, py_bind_ok, hu, py_bind_ok, if_neg h]; rfl
  obtain ⟨a, e0, e1, la, hs', v', u', hv', hu', hvu⟩ := hor
  obtain ⟨ns, T1, e1', c, c1, c2, c3, c4, c5⟩ := hT.cleared la hs' hv' hu' hvu p2 p5 pk
  have hT1 : T1.Valid := by have := c1.legal.path.valid_target; rwa [c1.target] at this
  obtain ⟨P, Q, S1, ε, D, ms, S, F, S', ε2, r, Ψ, G, m, h, H, hr⟩ := hT1.rotated c3
  obtain ⟨k, i, x, k1, k2, k3, k4, k5, k6, k7⟩ := H.hl.conjugateBy c1.legal H.kind c1.kind (c1.target.trans H.source.symm)
  refine ⟨a, ns, T1, e1', c, h, k, e0, ?_, c1.legal, c1.kind, c1.source.trans p4, c1.target, ?_, c2, ?_, ?_, c3, ⟨P, Q, S1, ε, D, ms, S, F, S', ε2, r, Ψ, G, m, H⟩, k2,
    ⟨i, x, k3, k5, k6, k7⟩, ⟨p, p1, c5 _ le_rfl⟩⟩
  · unfold HalfTwist.build
    rw [p1, py_bind_ok, e1, py_bind_ok, c5 _ le_rfl, py_bind_ok, c1.target, hr, py_bind_ok, k1]
  · have := c1.path; rwa [p5] at this
  · intro R _ _ _ _ L hL ht
    rw [c1.lam R L hL, p6 R L hL ht]; rfl
  · intro x hx ht
    rw [c1.hom x hx, p7 x hx ht]; rfl

end Triangulation
end Curver
