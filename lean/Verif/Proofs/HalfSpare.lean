import Verif.Proofs.Spares
import Verif.Proofs.VertexMap

/-!
# Half twists keep the edges that do not end where their arc ends
-/

namespace Curver
open Triangulation
namespace Triangulation
variable {T S S'' : Triangulation} {a b e d x : Int} {rest : List Int} {F F'' : Int → Int} {ms : List LMove}

/-- the edges that do not end at the tail of `a` keep their labels -/
theorem Turns.keeps (B : Base T a b e) (h : Turns T a b e d rest S F ms S'' F'') (h1 : ¬ T.SV a x) (h2 : ¬ T.SV a (inv x)) (hb : x ≠ b) (hd : T.SV a (hat b e d)) (hF : F x = x) : F'' x = x := by
  have hc := B.comp
  obtain ⟨la, lb, le⟩ := B.labels
  have sa : T.SV a (inv e) := hc.sv_glues (by rw [inv_inv]; exact B.glues)
  induction h with
  | nil d S F hs => exact hF
  | cons d d' p ε rest S S' S'' F F' F'' ms hs _ _ hg hf hm ht g1 g2 hr ih =>
    have s1 : T.SV a (inv (hat b e (inv d'))) := hc.sv_trans la hd (hc.sv_glues (by rw [inv_inv]; exact hg))
    refine ih ?_ ?_
    · by_cases q : inv d' = b
      · rw [q, Base.hat_b, inv_inv] at s1
        have : d' = inv b := by rw [← q, inv_inv]
        rw [this, Base.hat_of_ne (inv_ne b)]
        exact hc.sv_trans la s1 (hc.sv_glues (by rw [inv_inv]; exact B.glues.rot.rot))
      · rw [Base.hat_of_ne q, inv_inv] at s1
        unfold hat
        split_ifs
        · exact sa
        · exact s1
    · rw [ht.other x hb ?_ ?_ ?_, hF]
      · rintro rfl; exact h2 sa
      · rintro rfl; exact h1 hd
      · rintro rfl; exact h2 s1

/-- the relabelling at the end of the half twist -/
theorem Half.keeps {P Q S1 ε D S' ε2 r Ψ} (hT : T.Valid) (hg : T.Glues a e (inv a)) (H : Half T a e P Q S1 ε D ms S F S' ε2 r Ψ) (hx : T.IsLabel x) (h1 : ¬ T.SV (inv a) x)
    (h2 : ¬ T.SV (inv a) (inv x)) : Ψ x = x := by
  have hc := hT.comp
  have la := (hc.label_of_glues hg).1
  have K := H.data
  have lia := isLabel_inv.2 la
  have le := (hc.label_of_glues hg).2.1
  have se : T.SV (inv a) e := hc.sv_symm le (hc.sv_glues (by rw [inv_inv]; exact hg.rot))
  have sie : T.SV (inv a) (inv e) := hc.sv_glues (by rw [inv_inv]; exact hg.rot.rot)
  have sQ : T.SV (inv a) (inv Q) := hc.sv_trans lia sie (hc.sv_glues (by rw [inv_inv]; exact K.s2))
  have lP := (hc.label_of_glues K.s2).2.1
  have sP : T.SV (inv a) P := hc.sv_trans lia se (hc.sv_symm lP (hc.sv_glues (by have := K.s2.rot; exact this)))
  have n1 : x ≠ e := by rintro rfl; exact h1 se
  have n2 : x ≠ inv e := by rintro rfl; exact h1 sie
  have n3 : x ≠ P := by rintro rfl; exact h1 sP
  have n4 : x ≠ Q := by rintro rfl; exact h2 sQ
  have n5 : x ≠ inv a := by rintro rfl; exact h1 (hc.sv_refl lia)
  have n6 : x ≠ a := by rintro rfl; exact h2 (hc.sv_refl lia)
  rw [H.other x n5 n6 n1 n2 n3 n4]
  have hd := disjoint_singleton.2 H.flippable
  have out : ∀ {y : Int}, y ≠ e → y ≠ inv e → y ∉ sides [e] := by
    intro y q1 q2 q
    simp [sides] at q
    tauto
  have ne := K.distinct
  have nia : inv a ≠ e ∧ inv a ≠ inv e := by
    have := hc.glues_ne hg
    exact ⟨fun k => this.2.1 k.symm, fun k => this.1 (inv_inj.1 k)⟩
  have sv := fun y hy => IsMultiflip.sv_iff [e] T S1 hT hd H.flipped (inv a) y lia (out nia.1 nia.2) hy
  have B := H.swing.base
  have hc1 := B.comp
  refine H.swept.turns.keeps B (fun k => h1 ((sv x (out n1 n2)).2 k)) (fun k => h2 ((sv (inv x) (out ?_ ?_)).2 k)) ?_ ?_ rfl
  · intro k; exact n2 (inv_eq_iff.1 k)
  · intro k; exact n1 (inv_inj.1 k)
  · rcases K.eps with q | q <;> rw [q] <;> assumption
  · rw [Base.hat_b]
    exact hc1.sv_glues (by rw [inv_inv]; exact B.glues)

end Triangulation

namespace HalfTwist
variable {T : Triangulation} {a b : Int}

/-- `b` does not end where `a` starts -/
def Clear (T : Triangulation) (a b : Int) : Prop := ¬ T.SV a b ∧ ¬ T.SV a (inv b)

theorem clear_spares : ∀ {n : Nat} {h h' : Enc}, clear a n h = .ok h' → h.Legal → h.kind ≠ .encoding → h.target.IsLabel a → h.target.IsLabel b → h.Spares b → Clear h.target a b →
    h'.Legal ∧ h'.kind ≠ .encoding ∧ h'.Spares b ∧ h'.source = h.source ∧ h'.target.zeta = h.target.zeta ∧ (Clear h.target (inv a) b → Clear h'.target (inv a) b) := by
  intro n
  induction n with
  | zero =>
    intro h h' hr hl hk la lb hs hc
    rw [clear.eq_def, py_bind_eq_ok] at hr
    obtain ⟨v, hv, hr⟩ := hr
    split_ifs at hr with q
    · injection hr with hr
      subst hr
      exact ⟨hl, hk, hs, rfl, rfl, id⟩
  | succ n ih =>
    intro h h' hr hl hk la lb hs hc
    rw [clear.eq_def, py_bind_eq_ok] at hr
    obtain ⟨v, hv, hr⟩ := hr
    have hT := hl.path.valid_target
    have hcc := hT.comp
    split_ifs at hr with q
    swap
    · injection hr with hr
      subst hr
      exact ⟨hl, hk, hs, rfl, rfl, id⟩
    dsimp only at hr
    obtain ⟨c, hc', hr1⟩ := py_bind_eq_ok.1 hr
    obtain ⟨m, hm, hr2⟩ := py_bind_eq_ok.1 hr1
    obtain ⟨f, hf, hr3⟩ := py_bind_eq_ok.1 hr2
    obtain ⟨g, hg, hr4⟩ := py_bind_eq_ok.1 hr3
    obtain ⟨T', f1, f2, f3⟩ := hT.encodeFlip_ok_iff.1 hm
    have hfm : m = flipMove h.target T' c.z := f3
    obtain ⟨y, z, gl⟩ := hcc.exists_glues la
    have : c = ⟨a, y, z⟩ := by
      have : h.target.corner a = .ok ⟨a, y, z⟩ := hcc.corner_ok_iff.2 ⟨rfl, gl⟩
      rw [hc'] at this
      injection this
    subst this
    dsimp only at f1 f2 hfm
    have sz : h.target.SV a (inv z) := hcc.sv_glues (by rw [Curver.inv_inv]; exact gl)
    have nb : b ≠ z ∧ b ≠ inv z := ⟨by rintro rfl; exact hc.2 sz, by rintro rfl; exact hc.1 sz⟩
    have hms : m.Spares b := by rw [hfm]; exact .flip _ _ _ hT f1 f2 nb
    have ml : m.Legal := by rw [hfm]; exact (Turns.legal hT f1 f2).2
    obtain ⟨f', g', e1, e2, e3, -⟩ := Enc.After.step ml hl hk (by rw [hfm]; rfl)
    rw [hf] at e1; cases e1
    rw [hg] at e2; cases e2
    have ht : g.target = T' := by rw [e3.target, hfm]; rfl
    have nz : z ≠ inv a := by
      have h2 := hcc.valence la hv
      have h3 := Sweep.spin_eq hcc gl
      intro k
      rw [h3, k, Curver.inv_inv] at h2
      exact h2.1 q rfl
    have na := hcc.glues_ne gl
    have hd := disjoint_singleton.2 f1
    have out : ∀ {y : Int}, y ≠ z → y ≠ inv z → y ∉ sides [z] := by
      intro y q1 q2 q
      simp [sides] at q
      tauto
    have oa : a ∉ sides [z] := out na.2.2.symm (fun k => nz (by rw [k, Curver.inv_inv]))
    have oia : inv a ∉ sides [z] := out (Ne.symm nz) (fun k => na.2.2.symm (inv_inj.1 k))
    have ob : b ∉ sides [z] := out nb.1 nb.2
    have oib : inv b ∉ sides [z] := out (fun k => nb.2 (inv_eq_iff.1 k)) (fun k => nb.1 (inv_inj.1 k))
    have lz : T'.zeta = h.target.zeta := f2.zeta
    have lab : ∀ x, g.target.IsLabel x ↔ h.target.IsLabel x := fun x => by rw [ht]; unfold IsLabel; rw [lz]
    have sv := fun x y lx hx hy => IsMultiflip.sv_iff [z] _ _ hT hd f2 x y lx hx hy
    have cl : ∀ x, h.target.IsLabel x → x ∉ sides [z] → (Clear g.target x b ↔ Clear h.target x b) := by
      intro x lx hx
      unfold Clear
      rw [ht, sv x b lx hx ob, sv x (inv b) lx hx oib]
    obtain ⟨r1, r0, r2, r3, r4, r5⟩ := ih hr4 e3.legal e3.kind ((lab a).2 la) ((lab b).2 lb) ((Enc.encode_spares hms hf).mul hs hg) ((cl a la oa).2 hc)
    exact ⟨r1, r0, r2, r3.trans e3.source, by rw [r4, ht, lz], fun k => r5 ((cl _ (isLabel_inv.2 la) oia).2 k)⟩

end HalfTwist

namespace Triangulation

/-- the half twist keeps the edges that end elsewhere -/
theorem Built.spares {T T1 : Triangulation} {a b e1 : Int} {ns : List LMove} {c h k : Enc} (B : Built T a ns T1 e1 c h k) (hT : T.Valid) (la : T.IsLabel a) (lb : T.IsLabel b)
    (h1 : HalfTwist.Clear T a b) (h2 : HalfTwist.Clear T (inv a) b) : k.Spares b := by
  obtain ⟨p, p1, p2⟩ := B.run
  obtain ⟨p', q1, q2, q3, q4, q5, -, -⟩ := hT.idEncoding_spec
  rw [p1] at q1; cases q1
  obtain ⟨r1, r0, r2, r3, r4, r5⟩ := HalfTwist.clear_spares (b := b) p2 q2 (by rw [q3]; simp) (by rw [q5]; exact la) (by rw [q5]; exact lb) (Enc.id_spares hT lb p1) (by rw [q5]; exact h1)
  rw [q5] at r4 r5
  rw [B.ctarget] at r4 r5
  have h3 := r5 h2
  have hT1 : T1.Valid := by have := r1.path.valid_target; rwa [B.ctarget] at this
  have lab : ∀ x, T1.IsLabel x ↔ T.IsLabel x := fun x => by unfold IsLabel; rw [r4]
  have la1 := (lab a).2 la
  have lb1 := (lab b).2 lb
  obtain ⟨P, Q, S1, ε, D, ms, S, F, S', ε2, r, Ψ, G, m, H⟩ := B.half
  obtain ⟨t, t2, i, t3, t4, t5, t6⟩ := H.run
  obtain ⟨t', u1, u2, u3, u4, u5, -, -⟩ := hT1.idEncoding_spec
  rw [t3] at u1; cases u1
  obtain ⟨s1, s0, s2, s3, s4, -⟩ := HalfTwist.clear_spares (b := b) t4 u2 (by rw [u3]; simp) (by rw [u5]; exact isLabel_inv.2 la1) (by rw [u5]; exact lb1) (Enc.id_spares hT1 lb1 t3) (by rw [u5]; exact h3)
  have hΨ := H.half.keeps hT1 B.glues lb1 h3.1 h3.2
  have hG : G b = b := by have := H.gf b lb1; rwa [hΨ] at this
  have lS : S'.IsLabel b := by have := H.half.iso.maps b lb1; rwa [hΨ] at this
  have hm := H.legal.spares_isometry H.back lS hG
  have hh : h.Spares b := (Enc.encode_spares hm t5).mul s2 t6
  obtain ⟨j, x, j1, j2, j3, -⟩ := B.made
  exact ((r2.inverse j1).mul hh j2).mul r2 j3

end Triangulation
end Curver
