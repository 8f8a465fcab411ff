import Verif.Proofs.Spares
import Verif.Proofs.TwistMain

/-!
# A twist keeps the edges that its curve does not meet
-/

namespace Curver
open Triangulation
namespace Triangulation
variable {T S S'' : Triangulation} {a b e d f : Int} {rest X : List Int} {F F'' G : Int → Int} {ms : List LMove} {m : LMove}

theorem hat_ne {b e x f : Int} (h1 : f ≠ inv e) (h2 : f ≠ x) : f ≠ hat b e x := by
  unfold hat; split_ifs
  · exact h1
  · exact h2

/-- edges that are not in the fan stay where they are and are not flipped -/
theorem Turns.spares (B : Base T a b e) (h : Turns T a b e d rest S F ms S'' F'') (hl : T.IsLabel f) (hb : f ≠ b ∧ f ≠ inv b) (he : f ≠ e ∧ f ≠ inv e)
    (hd : f ≠ d ∧ f ≠ inv d) (hr : ∀ x ∈ rest, f ≠ x ∧ f ≠ inv x) (hF : F f = f ∧ F (inv f) = inv f) :
    (F'' f = f ∧ F'' (inv f) = inv f) ∧ ∀ m ∈ ms, m.Spares f := by
  induction h with
  | nil d S F hs => exact ⟨hF, fun m hm => by cases hm⟩
  | cons d d' p ε rest S S' S'' F F' F'' ms hs hld hld' hg hf hm ht g1 g2 hrr ih =>
    have hd' := hr d' (by simp)
    have key : ∀ x, f ≠ inv x → inv f ≠ x := fun x hx k => hx (by rw [← k, inv_inv])
    have key2 : ∀ x, f ≠ x → inv f ≠ inv x := fun x hx k => hx (inv_inj.1 k)
    have h1 : F' f = f := by
      rw [ht.other f hb.1 he.1 (hat_ne he.2 hd.1) (hat_ne he.2 hd'.2)]; exact hF.1
    have h2 : F' (inv f) = inv f := by
      rw [ht.other (inv f) (key _ hb.2) (key _ he.2) (hat_ne (key2 _ he.1) (key _ hd.2)) (hat_ne (key2 _ he.1) (key2 _ hd'.1))]; exact hF.2
    obtain ⟨h3, h4⟩ := ih hd' (fun x hx => hr x (by simp [hx])) ⟨h1, h2⟩
    refine ⟨h3, ?_⟩
    intro m hm'
    rcases List.mem_cons.1 hm' with rfl | hm'
    · refine .flip S S' (F e) hs.valid hf hm ⟨?_, ?_⟩
      · intro k
        refine he.1 (hs.inj _ _ hl B.labels.2.2 ?_)
        rw [hF.1]; exact k
      · intro k
        have : inv f = F e := by rw [k, inv_inv]
        refine key _ he.2 (hs.inj _ _ (isLabel_inv.2 hl) B.labels.2.2 ?_)
        rw [hF.2]; exact this
    · exact h4 m hm'

theorem Turns.flips_spares (h : Turns T a b e d rest S F ms S'' F'') (hs : ∀ m ∈ ms, m.Spares f) : ∀ {h0 h1 : Enc}, h0.target = S → h0.Legal → h0.Spares f →
    Twist.flips a rest.length h0 = .ok h1 → h1.Spares f := by
  induction h with
  | nil d S F hs => intro h0 h1 _ _ h2 h3; cases h3; exact h2
  | cons d d' p ε rest S S' S'' F F' F'' ms hsl _ _ hg hf hm ht g1 g2 hr ih =>
    intro h0 h1 htt hl h2 h3
    obtain ⟨l1, l2⟩ := Turns.legal hsl.valid hf hm
    have hc : S.corner a = .ok ⟨a, F b, F e⟩ := hsl.valid.comp.corner_ok_iff.2 ⟨rfl, g1.rot⟩
    obtain ⟨g, hf1, fl, hf2, hf3, fs, ft⟩ := l2.encoded
    replace fs : g.source = S := fs
    replace ft : g.target = S' := ft
    obtain ⟨k, k1, k2, k3⟩ := C14_composition g h0 fl hl (fs.trans htt.symm)
    rw [List.length_cons, Twist.flips, htt, hc] at h3
    simp only [py_bind_ok, l1, hf1, k1] at h3
    refine ih (fun m hm => hs m (by simp [hm])) (k3.target.trans ft) k2 (Enc.Spares.mul ?_ h2 k1) h3
    exact Enc.encode_spares (hs _ (by simp)) hf1

/-- the edge does not meet the curve -/
theorem Loop.avoids (h : Loop T a b e X) (hf : cn X f = 0) : (f ∉ X ∧ inv f ∉ X) ∧ (f ≠ b ∧ f ≠ inv b) ∧ (f ≠ e ∧ f ≠ inv e) ∧ ∀ x ∈ fold e X, f ≠ x ∧ f ≠ inv x := by
  have h1 : f ∉ X := by
    intro k; have := List.count_pos_iff.2 k; unfold cn at hf; omega
  have h2 : inv f ∉ X := by
    intro k; have := List.count_pos_iff.2 k; unfold cn at hf; omega
  have key : ∀ x ∈ X, f ≠ x ∧ f ≠ inv x := by
    intro x hx
    refine ⟨?_, ?_⟩
    · rintro rfl; exact h1 hx
    · rintro rfl; rw [inv_inv] at h2; exact h2 hx
  have he := key _ h.inv_e_mem
  rw [inv_inv] at he
  refine ⟨⟨h1, h2⟩, key b h.b_mem, ⟨he.2, he.1⟩, ?_⟩
  intro x hx
  exact key x (List.mem_of_mem_tail (List.mem_filter.1 hx).1)

theorem Loop.build_spares (h : Loop T a b e X) {c : Lam Int} (hc : c.tri = T) {n : Int} (hd : c.dualWeight a = .ok n) (hn : c.weight - n = ((fold e X).length : Int))
    (hl : T.IsLabel f) (hf : cn X f = 0) {k : Enc} (hk : Twist.build c a = .ok k) : k.Spares f := by
  obtain ⟨ms, S, F, G, m, hD, hm⟩ := h.exists_data
  obtain ⟨p, p1, p2, p3, p4, p5, p6, p7⟩ := h.valid.idEncoding_spec
  obtain ⟨t, t1, t2, t3, t4, t5, t6, t7⟩ := hD.turns.flips p2 p5 (by rw [p3]; simp)
  obtain ⟨g, f1, f2, f3, f4, f5, f6⟩ := hD.legal.encoded
  unfold Twist.build at hk
  rw [hd, py_bind_ok, hc, p1, py_bind_ok, hn, Int.toNat_natCast, t1, py_bind_ok, t5, t4, p4, hm, py_bind_ok, f1, py_bind_ok] at hk
  obtain ⟨-, q1, q2, q3⟩ := h.avoids hf
  obtain ⟨s1, s2⟩ := hD.turns.spares h.fan.base hl q1 q2 q1 q3 ⟨rfl, rfl⟩
  refine Enc.Spares.mul (Enc.encode_spares ?_ f1) (hD.turns.flips_spares s2 p5 p2 (Enc.id_spares h.valid hl p1) t1) hk
  refine hD.legal.spares_isometry hD.back ?_ ?_
  · have := hD.iso.maps f hl; rwa [s1.1] at this
  · have := hD.gf f hl; rwa [s1.1] at this

end Triangulation

namespace Twist
variable {P : Lam Int → Py LamClass} {t : Twist} {a b e f : Int} {X v : List Int} {K : Lam Int}

theorem Made.spares (h : Made P t a b e X v K) (hl : t.curve.tri.IsLabel f) (hf : t.curve.w f = 0) : t.encoding.Spares f := by
  obtain ⟨n, n1, n2⟩ := h.short.loop.numFlips rfl h.short.cut
  refine h.short.loop.build_spares rfl n1 n2 hl ?_ h.isBuilt
  rw [← h.short.w hl]; exact hf

/-- the mapping class of the twist -/
theorem Made.mapping (h : Made P t a b e X v K) {g : Enc} (hg : t.flipMapping = .ok g) :
    g.Legal ∧ g.source = t.curve.tri ∧ g.target = t.curve.tri ∧ g.kind = .mappingClass ∧ ∀ f, t.curve.tri.IsLabel f → t.curve.w f = 0 → g.Spares f := by
  obtain ⟨ms, S, F, G, m, hD, hk⟩ := h.built
  obtain ⟨p, p1, p2, p3, p4, p5, -⟩ := Enc.pow_eq hk.legal hk.kind t.power
  unfold Twist.flipMapping at hg
  cases p1.symm.trans hg
  refine ⟨p2, p4.trans hk.source, p5.trans hk.source, p3, ?_⟩
  intro f hl hf
  exact Enc.Spares.pow (by rw [hk.source]; exact h.short.wf.1) (by rw [hk.source]; exact hl) (h.spares hl hf) hg

end Twist
end Curver
