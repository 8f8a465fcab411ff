import Verif.Proofs.TwistEnc
import Verif.Proofs.Surface
import Verif.Model.HalfTwist

namespace Curver
open Triangulation
namespace Triangulation
variable {T S : Triangulation} {a b e : Int} {X D : List Int}

/-- `X` lists the other edges that leave the tail of `a`, in order -/
structure Orbit (T : Triangulation) (a : Int) (X : List Int) : Prop where
  label : T.IsLabel a
  chain : List.IsChain (fun x y => y = T.spin x) (a :: X)
  nodup : (a :: X).Nodup
  sv : ∀ x ∈ X, T.SV a x
  closes : T.spin ((a :: X).getLast (by simp)) = a

theorem Complete.orbit (hT : T.Complete) (ha : T.IsLabel a) : ∃ X v, Orbit T a X ∧ T.vertexOf a = .ok v ∧ v.Perm (a :: X) := by
  obtain ⟨v, vs, h1, _, _, h4, h5, h6, h7⟩ := hT.vertexOf_ok ha
  obtain ⟨p, q, hpq⟩ := List.append_of_mem h4
  have hperm : v.Perm (a :: (q ++ p)) := by
    rw [hpq, ← List.cons_append]; exact List.perm_append_comm
  have hrot := hpq ▸ h5
  have hch : List.IsChain (fun x y => y = T.spin x) (a :: (q ++ p)) := by
    have hc := hrot.chain
    have h1 := (List.isChain_append.1 hc)
    rw [← List.cons_append, List.isChain_append]
    refine ⟨h1.2.1, h1.1, ?_⟩
    intro c hc1 d hd1
    have hcl := hrot.closes
    have e1 : (p ++ a :: q).getLast hrot.ne = c := by
      rw [List.getLast_append_of_ne_nil _ (by simp)]
      rw [List.getLast?_eq_getLast_of_ne_nil (by simp)] at hc1
      simpa using hc1
    rw [e1] at hcl
    rcases p with _ | ⟨c', p⟩
    · simp at hd1
    · simp only [List.head?_cons, Option.mem_def, Option.some.injEq] at hd1
      simp only [List.cons_append, List.head?_cons, Option.some.injEq] at hcl
      rw [← hd1, hcl]
  refine ⟨q ++ p, v, ⟨ha, hch, hperm.nodup_iff.1 h6, ?_, ?_⟩, h1, hperm⟩
  · intro x hx
    exact ⟨v, h1, hperm.mem_iff.2 (by simp at hx ⊢; tauto)⟩
  · rcases List.eq_nil_or_concat p with rfl | ⟨p', z, rfl⟩
    · have hcl := hrot.closes
      simp only [List.nil_append, List.head?_cons, Option.some.injEq] at hcl
      simpa using hcl.symm
    · have hc := (List.isChain_append.1 hrot.chain).2.2 z (by simp) a (by simp)
      rw [hc]
      congr 1
      simp

/-- the edges that leave the tail of `a`, once the triangle `(a, b, e)` is folded away -/
structure Swing (T : Triangulation) (a b e : Int) (D : List Int) : Prop where
  base : Base T a b e
  left : ∀ d ∈ b :: D, T.Left a e d ∧ T.Left a e (inv d)
  joined : ∀ d ∈ b :: D, T.Joined a d
  chain : List.IsChain (T.Follows b e) (b :: D)
  last : ∃ r p, (b :: D).getLast? = some r ∧ T.Glues (hat b e r) p (inv a)
  length : D.length + 2 ≤ 2 * T.zeta

theorem Base.fold_chain (B : Base T a b e) : ∀ (l : List Int) (x y : Int), List.IsChain (fun x y => y = T.spin x) (x :: l) → (x :: l).getLast? ≠ some e → x ≠ e →
    b ∉ x :: l → T.IsLabel x → (∀ z ∈ l, z ≠ inv e) → ((y = b ∧ x = inv e) ∨ (x ≠ inv e ∧ y = x)) →
    List.IsChain (T.Follows b e) (y :: l.filter (fun z => z ≠ e)) ∧
      ∃ r, (y :: l.filter (fun z => z ≠ e)).getLast? = some r ∧ (x :: l).getLast? = some (hat b e r)
  | [], x, y, _, _, _, hb, _, _, hy => by
    simp only [List.mem_cons, List.not_mem_nil, or_false] at hb
    refine ⟨by simp, y, by simp, ?_⟩
    rcases hy with ⟨rfl, rfl⟩ | ⟨_, rfl⟩
    · rw [Base.hat_b]; rfl
    · rw [Base.hat_of_ne (Ne.symm hb)]; rfl
  | z :: l, x, y, h, hl, hx, hb, hxl, hm, hy => by
    rw [List.isChain_cons_cons] at h
    have hxb : x ≠ b := by rintro rfl; simp at hb
    have hh : hat b e y = x := by
      rcases hy with ⟨rfl, rfl⟩ | ⟨_, rfl⟩
      · exact Base.hat_b
      · exact Base.hat_of_ne hxb
    obtain ⟨p, q, hg⟩ := B.comp.exists_glues hxl
    have hq : q = inv z := by rw [h.1, Sweep.spin_eq B.comp hg, inv_inv]
    have hzl : T.IsLabel z := by rw [h.1]; exact B.comp.isLabel_spin hxl
    have hbz : b ∉ z :: l := fun k => hb (List.mem_cons_of_mem _ k)
    by_cases hz : z = e
    · match l, h, hl, hm, hbz with
      | [], _, hl, _, _ => exact absurd (by simp [hz]) hl
      | w :: l, h, hl, hm, hbz =>
        rw [List.filter_cons_of_neg (by simpa using hz)]
        have h2 := h.2
        rw [List.isChain_cons_cons, hz, Sweep.spin_eq B.comp B.glues.rot.rot] at h2
        have hwe : w ≠ e := by rw [h2.1]; exact fun k => B.bi (inv_eq_iff.1 k)
        have hwi : w ≠ inv e := hm w (by simp)
        have ih := B.fold_chain l w w h2.2 (by simpa using hl) hwe (fun k => hbz (List.mem_cons_of_mem _ k)) (by rw [h2.1]; exact isLabel_inv.2 B.labels.2.1)
          (fun u hu => hm u (by simp [hu])) (.inr ⟨hwi, rfl⟩)
        rw [List.filter_cons_of_pos (by simpa using hwe), List.isChain_cons_cons]
        refine ⟨⟨⟨p, ?_⟩, ih.1⟩, ?_⟩
        · rw [hh, h2.1, inv_inv, Base.hat_b, ← hz, ← hq]; exact hg
        · obtain ⟨r, r1, r2⟩ := ih.2
          exact ⟨r, by rw [List.getLast?_cons_cons]; exact r1, by rw [List.getLast?_cons_cons, List.getLast?_cons_cons]; exact r2⟩
    · have ih := B.fold_chain l z z h.2 (by simpa using hl) hz hbz hzl (fun u hu => hm u (by simp [hu])) (.inr ⟨hm z (by simp), rfl⟩)
      rw [List.filter_cons_of_pos (by simpa using hz), List.isChain_cons_cons]
      refine ⟨⟨⟨p, ?_⟩, ih.1⟩, ?_⟩
      · rw [hh, Base.hat_of_ne, ← hq]
        · exact hg
        · intro k
          rw [← hq] at k
          subst k
          exact hx (B.comp.glues_unique hg.rot.rot B.glues.rot).1
      · obtain ⟨r, r1, r2⟩ := ih.2
        exact ⟨r, by rw [List.getLast?_cons_cons]; exact r1, by rw [List.getLast?_cons_cons]; exact r2⟩

theorem Base.swing (B : Base T a b e) (hs : ¬ T.SV a (inv a)) : ∃ D, Swing T a b e D := by
  have hc := B.comp
  obtain ⟨hla, hlb, hle⟩ := B.labels
  obtain ⟨X, v, hO, _, _⟩ := hc.orbit hla
  have hsp : T.spin a = inv e := Sweep.spin_eq hc B.glues
  have hn := List.nodup_cons.1 hO.nodup
  have hmem : ∀ x ∈ a :: X, T.SV a x := by
    intro x hx
    rcases List.mem_cons.1 hx with rfl | hx
    · exact hc.sv_refl hla
    · exact hO.sv x hx
  have hia : inv a ∉ a :: X := fun h => hs (hmem _ h)
  have hb : b ∉ a :: X := by
    intro h
    have h1 := hmem b h
    have h2 := hc.sv_spin hlb
    rw [Sweep.spin_eq hc B.glues.rot] at h2
    exact hs (hc.sv_trans hla h1 h2)
  cases X with
  | nil =>
    exfalso
    have := hO.closes
    simp only [List.getLast_singleton] at this
    rw [hsp] at this
    exact B.en (inv_eq_iff.1 this)
  | cons x X' =>
    have hch := hO.chain
    rw [List.isChain_cons_cons, hsp] at hch
    obtain ⟨hx, hch⟩ := hch
    subst hx
    have hn2 := List.nodup_cons.1 hn.2
    have hclose := hO.closes
    rw [List.getLast_cons (by simp)] at hclose
    have hlastlabel : T.IsLabel ((inv e :: X').getLast (by simp)) := hc.sv_label hla (hmem _ (List.mem_cons_of_mem _ (List.getLast_mem _)))
    have hlast : (inv e :: X').getLast? ≠ some e := by
      intro k
      rw [List.getLast?_eq_getLast_of_ne_nil (by simp)] at k
      rw [Option.some.inj k, Sweep.spin_eq hc B.glues.rot.rot] at hclose
      exact B.bn (inv_eq_iff.1 hclose)
    have hf := B.fold_chain X' (inv e) b hch hlast (inv_ne e) (fun k => hb (List.mem_cons_of_mem _ k)) (isLabel_inv.2 hle)
      (fun z hz k => hn2.1 (k ▸ hz)) (.inl ⟨rfl, rfl⟩)
    have hin : ∀ d ∈ X'.filter (fun z => z ≠ e), d ∈ a :: inv e :: X' ∧ d ≠ e ∧ d ∈ X' := by
      intro d hd
      rw [List.mem_filter] at hd
      exact ⟨by simp [hd.1], by simpa using hd.2, hd.1⟩
    refine ⟨X'.filter (fun z => z ≠ e), B, ?_, ?_, hf.1, ?_, ?_⟩
    · intro d hd
      rcases List.mem_cons.1 hd with rfl | hd
      · exact ⟨B.left_b, B.left_inv_b⟩
      obtain ⟨k1, k2, k3⟩ := hin d hd
      have h1 : d ≠ inv e := by rintro rfl; exact hn2.1 k3
      have h2 : d ≠ a := by rintro rfl; exact hn.1 (List.mem_cons_of_mem _ k3)
      have h3 : d ≠ inv a := by rintro rfl; exact hia k1
      have hl := hc.sv_label hla (hmem d k1)
      exact ⟨⟨hl, h2, k2, h1⟩, isLabel_inv.2 hl, fun k => h3 (inv_eq_iff.1 k), fun k => h1 (inv_eq_iff.1 k), fun k => k2 (inv_inj.1 k)⟩
    · intro d hd
      rcases List.mem_cons.1 hd with rfl | hd
      · exact (Joined.of_glues B.glues).1
      · exact hc.sv_joined hla (hmem d (hin d hd).1)
    · obtain ⟨p, q, hg⟩ := hc.exists_glues hlastlabel
      rw [Sweep.spin_eq hc hg] at hclose
      obtain ⟨r, r1, r2⟩ := hf.2
      rw [List.getLast?_eq_getLast_of_ne_nil (by simp)] at r2
      rw [Option.some.inj r2, inv_eq_iff.1 hclose] at hg
      exact ⟨r, p, r1, hg⟩
    · have h1 : (a :: inv e :: X').length ≤ 2 * T.zeta := by
        have := (List.subperm_of_subset hO.nodup (l₂ := T.labels) (fun x hx => mem_labels.2 (hc.sv_label hla (hmem x hx)))).length_le
        rwa [length_labels] at this
      have h2 := List.length_filter_le (fun z => decide (z ≠ e)) X'
      simp only [List.length_cons] at h1
      omega

theorem Swing.turns (K : Swing T a b e D) : ∀ (rest : List Int) (d : Int) (S : Triangulation) (F : Int → Int), (∀ x ∈ d :: rest, x ∈ b :: D) →
    List.IsChain (T.Follows b e) (d :: rest) → Slid T S a b e d F → ∃ ms S'' F'', Turns T a b e d rest S F ms S'' F''
  | [], d, S, F, _, _, hs => ⟨_, _, _, .nil d S F hs⟩
  | d' :: rest, d, S, F, hA, hc, hs => by
    have md := hA d (by simp)
    have md' := hA d' (by simp)
    have ld := K.left d md
    have ld' := K.left d' md'
    obtain ⟨p, hg⟩ := (List.isChain_cons_cons.1 hc).1
    have hf := hs.flippable K.base ld.1
    obtain ⟨S', hm, _⟩ := hs.valid.encodeFlip_eq hf
    obtain ⟨F', ε, k1, k2, k3, k4⟩ := hs.turn K.base ld.1 ld.2 ld'.1 ld'.2 hg (K.joined d md) (K.joined d' md') hm
    obtain ⟨ms, S'', F'', hr⟩ := Swing.turns K rest d' S' F' (fun x hx => hA x (List.mem_cons_of_mem _ hx)) (List.isChain_cons_cons.1 hc).2 k1
    exact ⟨_, _, _, .cons d d' p ε rest S S' S'' F F' F'' ms hs ld.1 ld'.2 hg hf hm k2 k3 k4 hr⟩

end Triangulation
end Curver
