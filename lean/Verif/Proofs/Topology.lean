import Verif.Proofs.IsometriesTo
import Verif.Proofs.Legal

namespace Curver
open Triangulation
namespace Triangulation
variable {S T : Triangulation}

/-- the same tail -/
def SV (T : Triangulation) (x y : Int) : Prop := ∃ v, T.vertexOf x = .ok v ∧ y ∈ v

namespace Complete
variable (hT : T.Complete)
include hT

theorem sv_label {x y : Int} (hx : T.IsLabel x) (h : T.SV x y) : T.IsLabel y := by
  obtain ⟨v, h1, h2⟩ := h
  obtain ⟨w, _, k1, _, _, _, _, _, k7⟩ := hT.vertexOf_ok hx
  rw [h1] at k1; cases k1
  exact k7 y h2

theorem sv_refl {x : Int} (hx : T.IsLabel x) : T.SV x x := by
  obtain ⟨w, _, k1, _, _, k4, _⟩ := hT.vertexOf_ok hx
  exact ⟨w, k1, k4⟩

theorem sv_symm {x y : Int} (hx : T.IsLabel x) (h : T.SV x y) : T.SV y x := by
  obtain ⟨v, h1, h2⟩ := h
  obtain ⟨w, _, k1, _, _, k4, _⟩ := hT.vertexOf_ok hx
  rw [h1] at k1; cases k1
  exact ⟨v, hT.vertexOf_unique hx h1 h2, k4⟩

theorem sv_trans {x y z : Int} (hx : T.IsLabel x) (h : T.SV x y) (h' : T.SV y z) : T.SV x z := by
  obtain ⟨v, h1, h2⟩ := h
  obtain ⟨w, k1, k2⟩ := h'
  rw [hT.vertexOf_unique hx h1 h2] at k1; cases k1
  exact ⟨v, h1, k2⟩

theorem sv_spin {x : Int} (hx : T.IsLabel x) : T.SV x (T.spin x) := by
  obtain ⟨w, _, k1, _, _, k4, k5, _⟩ := hT.vertexOf_ok hx
  exact ⟨w, k1, k5.spin_mem k4⟩

theorem sv_glues {x b y : Int} (h : T.Glues x b (inv y)) : T.SV x y := by
  have hx := (hT.label_of_glues h).1
  have := hT.sv_spin hx
  have h2 := (hT.glues_iff hx).1 h
  unfold spin at this
  rwa [← h2.2, inv_inv] at this

theorem sv_induct {x y : Int} (hx : T.IsLabel x) (h : T.SV x y) (P : Int → Prop) (h0 : P x) (hs : ∀ z, T.IsLabel z → P z → P (T.spin z)) : P y := by
  obtain ⟨v, h1, h2⟩ := h
  obtain ⟨w, _, k1, _, _, k4, k5, _, k7⟩ := hT.vertexOf_ok hx
  rw [h1] at k1; cases k1
  exact k5.induct k4 h0 (fun z hz => hs z (k7 z hz)) y h2

end Complete

/-- the two triangles before and after a flip -/
structure FlipData (S T : Triangulation) (e ε a b c d : Int) : Prop where
  hS : S.Complete
  hT : T.Complete
  zeta : T.zeta = S.zeta
  eps : ε = e ∨ ε = inv e
  s1 : S.Glues e a b
  s2 : S.Glues (inv e) c d
  t1 : T.Glues ε d a
  t2 : T.Glues (inv ε) b c
  ne : ∀ x ∈ [a, b, c, d], x ≠ e ∧ x ≠ inv e
  kept : ∀ x y z, S.Glues x y z → (∀ u ∈ [x, y, z], u ≠ e ∧ u ≠ inv e) → T.Glues x y z

theorem Flippable.flipData (hS : S.Valid) {e : Int} (he : S.Flippable e) (h : S.IsMultiflip [e] T) : ∃ ε a b c d, FlipData S T e ε a b c d := by
  have hc := hS.comp
  have g1 := hc.glues_nxt he.1
  have g2 := hc.glues_nxt (isLabel_inv.2 he.1)
  have hn := h.new e (by simp) _ _ _ _ g1 g2
  have hne : ∀ x ∈ [S.nxt e, S.nxt (S.nxt e), S.nxt (inv e), S.nxt (S.nxt (inv e))], x ≠ e ∧ x ≠ inv e := by
    have n1 := hc.glues_ne g1
    have n2 := hc.glues_ne g2
    have hf := he.2
    rw [hc.sameTriangle_iff he.1] at hf
    have hf2 : ¬ S.SameTriangle (inv e) e := by
      rintro ⟨t, ht, h1, h2⟩; exact he.2 ⟨t, ht, h2, h1⟩
    rw [hc.sameTriangle_iff (isLabel_inv.2 he.1)] at hf2
    push Not at hf hf2
    intro x hx
    simp only [List.mem_cons, List.not_mem_nil, or_false] at hx
    rcases hx with rfl | rfl | rfl | rfl
    · exact ⟨n1.1.symm, hf.2.1.symm⟩
    · exact ⟨n1.2.2, hf.2.2.symm⟩
    · exact ⟨hf2.2.1.symm, n2.1.symm⟩
    · exact ⟨hf2.2.2.symm, n2.2.2⟩
  rcases lt_or_ge e 0 with h0 | h0
  · exact ⟨inv e, _, _, _, _, hc, h.valid.comp, h.zeta, .inr rfl, g1, g2, (hn.2 h0).1, by rw [inv_inv]; exact (hn.2 h0).2, hne,
      fun x y z hg hu => h.kept x y z hg (by simpa using hu)⟩
  · exact ⟨e, _, _, _, _, hc, h.valid.comp, h.zeta, .inl rfl, g1, g2, (hn.1 h0).1, (hn.1 h0).2, hne,
      fun x y z hg hu => h.kept x y z hg (by simpa using hu)⟩

namespace FlipData
variable {e ε a b c d : Int}

theorem isLabel_iff (D : FlipData S T e ε a b c d) {x : Int} : T.IsLabel x ↔ S.IsLabel x := by
  unfold IsLabel; rw [D.zeta]

/-- a side of neither flipped triangle -/
theorem far (D : FlipData S T e ε a b c d) {x y z : Int} (h : S.Glues x y z) (hx : x ∉ [e, inv e, a, b, c, d]) : T.Glues x y z := by
  have := D.hS
  refine D.kept x y z h ?_
  have key : ∀ {x y z}, S.Glues x y z → (x = e → y = a ∧ z = b) ∧ (x = inv e → y = c ∧ z = d) := by
    intro x y z h
    refine ⟨?_, ?_⟩
    · rintro rfl; exact D.hS.glues_unique h D.s1
    · rintro rfl; exact D.hS.glues_unique h D.s2
  have k1 := key h
  have k2 := key h.rot
  have k3 := key h.rot.rot
  simp only [List.mem_cons, List.not_mem_nil, or_false, not_or] at hx
  intro u hu
  simp only [List.mem_cons, List.not_mem_nil, or_false] at hu
  rcases hu with rfl | rfl | rfl
  · exact ⟨hx.1, hx.2.1⟩
  · exact ⟨fun h => hx.2.2.2.1 (k2.1 h).2, fun h => hx.2.2.2.2.2 (k2.2 h).2⟩
  · exact ⟨fun h => hx.2.2.1 (k3.1 h).1, fun h => hx.2.2.2.2.1 (k3.2 h).1⟩

theorem symm (D : FlipData S T e ε a b c d) : FlipData T S ε (inv e) d a b c where
  hS := D.hT
  hT := D.hS
  zeta := D.zeta.symm
  eps := by rcases D.eps with h | h <;> simp [h, inv_inv]
  s1 := D.t1
  s2 := D.t2
  t1 := D.s2
  t2 := by rw [inv_inv]; exact D.s1
  ne := by
    intro x hx
    have := D.ne x (by simp only [List.mem_cons, List.not_mem_nil, or_false] at hx ⊢; tauto)
    rcases D.eps with h | h
    · rw [h]; exact this
    · rw [h, inv_inv]; exact this.symm
  kept := by
    intro x y z h hu
    have hx := D.isLabel_iff.1 (D.hT.label_of_glues h).1
    obtain ⟨y', z', h'⟩ := D.hS.exists_glues hx
    have hu' : ∀ u ∈ [x, y, z], u ≠ e ∧ u ≠ inv e := by
      intro u hu1
      have := hu u hu1
      rcases D.eps with h | h
      · rw [h] at this; exact this
      · rw [h, inv_inv] at this; exact this.symm
    have hε : ∀ u ∈ [x, y, z], u ≠ ε ∧ u ≠ inv ε := hu
    by_cases hx6 : x ∈ [e, inv e, a, b, c, d]
    · simp only [List.mem_cons, List.not_mem_nil, or_false] at hx6
      rcases hx6 with rfl | rfl | rfl | rfl | rfl | rfl
      · exact absurd rfl (hu' x (by simp)).1
      · exact absurd rfl (hu' _ (by simp)).2
      · have := (D.hT.glues_unique h D.t1.rot.rot).1
        exact absurd this (hε y (by simp)).1
      · have := (D.hT.glues_unique h D.t2.rot).2
        exact absurd this (hε z (by simp)).2
      · have := (D.hT.glues_unique h D.t2.rot.rot).1
        exact absurd this (hε y (by simp)).2
      · have := (D.hT.glues_unique h D.t1.rot).2
        exact absurd this (hε z (by simp)).1
    · have h2 := D.far h' hx6
      have := D.hT.glues_unique h h2
      rw [this.1, this.2]; exact h'

theorem joined (D : FlipData S T e ε a b c d) {x y : Int} (h : S.Joined x y) : T.Joined x y := by
  induction h with
  | refl => exact .refl
  | @tail x y _ h ih =>
    refine ih.trans ?_
    rcases h with rfl | ⟨z, h⟩
    · exact T.joined_inv x
    · have j0 : ∀ u ∈ [e, inv e, a, b, c, d], T.Joined ε u := by
        have j1 : T.Joined ε e := by
          rcases D.eps with h | h
          · rw [h]; exact .refl
          · have := T.joined_inv (inv e); rw [inv_inv] at this; rw [h]; exact this
        have j2 := T.joined_inv e
        have j3 : T.Joined ε d := joined_of_glues D.t1
        have j4 : T.Joined d a := joined_of_glues D.t1.rot
        have j5 := T.joined_inv ε
        have j6 : T.Joined (inv ε) b := joined_of_glues D.t2
        have j7 : T.Joined b c := joined_of_glues D.t2.rot
        intro u hu
        simp only [List.mem_cons, List.not_mem_nil, or_false] at hu
        rcases hu with rfl | rfl | rfl | rfl | rfl | rfl
        · exact j1
        · exact j1.trans j2
        · exact j3.trans j4
        · exact j5.trans j6
        · exact (j5.trans j6).trans j7
        · exact j3
      by_cases hx6 : x ∈ [e, inv e, a, b, c, d]
      · refine (j0 x hx6).symm.trans (j0 y ?_)
        simp only [List.mem_cons, List.not_mem_nil, or_false] at hx6 ⊢
        rcases hx6 with rfl | rfl | rfl | rfl | rfl | rfl
        · have := (D.hS.glues_unique h D.s1).1; tauto
        · have := (D.hS.glues_unique h D.s2).1; tauto
        · have := (D.hS.glues_unique h D.s1.rot).1; tauto
        · have := (D.hS.glues_unique h D.s1.rot.rot).1; tauto
        · have := (D.hS.glues_unique h D.s2.rot).1; tauto
        · have := (D.hS.glues_unique h D.s2.rot.rot).1; tauto
      · exact joined_of_glues (D.far h hx6)

theorem joined_iff (D : FlipData S T e ε a b c d) {x y : Int} : T.Joined x y ↔ S.Joined x y := ⟨D.symm.joined, D.joined⟩

theorem inv_ne_pair {x : Int} (h : x ≠ e ∧ x ≠ inv e) : inv x ≠ e ∧ inv x ≠ inv e :=
  ⟨fun h' => h.2 (by rw [← h', inv_inv]), fun h' => h.1 (by have := congrArg inv h'; rwa [inv_inv, inv_inv] at this)⟩

/-- move off the flipped edge without changing the tail -/
def off (e a c x : Int) : Int := if x = e then c else if x = inv e then a else x

theorem off_eq {x : Int} (h : x ≠ e ∧ x ≠ inv e) : off e a c x = x := by
  unfold off; rw [if_neg h.1, if_neg h.2]

theorem off_spin (D : FlipData S T e ε a b c d) {x : Int} (hx : S.IsLabel x) : T.SV (off e a c x) (off e a c (S.spin x)) := by
  have na := D.ne a (by simp)
  have nb := D.ne b (by simp)
  have nc := D.ne c (by simp)
  have nd := D.ne d (by simp)
  have spin_eq : ∀ {x y z}, S.Glues x y z → S.spin x = inv z := by
    intro x y z h
    have := ((D.hS.glues_iff (D.hS.label_of_glues h).1).1 h).2
    unfold spin; rw [← this]
  have tv : ∀ {x y z}, T.Glues x y z → T.SV x (inv z) := by
    intro x y z h
    exact D.hT.sv_glues (by rw [inv_inv]; exact h)
  have hlab : ∀ {x y z}, T.Glues x y z → T.IsLabel x := fun h => (D.hT.label_of_glues h).1
  have oe : off e a c e = c := by unfold off; rw [if_pos rfl]
  have oie : off e a c (inv e) = a := by unfold off; rw [if_neg (inv_ne e), if_pos rfl]
  by_cases hx6 : x ∈ [e, inv e, a, b, c, d]
  · simp only [List.mem_cons, List.not_mem_nil, or_false] at hx6
    rcases hx6 with rfl | rfl | rfl | rfl | rfl | rfl
    · rw [spin_eq D.s1, oe, off_eq (inv_ne_pair nb)]; exact tv D.t2.rot.rot
    · rw [spin_eq D.s2, oie, off_eq (inv_ne_pair nd)]; exact tv D.t1.rot.rot
    · rw [spin_eq D.s1.rot, oie, off_eq na]; exact D.hT.sv_refl (hlab D.t1.rot.rot)
    · rw [spin_eq D.s1.rot.rot, off_eq nb, off_eq (inv_ne_pair na)]
      have := tv D.t2.rot
      rw [inv_inv] at this
      exact D.hT.sv_trans (hlab D.t2.rot) this (tv D.t1)
    · rw [spin_eq D.s2.rot, off_eq nc, inv_inv, oe]; exact D.hT.sv_refl (hlab D.t2.rot.rot)
    · rw [spin_eq D.s2.rot.rot, off_eq nd, off_eq (inv_ne_pair nc)]
      exact D.hT.sv_trans (hlab D.t1.rot) (tv D.t1.rot) (tv D.t2)
  · obtain ⟨y, z, h⟩ := D.hS.exists_glues hx
    have h' := D.far h hx6
    have hx' : x ≠ e ∧ x ≠ inv e := by
      simp only [List.mem_cons, List.not_mem_nil, or_false, not_or] at hx6; exact ⟨hx6.1, hx6.2.1⟩
    have hz : z ≠ e ∧ z ≠ inv e := by
      simp only [List.mem_cons, List.not_mem_nil, or_false, not_or] at hx6
      refine ⟨?_, ?_⟩
      · rintro rfl; exact hx6.2.2.1 (D.hS.glues_unique h.rot.rot D.s1).1
      · rintro rfl; exact hx6.2.2.2.2.1 (D.hS.glues_unique h.rot.rot D.s2).1
    rw [spin_eq h, off_eq hx', off_eq (inv_ne_pair hz)]
    exact tv h'

theorem off_label (D : FlipData S T e ε a b c d) {x : Int} (hx : S.IsLabel x) : T.IsLabel (off e a c x) := by
  rw [D.isLabel_iff]
  unfold off
  split
  · exact (D.hS.label_of_glues D.s2).2.1
  · split
    · exact (D.hS.label_of_glues D.s1).2.1
    · exact hx

theorem off_sv (D : FlipData S T e ε a b c d) {x y : Int} (hx : S.IsLabel x) (h : S.SV x y) : T.SV (off e a c x) (off e a c y) :=
  D.hS.sv_induct hx h (fun y => T.SV (off e a c x) (off e a c y)) (D.hT.sv_refl (D.off_label hx))
    (fun _ hz hP => D.hT.sv_trans (D.off_label hx) hP (D.off_spin hz))

theorem sv (D : FlipData S T e ε a b c d) {x y : Int} (hx : S.IsLabel x) (nx : x ≠ e ∧ x ≠ inv e) (ny : y ≠ e ∧ y ≠ inv e) :
    T.SV x y ↔ S.SV x y := by
  have key : ∀ {S T : Triangulation} {e ε a b c d x y : Int}, FlipData S T e ε a b c d → S.IsLabel x → x ≠ e ∧ x ≠ inv e → y ≠ e ∧ y ≠ inv e →
      S.SV x y → T.SV x y := by
    intro S T e ε a b c d x y D hx nx ny h
    have := D.off_sv hx h
    rwa [off_eq nx, off_eq ny] at this
  refine ⟨fun h => ?_, key D hx nx ny⟩
  have tr : ∀ {x}, x ≠ e ∧ x ≠ inv e → x ≠ ε ∧ x ≠ inv ε := by
    intro x h
    rcases D.eps with h' | h'
    · rw [h']; exact h
    · rw [h', inv_inv]; exact h.symm
  exact key D.symm (D.isLabel_iff.2 hx) (tr nx) (tr ny) h

theorem surface_perm (D : FlipData S T e ε a b c d) {vs ws cs ds : List (List Int)}
    (hvs : S.vertices = .ok vs) (hws : T.vertices = .ok ws) (hcs : S.components = .ok cs) (hds : T.components = .ok ds) :
    (cs.map (fun c => (nv vs c, c.length))).Perm (ds.map (fun d => (nv ws d, d.length))) := by
  have hS := D.hS
  have hT := D.hT
  obtain ⟨a1, a2, a3, a4, a5⟩ := hS.components_mem hcs
  obtain ⟨b1, b2, b3, b4, b5⟩ := hT.components_mem hds
  obtain ⟨c1, c2, c3, c4⟩ := hS.vertices_mem hvs
  obtain ⟨d1, d2, d3, d4⟩ := hT.vertices_mem hws
  refine perm_of_rel a1 b1 (fun c d => ∃ x ∈ c, x ∈ d) ?_ ?_ ?_ ?_ _ _ ?_
  · intro c hc
    obtain ⟨x, hx⟩ := List.exists_mem_of_ne_nil _ (a3 c hc).1
    obtain ⟨d, hd, hxd⟩ := b2 x (D.isLabel_iff.2 ((a3 c hc).2.2 x hx))
    exact ⟨d, hd, x, hx, hxd⟩
  · intro d hd
    obtain ⟨y, hy⟩ := List.exists_mem_of_ne_nil _ (b3 d hd).1
    obtain ⟨c, hc, hxc⟩ := a2 y (D.isLabel_iff.1 ((b3 d hd).2.2 y hy))
    exact ⟨c, hc, y, hxc, hy⟩
  · rintro c hc c' hc' d hd ⟨x, hx, hxd⟩ ⟨x', hx', hxd'⟩
    exact a4 c hc c' hc' x hx x' hx' (D.joined_iff.1 ((b5 d hd _ hxd _).1 hxd'))
  · rintro c hc d hd d' hd' ⟨x, hx, hxd⟩ ⟨x', hx', hxd'⟩
    exact b4 d hd d' hd' _ hxd _ hxd' (D.joined ((a5 c hc x hx x').1 hx'))
  · rintro c hc d hd ⟨x, hx, hxd⟩
    have hmem : ∀ y, y ∈ d ↔ y ∈ c := by
      intro y
      rw [a5 c hc x hx y, b5 d hd _ hxd, D.joined_iff]
    have e1 : c.length = d.length := by
      rw [((List.perm_ext_iff_of_nodup (a3 c hc).2.1 (b3 d hd).2.1).2 (fun y => (hmem y).symm)).length_eq]
    have offv : ∀ {S T : Triangulation} {e ε a b c d : Int} {vs : List (List Int)}, FlipData S T e ε a b c d → S.vertices = .ok vs → ∀ v ∈ vs,
        ∃ y ∈ v, y ≠ e ∧ y ≠ inv e := by
      intro S T e ε a b c d vs D hvs v hv
      obtain ⟨_, c2, _⟩ := D.hS.vertices_mem hvs
      obtain ⟨y, hy⟩ := List.exists_mem_of_ne_nil _ (c2 v hv).1.ne
      have nb := D.ne b (by simp)
      have nd := D.ne d (by simp)
      have hb : S.SV e (inv b) := D.hS.sv_glues (by rw [inv_inv]; exact D.s1)
      have hd : S.SV (inv e) (inv d) := D.hS.sv_glues (by rw [inv_inv]; exact D.s2)
      by_cases h1 : y = e
      · subst h1
        obtain ⟨w, k1, k2⟩ := hb
        rw [D.hS.vertexOf_of_mem hvs hv hy] at k1; cases k1
        exact ⟨_, k2, inv_ne_pair nb⟩
      · by_cases h2 : y = inv e
        · subst h2
          obtain ⟨w, k1, k2⟩ := hd
          rw [D.hS.vertexOf_of_mem hvs hv hy] at k1; cases k1
          exact ⟨_, k2, inv_ne_pair nd⟩
        · exact ⟨y, hy, h1, h2⟩
    have tr : ∀ {x}, x ≠ ε ∧ x ≠ inv ε → x ≠ e ∧ x ≠ inv e := by
      intro x h
      rcases D.eps with h' | h'
      · rwa [h'] at h
      · rw [h', inv_inv] at h; exact h.symm
    have e2 : nv vs c = nv ws d := by
      have := perm_of_rel ((hS.nodup_vertices hvs).filter (fun vertex => vertex.head?.any (· ∈ c)))
        ((hT.nodup_vertices hws).filter (fun vertex => vertex.head?.any (· ∈ d))) (fun v w => ∃ y ∈ v, y ∈ w ∧ (y ≠ e ∧ y ≠ inv e))
        (fun v hv => by
          obtain ⟨y, hy, hye⟩ := offv D hvs v (List.mem_of_mem_filter hv)
          obtain ⟨hv, hyc⟩ := (hS.mem_nv hvs hcs hc hy).1 hv
          obtain ⟨w, hw, hyw⟩ := d1 y (D.isLabel_iff.2 ((a3 c hc).2.2 y hyc))
          exact ⟨w, (hT.mem_nv hws hds hd hyw).2 ⟨hw, (hmem y).2 hyc⟩, y, hy, hyw, hye⟩)
        (fun w hw => by
          obtain ⟨y, hy, hye⟩ := offv D.symm hws w (List.mem_of_mem_filter hw)
          obtain ⟨hw, hyd⟩ := (hT.mem_nv hws hds hd hy).1 hw
          obtain ⟨v, hv, hyv⟩ := c1 y (D.isLabel_iff.1 ((b3 d hd).2.2 y hyd))
          exact ⟨v, (hS.mem_nv hvs hcs hc hyv).2 ⟨hv, (hmem y).1 hyd⟩, y, hyv, hy, tr hye⟩)
        (fun v hv v' hv' w hw => by
          rintro ⟨y, hy, hyw, hye⟩ ⟨y', hy', hyw', hye'⟩
          have hv := List.mem_of_mem_filter hv
          have hv' := List.mem_of_mem_filter hv'
          have hw := List.mem_of_mem_filter hw
          have hly := (c2 v hv).2.2 y hy
          obtain ⟨u, k1, k2⟩ := (D.sv hly hye hye').1 ⟨w, hT.vertexOf_of_mem hws hw hyw, hyw'⟩
          rw [hS.vertexOf_of_mem hvs hv hy] at k1; cases k1
          exact c3 v hv v' hv' y' k2 hy')
        (fun v hv w hw w' hw' => by
          rintro ⟨y, hy, hyw, hye⟩ ⟨y', hy', hyw', hye'⟩
          have hv := List.mem_of_mem_filter hv
          have hw := List.mem_of_mem_filter hw
          have hw' := List.mem_of_mem_filter hw'
          have hly := (c2 v hv).2.2 y hy
          obtain ⟨u, k1, k2⟩ := (D.sv hly hye hye').2 ⟨v, hS.vertexOf_of_mem hvs hv hy, hy'⟩
          rw [hT.vertexOf_of_mem hws hw hyw] at k1; cases k1
          exact d3 w hw w' hw' y' k2 hyw') (fun _ => ()) (fun _ => ()) (fun _ _ _ _ _ => rfl)
      simpa [nv] using this.length_eq
    rw [e1, e2]

end FlipData
end Triangulation
end Curver
