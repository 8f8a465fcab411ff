import Verif.Model.Crush
import Verif.Proofs.UnionRing
import Verif.Proofs.Surface
import Verif.Proofs.PachnerTop

/-!
# The triangulation after a crush
-/

namespace Curver
open Triangulation
namespace Triangulation
variable {T T' : Triangulation} {a b e : Int} {X : List Int}

open Lam (crushLabel)

/-- `T'` is `T` cut along the triangle `(a, b, e)` -/
structure Crushed (T T' : Triangulation) (b e : Int) : Prop where
  valid : T'.Valid
  zeta : T'.zeta = T.zeta
  glues : ∀ {x y z : Int}, T.Glues x y z → T'.Glues (crushLabel b e x) (crushLabel b e y) (crushLabel b e z)

namespace Base

theorem mu_e : crushLabel b e e = inv b := by simp [crushLabel]

theorem mu_ib (B : Base T a b e) : crushLabel b e (inv b) = e := by
  unfold crushLabel
  rw [if_neg (fun h => B.bi (inv_eq_iff.1 h)), if_pos rfl]

theorem mu_other {x : Int} (h1 : x ≠ e) (h2 : x ≠ inv b) : crushLabel b e x = x := by
  unfold crushLabel
  rw [if_neg h1, if_neg h2]

theorem mu_mu (B : Base T a b e) (x : Int) : crushLabel b e (crushLabel b e x) = x := by
  by_cases h1 : x = e
  · rw [h1, mu_e, B.mu_ib]
  · by_cases h2 : x = inv b
    · rw [h2, B.mu_ib, mu_e]
    · rw [mu_other h1 h2, mu_other h1 h2]

theorem mu_label (B : Base T a b e) {x : Int} (h : T.IsLabel x) : T.IsLabel (crushLabel b e x) := by
  unfold crushLabel
  split
  · exact isLabel_inv.2 B.labels.2.1
  · split
    · exact B.labels.2.2
    · exact h

theorem mu_inj (B : Base T a b e) {x y : Int} (h : crushLabel b e x = crushLabel b e y) : x = y := by
  rw [← B.mu_mu x, h, B.mu_mu]

theorem mu_perm (B : Base T a b e) : (T.labels.map (crushLabel b e)).Perm T.labels := by
  have hn : (T.labels.map (crushLabel b e)).Nodup := by
    rw [List.nodup_map_iff_inj_on nodup_labels]
    intro x hx y hy
    exact B.mu_inj
  have hsub : T.labels.map (crushLabel b e) ⊆ T.labels := by
    intro x hx
    rw [List.mem_map] at hx
    obtain ⟨y, he, rfl⟩ := hx
    exact mem_labels.2 (B.mu_label (mem_labels.1 he))
  exact (List.subperm_of_subset hn hsub).perm_of_length_le (by simp)

/-- the triangulation is made -/
theorem crushed (B : Base T a b e) : ∃ T', Lam.crushTriangulation T b e = .ok T' ∧ Crushed T T' b e := by
  have hc : (⟨T.triangles.map (fun t => Tri.create (crushLabel b e t.x) (crushLabel b e t.y) (crushLabel b e t.z))⟩ : Triangulation).Complete := by
    unfold Complete
    rw [labels_eq_of_length (T := T) (by simp)]
    refine List.Perm.trans ?_ B.mu_perm
    refine List.Perm.trans ?_ (B.valid.complete.map (crushLabel b e))
    unfold signature
    simp only [List.flatMap_map, List.map_flatMap]
    apply List.Perm.flatMap_left
    intro t _
    simpa [Tri.labels] using Tri.create_labels_perm (crushLabel b e t.x) (crushLabel b e t.y) (crushLabel b e t.z)
  obtain ⟨T', h1, h2, h3⟩ := create_ok (by
    intro t ht
    rw [List.mem_map] at ht
    obtain ⟨s, _, rfl⟩ := ht
    exact Tri.create_canonical _ _ _) hc
  have hz : T'.zeta = T.zeta := by
    rw [zeta_eq_of_perm (T := ⟨_⟩) h3]; simp [Triangulation.zeta]
  refine ⟨T', h1, h2, hz, ?_⟩
  intro x y z hg
  have key : ∀ t ∈ T.triangles, T'.Glues (crushLabel b e t.x) (crushLabel b e t.y) (crushLabel b e t.z) := by
    intro t ht
    apply glues_create
    rw [h3.mem_iff]
    exact List.mem_map.2 ⟨t, ht, rfl⟩
  rcases hg with hg | hg | hg
  · exact key _ hg
  · exact (key _ hg).rot.rot
  · exact (key _ hg).rot

end Base

namespace Crushed

theorem label (h : Crushed T T' b e) {x : Int} : T'.IsLabel x ↔ T.IsLabel x := by unfold IsLabel; rw [h.zeta]

theorem comp (h : Crushed T T' b e) : T'.Complete := h.valid.comp

/-- every triangle comes from one -/
theorem back (h : Crushed T T' b e) (B : Base T a b e) {x y z : Int} (hg : T'.Glues x y z) : ∃ x' y' z', T.Glues x' y' z' ∧
    x = crushLabel b e x' ∧ y = crushLabel b e y' ∧ z = crushLabel b e z' := by
  have hx := B.mu_label (h.label.1 (h.comp.label_of_glues hg).1)
  obtain ⟨y', z', hg'⟩ := B.comp.exists_glues hx
  have := h.glues hg'
  rw [B.mu_mu] at this
  have := h.comp.glues_unique hg this
  exact ⟨_, _, _, hg', (B.mu_mu x).symm, this.1, this.2⟩

/-- the folded triangle -/
theorem folded (h : Crushed T T' b e) (B : Base T a b e) : T'.Glues a b (inv b) := by
  have := h.glues B.glues
  rwa [Base.mu_e, Base.mu_other B.nes.2.2.symm (fun q => B.bn (inv_eq_iff.1 q.symm)), Base.mu_other B.nes.2.1 (Curver.inv_ne b).symm] at this

/-- the other triangles -/
theorem other (h : Crushed T T' b e) (B : Base T a b e) {x y z : Int} (hg : T.Glues x y z) (hx : x ≠ a ∧ x ≠ b ∧ x ≠ e) :
    T'.Glues (if x = inv b then e else x) (if y = inv b then e else y) (if z = inv b then e else z) := by
  have o := B.other hg hx
  have := h.glues hg
  unfold crushLabel at this
  rwa [if_neg hx.2.2, if_neg o.1.2.2, if_neg o.2.2.2] at this

end Crushed

section vertices
variable (h : Loop T a b e X) (hc : Crushed T T' b e)
include h hc

/-- the edges at the new vertex on the right -/
theorem Crushed.sv_right {x : Int} (hx : x ∈ X) : T'.SV (if x = inv b then e else if x = b then inv e else x) (inv e) := by
  have B := h.fan.base
  have le := hc.label.2 (isLabel_inv.2 B.labels.2.2)
  obtain ⟨X', hX'⟩ := h.sweep.first h.valid.comp h.glues h.ne_nil
  have hch := h.sweep.chain
  rw [hX', List.cons_append, List.isChain_cons_cons] at hch
  have n := B.nes
  have n2 := B.bi
  have := chain_all (s := T.spin) (P := fun x => x ∈ X → T'.SV (if x = inv b then e else if x = b then inv e else x) (inv e)) _ _ hch.2 ?_ ?_
  · refine this x ?_ hx
    rw [hX'] at hx; rw [← List.cons_append]; exact List.mem_append_left _ hx
  · intro _
    rw [if_neg (fun q => n.2.1 (inv_inj.1 q).symm), if_neg n2.symm]
    exact hc.comp.sv_refl le
  · intro x hxm hP hs
    have hxl : T.IsLabel x := by
      rw [← List.cons_append, ← hX'] at hxm
      rcases List.mem_append.1 hxm with q | q
      · exact h.label_mem (by simp [q])
      · rw [List.mem_singleton.1 q]; exact isLabel_inv.2 h.sweep.label
    obtain ⟨y, z, hg⟩ := h.valid.comp.exists_glues hxl
    have hsp := Sweep.spin_eq h.valid.comp hg
    rw [hsp] at hs ⊢
    rcases (h.next hg).1 hs with q | ⟨q1, q2⟩
    · subst q
      have := h.valid.comp.glues_unique hg h.glues
      rw [this.2, if_neg (fun q => n.2.1 (inv_inj.1 q).symm), if_neg n2.symm]
      exact hc.comp.sv_refl le
    · have hP := hP q1
      by_cases q3 : x = e
      · subst q3
        have := h.valid.comp.glues_unique hg h.glues.rot.rot
        rw [this.2, if_pos rfl]
        rwa [if_neg (fun q => n2 (inv_eq_iff.1 q.symm)), if_neg q2] at hP
      · have qa : x ≠ a := by rintro rfl; exact h.a_notin q1
        have o := B.other hg ⟨qa, q2, q3⟩
        have g' := hc.other B hg ⟨qa, q2, q3⟩
        rw [if_neg (fun q => o.2.2.1 (inv_inj.1 q))]
        have s := hc.comp.sv_glues (y := inv (if z = inv b then e else z)) (by rw [Curver.inv_inv]; exact g')
        rw [if_neg q2] at hP
        have hl : T'.IsLabel (if x = inv b then e else x) := (hc.comp.label_of_glues g').1
        have s' := hc.comp.sv_trans (hc.comp.sv_label hl s) (hc.comp.sv_symm hl s) hP
        by_cases q4 : z = inv b
        · rw [q4, Curver.inv_inv, if_pos rfl]; exact hc.comp.sv_refl le
        · rw [if_neg (fun q => q4 (inv_eq_iff.1 q))]
          rwa [if_neg q4] at s'

theorem Crushed.sv_ab : T'.SV a b ∧ T'.SV b (inv a) := by
  have g := hc.folded h.fan.base
  exact ⟨hc.comp.sv_glues g, hc.comp.sv_glues (by rw [Curver.inv_inv]; exact g.rot)⟩

/-- the old vertices stay together -/
theorem Crushed.sv_old {x y : Int} (hx : T.IsLabel x) (hs : T.SV x y) :
    T'.SV (if x ∈ X then a else if x = inv b then e else x) (if y ∈ X then a else if y = inv b then e else y) := by
  have B := h.fan.base
  have n := B.nes
  have hl : ∀ {x}, T.IsLabel x → T'.IsLabel (if x ∈ X then a else if x = inv b then e else x) := by
    intro x hx
    rw [hc.label]
    split_ifs
    · exact h.sweep.label
    · exact B.labels.2.2
    · exact hx
  refine h.valid.comp.sv_induct hx hs (fun y => T'.SV _ (if y ∈ X then a else if y = inv b then e else y)) (hc.comp.sv_refl (hl hx)) ?_
  intro w hw hP
  refine hc.comp.sv_trans (hl hx) hP ?_
  obtain ⟨y, z, hg⟩ := h.valid.comp.exists_glues hw
  rw [Sweep.spin_eq h.valid.comp hg]
  have hn := h.next hg
  have la := hc.label.2 h.sweep.label
  have ab := hc.sv_ab h
  by_cases qa : w = a
  · rw [if_neg (by rw [qa]; exact h.a_notin), if_neg (by rw [qa]; exact fun q => B.bn (inv_eq_iff.1 q.symm)), if_pos (hn.2 (.inl qa)), qa]
    exact hc.comp.sv_refl la
  by_cases qb : w = b
  · subst qb
    have := h.valid.comp.glues_unique hg h.glues.rot
    rw [if_pos h.b_mem, this.2, if_neg h.sweep.notin, if_neg (fun q => n.1 (inv_inj.1 q))]
    exact hc.comp.sv_trans la ab.1 ab.2
  by_cases qX : w ∈ X
  · rw [if_pos qX, if_pos (hn.2 (.inr ⟨qX, qb⟩))]
    exact hc.comp.sv_refl la
  have qz : inv z ∉ X := fun q => by rcases hn.1 q with q | q; exacts [qa q, qX q.1]
  rw [if_neg qX, if_neg qz]
  by_cases q3 : w = e
  · subst q3
    have := h.valid.comp.glues_unique hg h.glues.rot.rot
    rw [this.2, if_pos rfl, if_neg (fun q => B.bi (inv_eq_iff.1 q.symm))]
    exact hc.comp.sv_refl (hc.label.2 hw)
  · have o := B.other hg ⟨qa, qb, q3⟩
    have g' := hc.other B hg ⟨qa, qb, q3⟩
    rw [if_neg (c := inv z = inv b) (fun q => o.2.2.1 (inv_inj.1 q))]
    have s := hc.comp.sv_glues (y := inv (if z = inv b then e else z)) (by rw [Curver.inv_inv]; exact g')
    rwa [if_neg (c := z = inv b) (fun q => qz (by rw [q, Curver.inv_inv]; exact h.b_mem))] at s

/-- two more vertices -/
theorem Crushed.vertices {vs vs' : List (List Int)} (hv : T.vertices = .ok vs) (hv' : T'.vertices = .ok vs') : vs'.length = vs.length + 2 := by
  have B := h.fan.base
  have n := B.nes
  have hXa : ∀ x ∈ X, vtx vs x = vtx vs a := by
    intro x hx
    refine chain_all (s := T.spin) (P := fun x => T.IsLabel x → vtx vs x = vtx vs a) _ _ h.sweep.chain (fun _ => rfl) ?_ x (by simp [hx]) (h.label_mem (by simp [hx]))
    intro y hy hP _
    have hyl : T.IsLabel y := by
      rcases List.mem_cons.1 hy with q | q
      · rw [q]; exact h.sweep.label
      · rcases List.mem_append.1 q with q | q
        · exact h.label_mem (by simp [q])
        · rw [List.mem_singleton.1 q]; exact isLabel_inv.2 h.sweep.label
    obtain ⟨u, w, hg⟩ := h.valid.comp.exists_glues hyl
    rw [Sweep.spin_eq h.valid.comp hg, ← vtx_glues h.valid hv hg]
    exact hP hyl
  have heb : vtx vs e = vtx vs (inv b) := vtx_glues h.valid hv h.glues.rot.rot
  have hba : vtx vs b = vtx vs (inv a) := vtx_glues h.valid hv h.glues.rot
  let tail : Int → Nat := fun x => if x = inv b then vs.length + 1 else if x ∈ X ∧ x ≠ b then vs.length else vtx vs x
  let rep : Nat → Int := fun i => if i = vs.length + 1 then inv b else if i = vs.length then inv e else if i = vtx vs a then a
    else let x := ((vs.getD i []).head?).getD 0; if x = inv b then e else x
  have hbe : inv b ≠ e := fun q => B.bi (inv_eq_iff.1 q)
  have hte : e ∉ X → tail e = vtx vs e := by
    intro q
    show (if e = inv b then _ else _) = _
    rw [if_neg hbe.symm, if_neg (fun k => q k.1)]
  have hta : tail a = vtx vs a := by
    show (if a = inv b then _ else _) = _
    rw [if_neg (fun q => B.bn (inv_eq_iff.1 q.symm)), if_neg (fun q => h.a_notin q.1)]
  have hold : ∀ {i : Nat}, i < vs.length → i ≠ vtx vs a → ∃ x, T.IsLabel x ∧ x ∉ X ∧ vtx vs x = i ∧ rep i = if x = inv b then e else x := by
    intro i hi hne
    obtain ⟨k1, k2, k3, k4⟩ := h.valid.comp.vertices_mem hv
    obtain ⟨x, l, hxl⟩ := List.exists_cons_of_ne_nil (k2 vs[i] (List.getElem_mem hi)).1.ne
    have hxv : x ∈ vs[i] := by rw [hxl]; simp
    have lx := (k2 _ (List.getElem_mem hi)).2.2 x hxv
    have hvx : vtx vs x = i := by
      obtain ⟨l1, m1⟩ := vtx_spec h.valid hv lx
      rw [List.getD, List.getElem?_eq_getElem l1, Option.getD_some] at m1
      exact (h.valid.comp.nodup_vertices hv).getElem_inj_iff.1 (k3 _ (List.getElem_mem l1) _ (List.getElem_mem hi) x m1 hxv)
    refine ⟨x, lx, fun q => hne (by rw [← hvx, hXa x q]), hvx, ?_⟩
    show (if i = vs.length + 1 then inv b else if i = vs.length then inv e else if i = vtx vs a then a
      else let x := ((vs.getD i []).head?).getD 0; if x = inv b then e else x) = _
    rw [if_neg (by omega), if_neg (by omega), if_neg hne, List.getD, List.getElem?_eq_getElem hi, Option.getD_some, hxl]
    rfl
  refine hc.valid.vertices_of_tails tail rep ?_ ?_ ?_ hv'
  · intro x₀ y₀ z₀ hg₀
    obtain ⟨x, y, z, hg, rfl, rfl, rfl⟩ := hc.back B hg₀
    by_cases qe : x = e
    · subst qe
      have := h.valid.comp.glues_unique hg h.glues.rot.rot
      rw [this.2, Base.mu_e, Base.mu_other n.2.1 (Curver.inv_ne b).symm]
    by_cases qa : x = a
    · subst qa
      have := h.valid.comp.glues_unique hg h.glues
      rw [this.2, Base.mu_e, Curver.inv_inv, Base.mu_other qe (fun q => B.bn (inv_eq_iff.1 q.symm)), hta]
      show _ = (if b = inv b then _ else _)
      rw [if_neg (Curver.inv_ne b).symm, if_neg (fun q => q.2 rfl), hXa b h.b_mem]
    by_cases qb : x = b
    · subst qb
      have := h.valid.comp.glues_unique hg h.glues.rot
      rw [this.2, Base.mu_other qe (Curver.inv_ne x).symm, Base.mu_other (Ne.symm n.2.2) (fun q => B.bn (inv_eq_iff.1 q.symm))]
      show (if x = inv x then _ else _) = (if inv a = inv x then _ else _)
      rw [if_neg (Curver.inv_ne x).symm, if_neg (fun q => q.2 rfl), if_neg (fun q => n.1 (inv_inj.1 q)), if_neg (fun q => h.sweep.notin q.1), hba]
    have o := B.other hg ⟨qa, qb, qe⟩
    have hn := h.next hg
    have e1 : tail (crushLabel b e x) = if x ∈ X then vs.length else vtx vs x := by
      by_cases q : x = inv b
      · rw [q, B.mu_ib]
        show (if e = inv b then _ else _) = _
        rw [if_neg hbe.symm, ← heb]
        by_cases q2 : e ∈ X
        · rw [if_pos ⟨q2, n.2.1.symm⟩, if_pos (h.e_mem_iff.1 q2)]
        · rw [if_neg (fun k => q2 k.1), if_neg (fun k => q2 (h.e_mem_iff.2 k))]
      · rw [Base.mu_other qe q]
        show (if x = inv b then _ else _) = _
        rw [if_neg q]
        simp only [qb, ne_eq, not_false_eq_true, and_true]
    have e2 : tail (inv (crushLabel b e z)) = if inv z ∈ X then vs.length else vtx vs (inv z) := by
      by_cases q : z = inv b
      · rw [q, B.mu_ib, Curver.inv_inv, if_pos h.b_mem]
        show (if inv e = inv b then _ else _) = _
        rw [if_neg (fun q => n.2.1 (inv_inj.1 q).symm), if_pos ⟨h.inv_e_mem, B.bi.symm⟩]
      · rw [Base.mu_other o.2.2.2 q]
        show (if inv z = inv b then _ else _) = _
        rw [if_neg (fun q => o.2.2.1 (inv_inj.1 q))]
        have : inv z ≠ b := fun k => q (inv_eq_iff.1 k)
        simp only [this, ne_eq, not_false_eq_true, and_true]
    rw [e1, e2, vtx_glues h.valid hv hg]
    have : x ∈ X ↔ inv z ∈ X := by rw [hn]; simp [qa, qb]
    simp only [this]
  · intro i hi
    by_cases q1 : i = vs.length + 1
    · have : rep i = inv b := by show (if i = vs.length + 1 then _ else _) = _; rw [if_pos q1]
      rw [this]
      refine ⟨hc.label.2 (isLabel_inv.2 B.labels.2.1), ?_⟩
      show (if inv b = inv b then _ else _) = _
      rw [if_pos rfl, q1]
    by_cases q2 : i = vs.length
    · have : rep i = inv e := by show (if i = vs.length + 1 then _ else _) = _; rw [if_neg q1, if_pos q2]
      rw [this]
      refine ⟨hc.label.2 (isLabel_inv.2 B.labels.2.2), ?_⟩
      show (if inv e = inv b then _ else _) = _
      rw [if_neg (fun q => n.2.1 (inv_inj.1 q).symm), if_pos ⟨h.inv_e_mem, B.bi.symm⟩, q2]
    by_cases q3 : i = vtx vs a
    · have : rep i = a := by show (if i = vs.length + 1 then _ else _) = _; rw [if_neg q1, if_neg q2, if_pos q3]
      rw [this]
      exact ⟨hc.label.2 h.sweep.label, by rw [hta, q3]⟩
    obtain ⟨x, x1, x2, x3, x4⟩ := hold (by omega) q3
    rw [x4]
    by_cases q : x = inv b
    · rw [if_pos q]
      refine ⟨hc.label.2 B.labels.2.2, ?_⟩
      rw [hte (fun k => x2 (q ▸ h.e_mem_iff.1 k)), heb, ← q, x3]
    · rw [if_neg q]
      refine ⟨hc.label.2 x1, ?_⟩
      show (if x = inv b then _ else _) = _
      rw [if_neg q, if_neg (fun k => x2 k.1), x3]
  · intro x hx'
    have hx := hc.label.1 hx'
    have hlt := (vtx_spec h.valid hv hx).1
    by_cases q1 : x = inv b
    · have t : tail x = vs.length + 1 := by show (if x = inv b then _ else _) = _; rw [if_pos q1]
      have r : rep (vs.length + 1) = inv b := by show (if _ = vs.length + 1 then _ else _) = _; rw [if_pos rfl]
      rw [t, r, q1]
      exact ⟨by omega, hc.comp.sv_refl (q1 ▸ hx')⟩
    by_cases q2 : x ∈ X ∧ x ≠ b
    · have t : tail x = vs.length := by show (if x = inv b then _ else _) = _; rw [if_neg q1, if_pos q2]
      have r : rep vs.length = inv e := by show (if _ = vs.length + 1 then _ else _) = _; rw [if_neg (by omega), if_pos rfl]
      rw [t, r]
      refine ⟨by omega, ?_⟩
      have := hc.sv_right h q2.1
      rwa [if_neg q1, if_neg q2.2] at this
    have t : tail x = vtx vs x := by show (if x = inv b then _ else _) = _; rw [if_neg q1, if_neg q2]
    rw [t]
    refine ⟨by omega, ?_⟩
    have ra : rep (vtx vs a) = a := by
      have := (vtx_spec h.valid hv h.sweep.label).1
      show (if _ = vs.length + 1 then _ else _) = _
      rw [if_neg (by omega), if_neg (by omega), if_pos rfl]
    by_cases qb : x = b
    · rw [qb, hXa b h.b_mem, ra]
      exact hc.comp.sv_symm (hc.label.2 h.sweep.label) (hc.sv_ab h).1
    have qX : x ∉ X := fun k => q2 ⟨k, qb⟩
    by_cases q3 : vtx vs x = vtx vs a
    · rw [q3, ra]
      have := hc.sv_old h hx ((vtx_sv h.valid hv hx h.sweep.label).1 q3)
      rwa [if_neg qX, if_neg q1, if_neg h.a_notin, if_neg (c := a = inv b) (fun q => B.bn (inv_eq_iff.1 q.symm))] at this
    obtain ⟨y, y1, y2, y3, y4⟩ := hold hlt q3
    rw [y4]
    have := hc.sv_old h hx ((vtx_sv h.valid hv hx y1).1 y3.symm)
    rwa [if_neg qX, if_neg q1, if_neg y2] at this

end vertices

end Triangulation
end Curver
