import Verif.Spec.Triangulation
import Verif.Proofs.PyLemmas
import Mathlib.Data.List.Perm.Lattice
import Mathlib.Data.List.Nodup
import Mathlib.Data.List.ProdSigma
import Mathlib.Data.List.Chain
import Mathlib.Tactic.Push
import Mathlib.Tactic.SplitIfs

namespace Curver

/-! ## labels -/

@[simp] theorem inv_inv (x : Int) : inv (inv x) = x := by unfold inv; omega
theorem inv_inj {x y : Int} : inv x = inv y ↔ x = y := by unfold inv; omega
theorem inv_ne (x : Int) : inv x ≠ x := by unfold inv; omega
theorem inv_eq_iff {x y : Int} : inv x = y ↔ x = inv y := by unfold inv; omega
@[simp] theorem norm_inv (x : Int) : norm (inv x) = norm x := by unfold norm inv; omega
theorem norm_nonneg (x : Int) : 0 ≤ norm x := by unfold norm inv; omega
theorem norm_eq_iff {x y : Int} : norm x = norm y ↔ x = y ∨ x = inv y := by unfold norm inv; omega
theorem norm_of_nonneg {x : Int} (h : 0 ≤ x) : norm x = x := by unfold norm inv; omega
theorem norm_of_neg {x : Int} (h : x < 0) : norm x = inv x := by unfold norm inv; omega
theorem sign_of_nonneg {x : Int} (h : 0 ≤ x) : sign x = 1 := by simp [sign, norm_of_nonneg h]
theorem sign_of_neg {x : Int} (h : x < 0) : sign x = -1 := by
  simp [sign, norm_of_neg h]; unfold inv; omega
theorem sign_eq_one_iff {x : Int} : sign x = 1 ↔ 0 ≤ x := by
  rcases lt_or_ge x 0 with h | h
  · simp [sign_of_neg h, h]
  · simp [sign_of_nonneg h, h]
@[simp] theorem sign_inv (x : Int) : sign (inv x) = -sign x := by
  rcases lt_or_ge x 0 with h | h
  · rw [sign_of_neg h, sign_of_nonneg (by unfold inv; omega)]; rfl
  · rw [sign_of_nonneg h, sign_of_neg (by unfold inv; omega)]

/-! ## triangles -/

namespace Tri

theorem create_mem (a b c : Int) : create a b c = ⟨a, b, c⟩ ∨ create a b c = ⟨b, c, a⟩ ∨ create a b c = ⟨c, a, b⟩ := by
  unfold create; split_ifs <;> simp

theorem create_canonical (a b c : Int) : (create a b c).x ≤ (create a b c).y ∧ (create a b c).x ≤ (create a b c).z := by
  unfold create; split_ifs <;> simp <;> omega

theorem create_labels_perm (a b c : Int) : (create a b c).labels.Perm [a, b, c] := by
  rcases create_mem a b c with h | h | h <;> rw [h]
  · exact List.Perm.refl _
  · exact (List.perm_append_comm (l₁ := [a]) (l₂ := [b, c])).symm
  · exact (List.perm_append_comm (l₁ := [c]) (l₂ := [a, b]))

theorem create_of_canonical {t : Tri} (h : t.x ≤ t.y ∧ t.x ≤ t.z) : create t.x t.y t.z = t := by
  unfold create; rw [if_pos h]

/-- with distinct labels the canonical rotation does not depend on the starting point -/
theorem create_rot {a b c : Int} (h1 : a ≠ b) (h2 : b ≠ c) (h3 : c ≠ a) : create a b c = create b c a := by
  unfold create; split_ifs <;> first | rfl | omega

theorem le_refl (s : Tri) : s.le s := by simp [le]
theorem le_total (s t : Tri) : s.le t ∨ t.le s := by unfold le; omega
theorem le_trans {s t u : Tri} (h : s.le t) (h' : t.le u) : s.le u := by unfold le at *; omega
theorem le_antisymm {s t : Tri} (h : s.le t) (h' : t.le s) : s = t := by
  cases s; cases t; simp only [le] at *; simp only [mk.injEq]; omega

instance : Std.Refl le := ⟨le_refl⟩
instance : Std.Total le := ⟨le_total⟩
instance : IsTrans Tri le := ⟨fun _ _ _ => le_trans⟩
instance : Std.Antisymm le := ⟨fun _ _ => le_antisymm⟩

end Tri

namespace Triangulation
variable {T : Triangulation}

theorem mem_labels {e : Int} : e ∈ T.labels ↔ T.IsLabel e := by
  simp only [labels, List.mem_map, List.mem_range, IsLabel]
  constructor
  · rintro ⟨i, hi, rfl⟩; omega
  · rintro ⟨h1, h2⟩; exact ⟨(e + T.zeta).toNat, by omega, by omega⟩

theorem nodup_labels : T.labels.Nodup := by
  refine List.Nodup.map ?_ List.nodup_range
  intro a b h; simp at h; exact h

theorem length_labels : T.labels.length = 2 * T.zeta := by simp [labels]

theorem mem_indices {i : Int} : i ∈ T.indices ↔ 0 ≤ i ∧ i < T.zeta := by
  simp only [indices, List.mem_map, List.mem_range]
  constructor
  · rintro ⟨n, hn, rfl⟩; simp; omega
  · rintro ⟨h1, h2⟩; exact ⟨i.toNat, by omega, by simp; omega⟩

theorem isLabel_inv {e : Int} : T.IsLabel (inv e) ↔ T.IsLabel e := by unfold IsLabel inv; omega
theorem norm_mem_indices {e : Int} : norm e ∈ T.indices ↔ T.IsLabel e := by
  rw [mem_indices]; unfold IsLabel norm inv; omega

theorem sorted_labels : T.labels.Pairwise (· < ·) := by
  unfold labels
  refine List.Pairwise.map _ ?_ List.pairwise_lt_range
  intro a b h; omega

theorem corners_map_x (T : Triangulation) : T.corners.map Tri.x = T.signature := by
  unfold corners signature
  rw [List.map_flatMap]; rfl

theorem glues_iff_mem_corners {a b c : Int} : T.Glues a b c ↔ ⟨a, b, c⟩ ∈ T.corners := by
  simp only [Glues, corners, List.mem_flatMap, List.mem_cons, List.not_mem_nil, or_false, Tri.rot]
  constructor
  · rintro (h | h | h)
    · exact ⟨_, h, .inl rfl⟩
    · exact ⟨_, h, .inr (.inr rfl)⟩
    · exact ⟨_, h, .inr (.inl rfl)⟩
  · rintro ⟨t, ht, h | h | h⟩
    · exact .inl (h ▸ ht)
    · cases t; simp at h; obtain ⟨rfl, rfl, rfl⟩ := h; exact .inr (.inr ht)
    · cases t; simp at h; obtain ⟨rfl, rfl, rfl⟩ := h; exact .inr (.inl ht)

theorem Glues.rot {a b c : Int} (h : T.Glues a b c) : T.Glues b c a := by
  unfold Glues at *; tauto

theorem glues_of_mem {t : Tri} (h : t ∈ T.triangles) : T.Glues t.x t.y t.z := .inl h

theorem Glues.exists_tri {a b c : Int} (h : T.Glues a b c) :
    ∃ t ∈ T.triangles, a ∈ t.labels ∧ b ∈ t.labels ∧ c ∈ t.labels ∧
      (t = ⟨a, b, c⟩ ∨ t = ⟨b, c, a⟩ ∨ t = ⟨c, a, b⟩) := by
  rcases h with h | h | h <;> exact ⟨_, h, by simp [Tri.labels]⟩

/-- only the first half of validity, which does not depend on the presentation -/
def Complete (T : Triangulation) : Prop := T.signature.Perm T.labels

theorem Valid.comp (h : T.Valid) : T.Complete := h.complete

namespace Complete
variable (hT : T.Complete)
include hT

theorem nodup : T.signature.Nodup := hT.nodup_iff.2 nodup_labels

theorem mem_signature {e : Int} : e ∈ T.signature ↔ T.IsLabel e := by rw [hT.mem_iff, mem_labels]

theorem corner_unique {s t : Tri} (hs : s ∈ T.corners) (ht : t ∈ T.corners) (h : s.x = t.x) : s = t := by
  have : (T.corners.map Tri.x).Nodup := by rw [corners_map_x]; exact hT.nodup
  exact List.inj_on_of_nodup_map this hs ht h

theorem glues_unique {a b c b' c' : Int} (h : T.Glues a b c) (h' : T.Glues a b' c') : b = b' ∧ c = c' := by
  have := hT.corner_unique (glues_iff_mem_corners.1 h) (glues_iff_mem_corners.1 h') rfl
  simpa using this

theorem exists_glues {e : Int} (h : T.IsLabel e) : ∃ b c, T.Glues e b c := by
  rw [← hT.mem_signature, ← corners_map_x, List.mem_map] at h
  obtain ⟨c, hc, rfl⟩ := h
  exact ⟨c.y, c.z, glues_iff_mem_corners.2 hc⟩

theorem label_of_glues {a b c : Int} (h : T.Glues a b c) : T.IsLabel a ∧ T.IsLabel b ∧ T.IsLabel c := by
  have key : ∀ {a b c}, T.Glues a b c → T.IsLabel a := by
    intro a b c h
    rw [← hT.mem_signature, ← corners_map_x, List.mem_map]
    exact ⟨_, glues_iff_mem_corners.1 h, rfl⟩
  exact ⟨key h, key h.rot, key h.rot.rot⟩

theorem corner_eq {a b c : Int} (h : T.Glues a b c) : T.corner a = .ok ⟨a, b, c⟩ := by
  unfold corner cornerLookup
  rw [PyDict.get_eq_ok_iff, PyDict.get?_ofList_iff]
  · rw [List.mem_map]; exact ⟨_, glues_iff_mem_corners.1 h, rfl⟩
  · rw [List.map_map]
    show (T.corners.map Tri.x).Nodup
    rw [corners_map_x]; exact hT.nodup

theorem corner_ok_iff {e : Int} {t : Tri} : T.corner e = .ok t ↔ t.x = e ∧ T.Glues t.x t.y t.z := by
  constructor
  · intro h
    unfold corner cornerLookup at h
    rw [PyDict.get_eq_ok_iff, PyDict.get?_ofList_iff] at h
    · rw [List.mem_map] at h
      obtain ⟨c, hc, h⟩ := h
      simp at h
      obtain ⟨rfl, rfl⟩ := h
      exact ⟨rfl, glues_iff_mem_corners.2 hc⟩
    · rw [List.map_map]
      show (T.corners.map Tri.x).Nodup
      rw [corners_map_x]; exact hT.nodup
  · rintro ⟨rfl, h⟩; exact hT.corner_eq h

theorem corner_error {e : Int} (h : ¬ T.IsLabel e) : T.corner e = .error .keyError := by
  unfold corner
  rw [PyDict.get_eq_error_iff]
  refine ⟨?_, rfl⟩
  unfold cornerLookup
  rw [PyDict.mem_keys_ofList, List.map_map]
  show e ∉ T.corners.map Tri.x
  rw [corners_map_x, hT.mem_signature]; exact h

theorem glues_ne {a b c : Int} (h : T.Glues a b c) : a ≠ b ∧ b ≠ c ∧ c ≠ a := by
  obtain ⟨t, ht, _, _, _, hh⟩ := h.exists_tri
  have hn := hT.nodup
  unfold signature at hn
  rw [List.nodup_flatMap] at hn
  have := hn.1 t ht
  rcases hh with rfl | rfl | rfl <;> simp [Tri.labels] at this <;> tauto

theorem nodup_triangles : T.triangles.Nodup := by
  have hn := hT.nodup
  unfold signature at hn
  rw [List.nodup_flatMap] at hn
  refine List.Pairwise.imp ?_ hn.2
  intro a b h hab
  subst hab
  exact h (a := a.x) (by simp [Tri.labels]) (by simp [Tri.labels])

theorem tri_unique {s t : Tri} (hs : s ∈ T.triangles) (ht : t ∈ T.triangles) {e : Int} (h : e ∈ s.labels)
    (h' : e ∈ t.labels) : s = t := by
  have hn := hT.nodup
  unfold signature at hn
  rw [List.nodup_flatMap] at hn
  by_contra hne
  have hsym : Std.Symm (Function.onFun List.Disjoint Tri.labels) := ⟨fun a b h => List.Disjoint.symm h⟩
  exact (List.Pairwise.forall hn.2 hs ht hne) h h'

theorem triangleLookup_nodup :
    ((T.triangles.flatMap (fun t => [(t.x, t), (t.y, t), (t.z, t)])).map Prod.fst).Nodup := by
  rw [List.map_flatMap]; exact hT.nodup

theorem triangle_ok_iff {e : Int} {t : Tri} : T.triangle e = .ok t ↔ t ∈ T.triangles ∧ e ∈ t.labels := by
  unfold triangle triangleLookup
  rw [PyDict.get_eq_ok_iff, PyDict.get?_ofList_iff hT.triangleLookup_nodup, List.mem_flatMap]
  constructor
  · rintro ⟨s, hs, h⟩
    simp at h
    rcases h with ⟨rfl, rfl⟩ | ⟨rfl, rfl⟩ | ⟨rfl, rfl⟩ <;> simp [Tri.labels, hs]
  · rintro ⟨h, h'⟩
    refine ⟨t, h, ?_⟩
    simp [Tri.labels] at h' ⊢
    exact h'

theorem triangle_error {e : Int} (h : ¬ T.IsLabel e) : T.triangle e = .error .keyError := by
  unfold triangle
  rw [PyDict.get_eq_error_iff]
  refine ⟨?_, rfl⟩
  unfold triangleLookup
  rw [PyDict.mem_keys_ofList, List.map_flatMap]
  show e ∉ T.signature
  rw [hT.mem_signature]; exact h

theorem exists_triangle {e : Int} (h : T.IsLabel e) : ∃ t ∈ T.triangles, e ∈ t.labels ∧ T.triangle e = .ok t := by
  rw [← hT.mem_signature, signature, List.mem_flatMap] at h
  obtain ⟨t, ht, he⟩ := h
  exact ⟨t, ht, he, hT.triangle_ok_iff.2 ⟨ht, he⟩⟩

theorem mem_labels_of_mem {t : Tri} (ht : t ∈ T.triangles) {e : Int} (h : e ∈ t.labels) : T.IsLabel e := by
  rw [← hT.mem_signature, signature, List.mem_flatMap]; exact ⟨t, ht, h⟩

theorem three_length : 3 * T.triangles.length = 2 * T.zeta := by
  have h1 := hT.length_eq
  rw [length_labels] at h1
  have h2 : T.signature.length = 3 * T.triangles.length := by
    unfold signature
    rw [List.length_flatMap]
    simp [Tri.labels]; omega
  omega

end Complete

/-! ## the successor function -/

/-- the next side of the triangle to the left of `e` -/
def nxt (T : Triangulation) (e : Int) : Int :=
  match T.cornerLookup.get? e with
  | some c => c.y
  | none => e

namespace Complete
variable (hT : T.Complete)
include hT

theorem nxt_of_glues {a b c : Int} (h : T.Glues a b c) : T.nxt a = b := by
  have := hT.corner_eq h
  unfold corner at this
  rw [PyDict.get_eq_ok_iff] at this
  simp [nxt, this]

theorem glues_nxt {e : Int} (h : T.IsLabel e) : T.Glues e (T.nxt e) (T.nxt (T.nxt e)) := by
  obtain ⟨b, c, hg⟩ := hT.exists_glues h
  rw [hT.nxt_of_glues hg, hT.nxt_of_glues hg.rot]; exact hg

theorem glues_iff {a b c : Int} (h : T.IsLabel a) : T.Glues a b c ↔ b = T.nxt a ∧ c = T.nxt (T.nxt a) := by
  constructor
  · intro hg; rw [hT.nxt_of_glues hg, hT.nxt_of_glues hg.rot]; exact ⟨rfl, rfl⟩
  · rintro ⟨rfl, rfl⟩; exact hT.glues_nxt h

theorem isLabel_nxt {e : Int} (h : T.IsLabel e) : T.IsLabel (T.nxt e) :=
  (hT.label_of_glues (hT.glues_nxt h)).2.1

theorem nxt_nxt_nxt {e : Int} (h : T.IsLabel e) : T.nxt (T.nxt (T.nxt e)) = e :=
  hT.nxt_of_glues (hT.glues_nxt h).rot.rot

theorem nxt_inj {e f : Int} (he : T.IsLabel e) (hf : T.IsLabel f) (h : T.nxt e = T.nxt f) : e = f := by
  rw [← hT.nxt_nxt_nxt he, ← hT.nxt_nxt_nxt hf, h]

theorem corner_nxt {e : Int} (h : T.IsLabel e) : T.corner e = .ok ⟨e, T.nxt e, T.nxt (T.nxt e)⟩ :=
  hT.corner_eq (hT.glues_nxt h)

/-- rotation about the tail -/
theorem rotatesTo_iff {e f : Int} (h : T.IsLabel e) : T.RotatesTo e f ↔ f = inv (T.nxt (T.nxt e)) := by
  unfold RotatesTo
  constructor
  · rintro ⟨b, hb⟩; rw [hT.glues_iff h] at hb; rw [← hb.2]; simp
  · rintro rfl; exact ⟨T.nxt e, by simpa using hT.glues_nxt h⟩

end Complete

/-- one anticlockwise rotation about the tail -/
def spin (T : Triangulation) (e : Int) : Int := inv (T.nxt (T.nxt e))

namespace Complete
variable (hT : T.Complete)
include hT

theorem isLabel_spin {e : Int} (h : T.IsLabel e) : T.IsLabel (T.spin e) :=
  isLabel_inv.2 (hT.isLabel_nxt (hT.isLabel_nxt h))

theorem spin_inj {e f : Int} (he : T.IsLabel e) (hf : T.IsLabel f) (h : T.spin e = T.spin f) : e = f := by
  unfold spin at h
  rw [inv_inj] at h
  exact hT.nxt_inj he hf (hT.nxt_inj (hT.isLabel_nxt he) (hT.isLabel_nxt hf) h)

/-! ## vertices -/

theorem rotateFrom_ok : ∀ fuel (u : List Int) (e : Int) (p : List Int), u.length < fuel →
    (p ++ e :: u).Nodup → (∀ x ∈ p ++ e :: u, T.IsLabel x) → List.IsChain (fun x y => y = T.spin x) (p ++ [e]) →
    (∀ x ∈ p ++ e :: u, T.spin x ∈ p ++ e :: u) →
    ∃ vs rest, T.rotateFrom fuel u e = .ok (vs, rest) ∧
      List.IsChain (fun x y => y = T.spin x) (p ++ e :: vs) ∧
      (p ++ e :: vs).head? = some (T.spin ((e :: vs).getLast (by simp))) ∧
      (vs ++ rest).Perm u ∧ rest.Sublist u := by
  intro fuel
  induction fuel with
  | zero => intro u e p h; omega
  | succ fuel ih =>
    intro u e p hf hn hl hc hcl
    have he : T.IsLabel e := hl e (by simp)
    simp only [rotateFrom, hT.corner_nxt he, py_bind_ok]
    change ∃ vs rest, (if T.spin e ∈ u then _ else _) = _ ∧ _
    split
    · rename_i hmem
      have hp : (p ++ e :: u).Perm ((p ++ [e]) ++ T.spin e :: u.erase (T.spin e)) := by
        have := List.perm_cons_erase hmem
        rw [List.append_assoc]
        exact List.Perm.append_left p (List.Perm.cons e this)
      obtain ⟨vs, rest, h1, h2, h3, h4, h5⟩ := ih (u.erase (T.spin e)) (T.spin e) (p ++ [e])
        (by rw [List.length_erase_of_mem hmem]; have := List.length_pos_of_mem hmem; omega)
        (hp.nodup_iff.1 hn) (fun x hx => hl x (hp.mem_iff.2 hx))
        (by
          rw [List.isChain_append]
          refine ⟨hc, List.isChain_singleton _, ?_⟩
          intro x hx y hy
          simp at hx hy
          rw [← hx, ← hy])
        (fun x hx => hp.mem_iff.1 (hcl x (hp.mem_iff.2 hx)))
      refine ⟨T.spin e :: vs, rest, ?_, ?_, ?_, ?_, ?_⟩
      · change (T.rotateFrom fuel (u.erase (T.spin e)) (T.spin e) >>= _) = _
        rw [h1]; rfl
      · simpa using h2
      · simpa using h3
      · have := List.Perm.cons (T.spin e) h4
        exact this.trans (List.perm_cons_erase hmem).symm
      · exact h5.trans List.erase_sublist
    · rename_i hmem
      refine ⟨[], u, rfl, hc, ?_, List.Perm.refl _, List.Sublist.refl _⟩
      simp only [List.getLast_singleton]
      have h1 := hcl e (by simp)
      -- the next edge is on the path
      have h2 : T.spin e ∈ p ++ [e] := by
        simp only [List.mem_append, List.mem_cons, List.not_mem_nil, or_false] at h1 ⊢
        tauto
      obtain ⟨a, b, hab⟩ := List.append_of_mem h2
      rcases List.eq_nil_or_concat a with rfl | ⟨a', x, rfl⟩
      · rw [hab]; rfl
      · exfalso
        rw [List.concat_eq_append, List.append_assoc, List.singleton_append] at hab
        rw [hab, List.isChain_append_cons_cons] at hc
        have hx : T.spin e = T.spin x := hc.2.1
        have hxl : T.IsLabel x := by
          apply hl
          have : x ∈ p ++ [e] := by rw [hab]; simp
          simp only [List.mem_append, List.mem_cons, List.not_mem_nil, or_false] at this ⊢
          tauto
        have hxe : x = e := (hT.spin_inj he hxl hx).symm
        subst hxe
        have hnd : (p ++ [x]).Nodup := by
          refine List.Nodup.sublist ?_ hn
          simp
        rw [hab] at hnd
        -- `x` is the last entry of the list, hence cannot appear before
        have hlast : (a' ++ x :: T.spin x :: b).getLast? = some x := by rw [← hab]; simp
        have h3 : x ∈ T.spin x :: b := by
          have : (a' ++ x :: T.spin x :: b).getLast? = (T.spin x :: b).getLast? := by
            rw [List.getLast?_append, List.getLast?_cons_cons, List.getLast?_eq_getLast_of_ne_nil (by simp)]; rfl
          rw [this] at hlast
          exact List.mem_of_getLast? hlast
        rw [List.nodup_append] at hnd
        exact (List.nodup_cons.1 hnd.2.1).1 h3

end Complete

/-- a list of edges that is a full turn around a vertex, starting at its least edge -/
structure IsVertex (T : Triangulation) (v : List Int) : Prop where
  ne : v ≠ []
  chain : List.IsChain (fun x y => y = T.spin x) v
  closes : v.head? = some (T.spin (v.getLast ne))
  least : ∀ x ∈ v, v.head ne ≤ x

theorem chain_mem_iff_aux {f : Int → Int} {v : List Int} {x : Int} (hc : List.IsChain (fun x y => y = f x) v)
    (hx : x ∈ v) (hl : ∀ h : v ≠ [], x ≠ v.getLast h) : f x ∈ v := by
  induction v with
  | nil => simp at hx
  | cons a l ih =>
    cases l with
    | nil => simp at hx; subst hx; exact absurd rfl (hl (by simp))
    | cons b l =>
      rw [List.isChain_cons_cons] at hc
      simp only [List.mem_cons] at hx
      rcases hx with rfl | hx
      · rw [← hc.1]; simp
      · have := ih hc.2 (by simpa using hx) (fun _ => by simpa using hl (by simp))
        exact List.mem_cons_of_mem _ this

theorem IsVertex.spin_mem {v : List Int} (h : T.IsVertex v) {x : Int} (hx : x ∈ v) : T.spin x ∈ v := by
  by_cases hl : x = v.getLast h.ne
  · have := h.closes
    rw [← hl] at this
    exact List.mem_of_head? this
  · exact chain_mem_iff_aux h.chain hx (fun _ => hl)

theorem chain_pred {f : Int → Int} {v : List Int} {y : Int} (hc : List.IsChain (fun x y => y = f x) v)
    (hy : y ∈ v) : v.head? = some y ∨ ∃ x ∈ v, y = f x := by
  induction v with
  | nil => simp at hy
  | cons a l ih =>
    simp only [List.mem_cons] at hy
    rcases hy with rfl | hy
    · exact .inl rfl
    · cases l with
      | nil => simp at hy
      | cons b l =>
        rw [List.isChain_cons_cons] at hc
        rcases ih hc.2 hy with h | ⟨x, hx, h⟩
        · simp at h; subst h
          exact .inr ⟨a, by simp, hc.1⟩
        · exact .inr ⟨x, by simp at hx ⊢; tauto, h⟩

theorem IsVertex.pred {v : List Int} (h : T.IsVertex v) {y : Int} (hy : y ∈ v) : ∃ x ∈ v, y = T.spin x := by
  rcases chain_pred h.chain hy with h1 | h1
  · rw [h.closes] at h1
    simp at h1
    exact ⟨v.getLast h.ne, List.getLast_mem _, h1.symm⟩
  · exact h1

namespace Complete
variable (hT : T.Complete)
include hT

theorem verticesFrom_ok : ∀ fuel (u : List Int), u.length ≤ fuel → u.Pairwise (· < ·) → (∀ x ∈ u, T.IsLabel x) →
    (∀ x ∈ u, T.spin x ∈ u) →
    ∃ vs, T.verticesFrom fuel u = .ok vs ∧ vs.flatten.Perm u ∧ (∀ v ∈ vs, T.IsVertex v) ∧
      (vs.map List.head?).Pairwise (fun a b => ∃ x y, a = some x ∧ b = some y ∧ x < y) := by
  intro fuel
  induction fuel with
  | zero =>
    intro u h
    have : u = [] := List.length_eq_zero_iff.1 (by omega)
    subst this; intros; exact ⟨[], rfl, List.Perm.refl _, by simp, by simp⟩
  | succ fuel ih =>
    intro u hf hs hl hcl
    cases u with
    | nil => exact ⟨[], rfl, List.Perm.refl _, by simp, by simp⟩
    | cons e u =>
      have hnd : (e :: u).Nodup := hs.imp (fun h => by omega)
      obtain ⟨vs, rest, h1, h2, h3, h4, h5⟩ := hT.rotateFrom_ok (u.length + 1) u e [] (by omega) hnd hl
        (by simp) hcl
      rw [List.pairwise_cons] at hs
      have hv : T.IsVertex (e :: vs) := by
        refine ⟨by simp, by simpa using h2, by simpa using h3, ?_⟩
        intro x hx
        simp at hx ⊢
        rcases hx with rfl | hx
        · exact le_refl _
        · exact (hs.1 x (h4.mem_iff.1 (by simp [hx]))).le
      obtain ⟨others, g1, g2, g3, g4⟩ := ih rest
        (by have := h4.length_eq; simp at this hf; omega)
        (hs.2.sublist h5) (fun x hx => hl x (by simp [h5.mem hx]))
        (by
          intro x hx
          have hxu : x ∈ u := h5.mem hx
          have h6 := hcl x (by simp [hxu])
          have hnd2 : (e :: (vs ++ rest)).Nodup := (List.Perm.cons e h4).nodup_iff.2 hnd
          have h7 : T.spin x ∈ e :: (vs ++ rest) := (List.Perm.cons e h4).mem_iff.2 h6
          have h8 : T.spin x ∈ (e :: vs) ∨ T.spin x ∈ rest := by
            simp at h7 ⊢; tauto
          rcases h8 with h8 | h8
          · exfalso
            obtain ⟨y, hy, hyx⟩ := hv.pred h8
            have hyl : T.IsLabel y := hl y ((List.Perm.cons e h4).mem_iff.1 (by simp at hy ⊢; tauto))
            have : x = y := hT.spin_inj (hl x (by simp [hxu])) hyl hyx
            subst this
            have hnd3 : ((e :: vs) ++ rest).Nodup := by simpa using hnd2
            rw [List.nodup_append] at hnd3
            exact hnd3.2.2 x hy x hx rfl
          · exact h8)
      refine ⟨(e :: vs) :: others, ?_, ?_, ?_, ?_⟩
      · simp only [verticesFrom, h1, py_bind_ok, g1]; rfl
      · simp only [List.flatten_cons, List.cons_append]
        exact List.Perm.cons e ((List.Perm.append_left vs g2).trans h4)
      · intro v hv'
        simp at hv'
        rcases hv' with rfl | h
        · exact hv
        · exact g3 v h
      · simp only [List.map_cons, List.head?_cons, List.pairwise_cons]
        refine ⟨?_, g4⟩
        intro a ha
        rw [List.mem_map] at ha
        obtain ⟨w, hw, rfl⟩ := ha
        obtain ⟨y, hy⟩ : ∃ y, w.head? = some y := by
          have := (g3 w hw).closes; exact ⟨_, this⟩
        refine ⟨e, y, rfl, hy, ?_⟩
        have : y ∈ others.flatten := List.mem_flatten.2 ⟨w, hw, List.mem_of_head? hy⟩
        exact hs.1 y (h5.mem (g2.mem_iff.1 this))

theorem vertices_ok : ∃ vs, T.vertices = .ok vs ∧ vs.flatten.Perm T.labels ∧ (∀ v ∈ vs, T.IsVertex v) ∧
    (vs.map List.head?).Pairwise (fun a b => ∃ x y, a = some x ∧ b = some y ∧ x < y) := by
  apply hT.verticesFrom_ok _ _ le_rfl sorted_labels (fun x hx => mem_labels.1 hx)
  intro x hx
  rw [mem_labels] at hx ⊢
  exact hT.isLabel_spin hx

end Complete

/-! ## building triangulations -/

theorem labels_eq_of_length {S T : Triangulation} (h : S.triangles.length = T.triangles.length) : S.labels = T.labels := by
  simp [labels, zeta, h]

theorem signature_perm {S T : Triangulation} (h : S.triangles.Perm T.triangles) : S.signature.Perm T.signature := by
  unfold signature; exact h.flatMap_right _

theorem create_ok {ts : List Tri} (hc : ∀ t ∈ ts, t.x ≤ t.y ∧ t.x ≤ t.z) (h : (⟨ts⟩ : Triangulation).Complete) :
    ∃ T, create ts = .ok T ∧ T.Valid ∧ T.triangles.Perm ts := by
  have hp : (ts.insertionSort Tri.le).Perm ts := List.perm_insertionSort _ _
  have hv : (⟨ts.insertionSort Tri.le⟩ : Triangulation).Valid := by
    refine ⟨?_, ?_, ?_⟩
    · have h1 := signature_perm (S := ⟨ts.insertionSort Tri.le⟩) (T := ⟨ts⟩) hp
      rw [labels_eq_of_length (S := ⟨ts.insertionSort Tri.le⟩) (T := ⟨ts⟩) hp.length_eq]
      exact h1.trans h
    · intro t ht; exact hc t (hp.mem_iff.1 ht)
    · exact List.pairwise_insertionSort _ _
  obtain ⟨vs, hvs, _⟩ := hv.comp.vertices_ok
  exact ⟨_, by simp [create, hvs], hv, hp⟩

theorem glues_perm {S T : Triangulation} (h : S.triangles.Perm T.triangles) {a b c : Int} :
    S.Glues a b c ↔ T.Glues a b c := by
  unfold Glues; rw [h.mem_iff, h.mem_iff, h.mem_iff]

theorem zeta_eq_of_perm {S T : Triangulation} (h : S.triangles.Perm T.triangles) : S.zeta = T.zeta := by
  unfold zeta; rw [h.length_eq]

/-- two valid triangulations with the same gluing are equal -/
theorem Valid.ext {S T : Triangulation} (hS : S.Valid) (hT : T.Valid) (h : ∀ a b c, S.Glues a b c ↔ T.Glues a b c) :
    S = T := by
  have key : ∀ {S T : Triangulation}, S.Valid → T.Valid → (∀ a b c, S.Glues a b c ↔ T.Glues a b c) →
      ∀ t ∈ S.triangles, t ∈ T.triangles := by
    intro S T hS hT h t ht
    have hg := (h _ _ _).1 (glues_of_mem ht)
    have hne := hT.comp.glues_ne hg
    have hc := hS.canonical t ht
    rcases hg with hg | hg | hg
    · exact hg
    · have := hT.canonical _ hg; simp at this; omega
    · have := hT.canonical _ hg; simp at this; omega
  have hp : S.triangles.Perm T.triangles :=
    (List.perm_ext_iff_of_nodup hS.comp.nodup_triangles hT.comp.nodup_triangles).2
      (fun t => ⟨key hS hT h t, key hT hS (fun a b c => (h a b c).symm) t⟩)
  have := List.Perm.eq_of_pairwise' hS.sorted hT.sorted hp
  cases S; cases T; simp at this; rw [this]

end Triangulation
end Curver
