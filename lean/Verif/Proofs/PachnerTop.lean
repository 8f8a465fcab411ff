import Verif.Proofs.Pachner
import Verif.Proofs.Surface

namespace Curver
open Triangulation
namespace Triangulation
variable {T T' : Triangulation} {ch : List Tri}

theorem Split.label (hs : Split T ch T') {e : Int} (h : T.IsLabel e) : T'.IsLabel e := by
  unfold IsLabel at *
  rw [hs.zeta]; push_cast; omega

/-- a corner of a chosen triangle, with its two new edges -/
theorem Split.corner (hs : Split T ch T') {a b c : Int} (h : T.Glues a b c) :
    T'.Glues a b c ∨ ∃ s t u : Int, T'.Glues a (inv u) t ∧ T'.Glues b (inv s) u ∧ T'.Glues c (inv t) s := by
  have key : ∀ τ ∈ T.triangles, T'.Glues τ.x τ.y τ.z ∨ ∃ s t u : Int, T'.Glues τ.x (inv u) t ∧ T'.Glues τ.y (inv s) u ∧ T'.Glues τ.z (inv t) s := by
    intro τ hτ
    by_cases hc : τ ∈ ch
    · obtain ⟨i, hi⟩ := List.getElem?_of_mem (List.mem_filter.2 ⟨hτ, by simpa using hc⟩ : τ ∈ T.triangles.filter (· ∈ ch))
      exact .inr ⟨_, _, _, hs.split i τ hi⟩
    · exact .inl (hs.kept τ hτ hc)
  rcases h with h | h | h
  · exact key _ h
  · rcases key _ h with k | ⟨s, t, u, k1, k2, k3⟩
    · exact .inl k.rot.rot
    · exact .inr ⟨u, s, t, k3, k1, k2⟩
  · rcases key _ h with k | ⟨s, t, u, k1, k2, k3⟩
    · exact .inl k.rot
    · exact .inr ⟨t, u, s, k2, k3, k1⟩

theorem Split.sv_spin (hT : T.Valid) (hs : Split T ch T') {z : Int} (hz : T.IsLabel z) : T'.SV z (T.spin z) := by
  have hg := hT.comp.glues_nxt hz
  have hc := hs.valid.comp
  have : T.spin z = inv (T.nxt (T.nxt z)) := rfl
  rw [this]
  rcases hs.corner hg with h | ⟨s, t, u, k1, k2, k3⟩
  · exact hc.sv_glues (b := T.nxt z) (by rwa [inv_inv])
  · have e1 : T'.SV z (inv t) := hc.sv_glues (b := inv u) (by rwa [inv_inv])
    have e2 : T'.SV (inv t) (inv (T.nxt (T.nxt z))) := hc.sv_glues (b := s) (by rw [inv_inv]; exact k3.rot)
    exact hc.sv_trans (hs.label hz) e1 e2

theorem Split.sv (hT : T.Valid) (hs : Split T ch T') {x y : Int} (hx : T.IsLabel x) (h : T.SV x y) : T'.SV x y := by
  refine hT.comp.sv_induct hx h (fun y => T'.SV x y) (hs.valid.comp.sv_refl (hs.label hx)) ?_
  intro z hz h
  exact hs.valid.comp.sv_trans (hs.label hx) h (hs.sv_spin hT hz)

/-- vertices of the old edges -/
def vtx (vs : List (List Int)) (x : Int) : Nat := vs.findIdx (fun v => decide (x ∈ v))

/-- vertices of all edges -/
def tailOf (vs : List (List Int)) (z : Nat) (C : List Tri) (x : Int) : Nat :=
  if norm x < z then vtx vs x
  else
    let i := ((norm x - z) / 3).toNat
    let t := C.getD i ⟨0, 0, 0⟩
    if 0 ≤ x then vs.length + i
    else if (norm x - z) % 3 = 0 then vtx vs t.z else if (norm x - z) % 3 = 1 then vtx vs t.x else vtx vs t.y

/-- an edge at each vertex -/
def repOf (vs : List (List Int)) (z : Nat) (i : Nat) : Int :=
  if i < vs.length then ((vs.getD i []).head?).getD 0 else (z : Int) + 3 * ((i - vs.length : Nat) : Int)

section
variable {vs : List (List Int)} (hT : T.Valid) (hv : T.vertices = .ok vs)
include hT hv

theorem vtx_spec {x : Int} (hx : T.IsLabel x) : vtx vs x < vs.length ∧ x ∈ vs.getD (vtx vs x) [] := by
  obtain ⟨k1, k2, k3, k4⟩ := hT.comp.vertices_mem hv
  obtain ⟨v, hvv, hxv⟩ := k1 x hx
  have hlt : vtx vs x < vs.length := List.findIdx_lt_length.2 ⟨v, hvv, by simpa using hxv⟩
  refine ⟨hlt, ?_⟩
  have := List.findIdx_getElem (xs := vs) (p := fun v => decide (x ∈ v)) (w := hlt)
  rw [List.getD, List.getElem?_eq_getElem hlt, Option.getD_some]
  exact of_decide_eq_true this

theorem vtx_sv {x y : Int} (hx : T.IsLabel x) (hy : T.IsLabel y) : vtx vs x = vtx vs y ↔ T.SV x y := by
  obtain ⟨k1, k2, k3, k4⟩ := hT.comp.vertices_mem hv
  obtain ⟨l1, m1⟩ := vtx_spec hT hv hx
  obtain ⟨l2, m2⟩ := vtx_spec hT hv hy
  rw [List.getD, List.getElem?_eq_getElem l1, Option.getD_some] at m1
  rw [List.getD, List.getElem?_eq_getElem l2, Option.getD_some] at m2
  constructor
  · intro h
    refine ⟨vs[vtx vs x], hT.comp.vertexOf_of_mem hv (List.getElem_mem _) m1, ?_⟩
    simp only [h]; exact m2
  · rintro ⟨w, h1, h2⟩
    rw [hT.comp.vertexOf_of_mem hv (List.getElem_mem l1) m1] at h1
    cases h1
    have := k3 _ (List.getElem_mem l1) _ (List.getElem_mem l2) y h2 m2
    exact (hT.comp.nodup_vertices hv).getElem_inj_iff.1 this

theorem vtx_glues {a b c : Int} (h : T.Glues a b c) : vtx vs a = vtx vs (inv c) := by
  obtain ⟨la, lb, lc⟩ := hT.comp.label_of_glues h
  rw [vtx_sv hT hv la (isLabel_inv.2 lc)]
  exact hT.comp.sv_glues (b := b) (by rwa [inv_inv])

omit hT hv in
theorem Split.isLabel_iff (hs : Split T ch T') {e : Int} : T'.IsLabel e ↔ T.IsLabel e ∨ ∃ (i : Nat) (t : Tri), (T.triangles.filter (· ∈ ch))[i]? = some t ∧
    (norm e = (T.zeta : Int) + 3 * i ∨ norm e = (T.zeta : Int) + 3 * i + 1 ∨ norm e = (T.zeta : Int) + 3 * i + 2) := by
  constructor
  · intro h
    unfold IsLabel at h ⊢
    rw [hs.zeta] at h
    by_cases ho : norm e < T.zeta
    · left; unfold norm inv at ho; omega
    · right
      have hi : ((norm e - T.zeta) / 3).toNat < (T.triangles.filter (· ∈ ch)).length := by unfold norm inv at *; omega
      refine ⟨_, _, List.getElem?_eq_getElem hi, ?_⟩
      omega
  · rintro (h | ⟨i, t, hi, h⟩)
    · exact hs.label h
    · have : i < (T.triangles.filter (· ∈ ch)).length := by
        by_contra hc
        rw [List.getElem?_eq_none (by omega)] at hi; cases hi
      unfold IsLabel
      rw [hs.zeta]
      unfold norm inv at h
      push_cast
      omega

omit hT hv in
theorem tailOf_old {z : Nat} {C : List Tri} {x : Int} (h : norm x < z) : tailOf vs z C x = vtx vs x := by
  unfold tailOf; rw [if_pos h]

omit hT hv in
theorem tailOf_new {z : Nat} {C : List Tri} {i : Nat} {t : Tri} (hi : C[i]? = some t) :
    tailOf vs z C ((z : Int) + 3 * i) = vs.length + i ∧ tailOf vs z C ((z : Int) + 3 * i + 1) = vs.length + i ∧ tailOf vs z C ((z : Int) + 3 * i + 2) = vs.length + i ∧
    tailOf vs z C (inv ((z : Int) + 3 * i)) = vtx vs t.z ∧ tailOf vs z C (inv ((z : Int) + 3 * i + 1)) = vtx vs t.x ∧ tailOf vs z C (inv ((z : Int) + 3 * i + 2)) = vtx vs t.y := by
  have hd : C.getD i ⟨0, 0, 0⟩ = t := by rw [List.getD, hi, Option.getD_some]
  have n0 : norm ((z : Int) + 3 * i) = (z : Int) + 3 * i := norm_of_nonneg (by omega)
  have n1 : norm ((z : Int) + 3 * i + 1) = (z : Int) + 3 * i + 1 := norm_of_nonneg (by omega)
  have n2 : norm ((z : Int) + 3 * i + 2) = (z : Int) + 3 * i + 2 := norm_of_nonneg (by omega)
  have q0 : (((z : Int) + 3 * i - z) / 3).toNat = i := by omega
  have q1 : (((z : Int) + 3 * i + 1 - z) / 3).toNat = i := by omega
  have q2 : (((z : Int) + 3 * i + 2 - z) / 3).toNat = i := by omega
  unfold tailOf
  simp only [norm_inv, n0, n1, n2, q0, q1, q2, hd]
  refine ⟨?_, ?_, ?_, ?_, ?_, ?_⟩
  · rw [if_neg (by omega), if_pos (by omega)]
  · rw [if_neg (by omega), if_pos (by omega)]
  · rw [if_neg (by omega), if_pos (by omega)]
  · rw [if_neg (by omega), if_neg (by unfold inv; omega), if_pos (by omega)]
  · rw [if_neg (by omega), if_neg (by unfold inv; omega), if_neg (by omega), if_pos (by omega)]
  · rw [if_neg (by omega), if_neg (by unfold inv; omega), if_neg (by omega), if_neg (by omega)]

theorem Split.tails (hs : Split T ch T') :
    (∀ a b c, T'.Glues a b c → tailOf vs T.zeta (T.triangles.filter (· ∈ ch)) a = tailOf vs T.zeta (T.triangles.filter (· ∈ ch)) (inv c)) ∧
    (∀ i < vs.length + (T.triangles.filter (· ∈ ch)).length, T'.IsLabel (repOf vs T.zeta i) ∧ tailOf vs T.zeta (T.triangles.filter (· ∈ ch)) (repOf vs T.zeta i) = i) ∧
    (∀ e, T'.IsLabel e → tailOf vs T.zeta (T.triangles.filter (· ∈ ch)) e < vs.length + (T.triangles.filter (· ∈ ch)).length ∧
      T'.SV e (repOf vs T.zeta (tailOf vs T.zeta (T.triangles.filter (· ∈ ch)) e))) := by
  have hc' := hs.valid.comp
  obtain ⟨k1, k2, k3, k4⟩ := hT.comp.vertices_mem hv
  have hold : ∀ {x}, T.IsLabel x → tailOf vs T.zeta (T.triangles.filter (· ∈ ch)) x = vtx vs x := by
    intro x hx
    refine tailOf_old ?_
    unfold IsLabel at hx; unfold norm inv; omega
  have hrep : ∀ i < vs.length, T.IsLabel (repOf vs T.zeta i) ∧ vtx vs (repOf vs T.zeta i) = i := by
    intro i hi
    unfold repOf
    rw [if_pos hi, List.getD, List.getElem?_eq_getElem hi, Option.getD_some]
    have hm := List.getElem_mem hi
    obtain ⟨x, l, he⟩ := List.exists_cons_of_ne_nil (k2 _ hm).1.ne
    have hx : x ∈ vs[i] := by rw [he]; simp
    have hl := (k2 _ hm).2.2 x hx
    have : vs[i].head?.getD 0 = x := by rw [he]; rfl
    rw [this]
    refine ⟨hl, ?_⟩
    obtain ⟨l1, m1⟩ := vtx_spec hT hv hl
    rw [List.getD, List.getElem?_eq_getElem l1, Option.getD_some] at m1
    exact (hT.comp.nodup_vertices hv).getElem_inj_iff.1 (k3 _ (List.getElem_mem l1) _ hm x m1 hx)
  refine ⟨?_, ?_, ?_⟩
  · intro a b c h
    generalize hτ : tailOf vs T.zeta (T.triangles.filter (· ∈ ch)) = τ at *
    have key : ∀ a b c, T'.Glues a b c → (τ a = τ (inv c) ∧ τ b = τ (inv a) ∧ τ c = τ (inv b)) := by
      refine hs.only _ ?_ ?_ ?_
      · rintro a b c ⟨h1, h2, h3⟩; exact ⟨h2, h3, h1⟩
      · intro t ht _
        have hg := glues_of_mem ht
        obtain ⟨la, lb, lc⟩ := hT.comp.label_of_glues hg
        rw [hold la, hold lb, hold lc, hold (isLabel_inv.2 la), hold (isLabel_inv.2 lb), hold (isLabel_inv.2 lc)]
        exact ⟨vtx_glues hT hv hg, vtx_glues hT hv hg.rot, vtx_glues hT hv hg.rot.rot⟩
      · intro i t hi
        have ht : t ∈ T.triangles := (List.mem_filter.1 (List.mem_of_getElem? hi)).1
        have hg := glues_of_mem ht
        obtain ⟨la, lb, lc⟩ := hT.comp.label_of_glues hg
        obtain ⟨e1, e2, e3, e4, e5, e6⟩ := tailOf_new (vs := vs) (z := T.zeta) hi
        rw [hτ] at e1 e2 e3 e4 e5 e6
        simp only [inv_inv]
        rw [e1, e2, e3, e4, e5, e6, hold la, hold lb, hold lc, hold (isLabel_inv.2 la), hold (isLabel_inv.2 lb), hold (isLabel_inv.2 lc)]
        exact ⟨⟨rfl, vtx_glues hT hv hg.rot, rfl⟩, ⟨rfl, vtx_glues hT hv hg.rot.rot, rfl⟩, ⟨rfl, vtx_glues hT hv hg, rfl⟩⟩
    exact (key a b c h).1
  · intro i hi
    by_cases h : i < vs.length
    · obtain ⟨h1, h2⟩ := hrep i h
      exact ⟨hs.label h1, by rw [hold h1, h2]⟩
    · have hj : i - vs.length < (T.triangles.filter (· ∈ ch)).length := by omega
      have hg := List.getElem?_eq_getElem hj
      have e1 := (tailOf_new (vs := vs) (z := T.zeta) hg).1
      unfold repOf
      rw [if_neg h]
      refine ⟨(hs.isLabel_iff).2 (.inr ⟨_, _, hg, .inl (norm_of_nonneg (by omega))⟩), ?_⟩
      rw [e1]; omega
  · have hsv : ∀ x, T.IsLabel x → T'.SV x (repOf vs T.zeta (vtx vs x)) := by
      intro x hx
      obtain ⟨h1, h2⟩ := hrep _ (vtx_spec hT hv hx).1
      exact hs.sv hT hx ((vtx_sv hT hv hx h1).1 h2.symm)
    intro e he
    rcases (hs.isLabel_iff).1 he with ho | ⟨i, t, hi, hn⟩
    · rw [hold ho]
      exact ⟨by have := (vtx_spec hT hv ho).1; omega, hsv e ho⟩
    · have ht : t ∈ T.triangles := (List.mem_filter.1 (List.mem_of_getElem? hi)).1
      have hg := glues_of_mem ht
      obtain ⟨la, lb, lc⟩ := hT.comp.label_of_glues hg
      have hi' : i < (T.triangles.filter (· ∈ ch)).length := by
        by_contra hcc
        rw [List.getElem?_eq_none (by omega)] at hi; cases hi
      obtain ⟨e1, e2, e3, e4, e5, e6⟩ := tailOf_new (vs := vs) (z := T.zeta) hi
      obtain ⟨g1, g2, g3⟩ := hs.split i t hi
      have r1 : repOf vs T.zeta (vs.length + i) = (T.zeta : Int) + 3 * i := by
        unfold repOf; rw [if_neg (by omega)]; simp
      have lab := fun x h => (hs.isLabel_iff (e := x)).2 (.inr ⟨i, t, hi, h⟩)
      have b0 : T'.IsLabel ((T.zeta : Int) + 3 * i) := lab _ (.inl (norm_of_nonneg (by omega)))
      have b1 : T'.IsLabel ((T.zeta : Int) + 3 * i + 1) := lab _ (.inr (.inl (norm_of_nonneg (by omega))))
      have b2 : T'.IsLabel ((T.zeta : Int) + 3 * i + 2) := lab _ (.inr (.inr (norm_of_nonneg (by omega))))
      have s1 : T'.SV ((T.zeta : Int) + 3 * i + 2) ((T.zeta : Int) + 3 * i) := hc'.sv_glues g2.rot.rot
      have s2 : T'.SV ((T.zeta : Int) + 3 * i + 1) ((T.zeta : Int) + 3 * i + 2) := hc'.sv_glues g1.rot.rot
      have back : ∀ {x y : Int}, T.IsLabel x → T'.SV x y → T'.SV y (repOf vs T.zeta (vtx vs x)) := by
        intro x y hx h
        have hy := hc'.sv_label (hs.label hx) h
        exact hc'.sv_trans hy (hc'.sv_symm (hs.label hx) h) (hsv x hx)
      have hcase : ∀ k : Int, norm e = k → e = k ∨ e = inv k := by intro k hk; unfold norm inv at *; omega
      have bd : ∀ x, T.IsLabel x → vtx vs x < vs.length + (T.triangles.filter (· ∈ ch)).length := by
        intro x hx; have := (vtx_spec hT hv hx).1; omega
      rcases hn with hn | hn | hn <;> rcases hcase _ hn with rfl | rfl
      · rw [e1, r1]; exact ⟨by omega, hc'.sv_refl b0⟩
      · rw [e4]; exact ⟨bd _ lc, back lc (hc'.sv_glues (by rw [inv_inv]; exact g3))⟩
      · rw [e2, r1]; exact ⟨by omega, hc'.sv_trans b1 s2 s1⟩
      · rw [e5]; exact ⟨bd _ la, back la (hc'.sv_glues (by rw [inv_inv]; exact g1))⟩
      · rw [e3, r1]; exact ⟨by omega, s1⟩
      · rw [e6]; exact ⟨bd _ lb, back lb (hc'.sv_glues (by rw [inv_inv]; exact g2))⟩

theorem Split.numVertices (hs : Split T ch T') : T'.numVertices = .ok (vs.length + (T.triangles.filter (· ∈ ch)).length) := by
  obtain ⟨h1, h2, h3⟩ := hs.tails hT hv
  obtain ⟨ws, hw, _⟩ := hs.valid.comp.vertices_ok
  have := hs.valid.vertices_of_tails _ _ h1 h2 h3 hw
  unfold Triangulation.numVertices
  rw [hw, ← this]; rfl

end

theorem Split.joined (hs : Split T ch T') {x y : Int} (h : T.Joined x y) : T'.Joined x y := by
  have step : ∀ {a b : Int}, T.Adjacent a b → T'.Joined a b := by
    rintro a b (rfl | ⟨c, hg⟩)
    · exact .single (.inl rfl)
    · rcases hs.corner hg with h | ⟨s, t, u, k1, k2, k3⟩
      · exact .single (.inr ⟨c, h⟩)
      · refine (Relation.ReflTransGen.single (.inr ⟨t, k1⟩)).trans ?_
        refine (Relation.ReflTransGen.single (.inl rfl)).trans ?_
        rw [inv_inv]
        exact .single (.inr ⟨inv s, k2.rot.rot⟩)
  induction h with
  | refl => exact .refl
  | tail _ h ih => exact ih.trans (step h)

theorem Split.surface (hT : T.Valid) (hs : Split T ch T') {comp : List Int} {g p chi : Int} (h : T.surface = .ok [(comp, (g, p, chi))]) :
    T'.isConnected = .ok true ∧ T'.surface = .ok [(T'.labels, (g, p + (T.triangles.filter (· ∈ ch)).length, chi - (T.triangles.filter (· ∈ ch)).length))] := by
  obtain ⟨vs, cs, a1, a2, a3, _⟩ := hT.surface_spec
  obtain ⟨E, F, b1, b2, b3, b4, b5, b6, b7, b8, b9⟩ := hT.surface_exact a1 h comp g p chi (by simp)
  have hcs : cs = [comp] := by
    rw [a3] at h
    injection h with h
    have := congrArg (List.map Prod.fst) h
    simpa [Function.comp_def] using this
  subst hcs
  obtain ⟨m1, m2, m3, m4, m5⟩ := hT.comp.components_mem a2
  have hall : ∀ e, T.IsLabel e → e ∈ comp := by
    intro e he
    obtain ⟨c, hc, hec⟩ := m2 e he
    simp only [List.mem_singleton] at hc
    subst hc; exact hec
  obtain ⟨k1, k2, k3, k4⟩ := hT.comp.vertices_mem a1
  have hp : p = vs.length := by
    rw [b5]
    congr 2
    rw [List.filter_eq_self]
    intro v hv
    rw [List.all_eq_true]
    intro x hx
    simpa using hall x ((k2 v hv).2.2 x hx)
  have hz : T.zeta = E := by
    obtain ⟨cs', c1, c2, _⟩ := hT.comp.components_ok
    rw [a2] at c1; cases c1
    have := c2.length_eq
    rw [length_labels] at this
    simp only [List.flatten_cons, List.flatten_nil, List.append_nil] at this
    omega
  obtain ⟨t1, t2, t3⟩ := hs.tails hT a1
  have hjoin : ∀ e, T'.IsLabel e → ∃ x, T.IsLabel x ∧ T'.Joined e x := by
    intro e he
    rcases hs.isLabel_iff.1 he with h | ⟨i, t, hi, hn⟩
    · exact ⟨e, h, .refl⟩
    · have ht : t ∈ T.triangles := (List.mem_filter.1 (List.mem_of_getElem? hi)).1
      obtain ⟨la, lb, lc⟩ := hT.comp.label_of_glues (glues_of_mem ht)
      obtain ⟨g1, g2, g3⟩ := hs.split i t hi
      have hcase : ∀ k : Int, norm e = k → e = k ∨ e = inv k := by intro k hk; unfold norm inv at *; omega
      have j1 : ∀ {a b c}, T'.Glues a b c → T'.Joined a b := fun h => .single (.inr ⟨_, h⟩)
      rcases hn with hn | hn | hn <;> rcases hcase _ hn with rfl | rfl
      · exact ⟨_, lc, j1 g3.rot.rot⟩
      · exact ⟨_, lb, (j1 g2.rot).trans (j1 g2.rot.rot)⟩
      · exact ⟨_, la, j1 g1.rot.rot⟩
      · exact ⟨_, lc, (j1 g3.rot).trans (j1 g3.rot.rot)⟩
      · exact ⟨_, lb, j1 g2.rot.rot⟩
      · exact ⟨_, la, (j1 g1.rot).trans (j1 g1.rot.rot)⟩
  have hpos : 0 < vs.length := by omega
  have key := hs.valid.surface_of_tails (g := g.toNat) (n := vs.length + (T.triangles.filter (· ∈ ch)).length) (by omega) _ _ t1 t2 t3 (by
    intro i hi
    obtain ⟨x, hx, jx⟩ := hjoin _ (t2 i hi).1
    obtain ⟨y, hy, jy⟩ := hjoin _ (t2 0 (by omega)).1
    have hxy : T.Joined x y := (m5 comp (by simp) x (hall x hx) y).1 (hall y hy)
    have js : T'.Joined y (repOf vs T.zeta 0) := by
      have : (T'.Joined (repOf vs T.zeta 0) y) := jy
      exact this.symm
    exact (jx.trans (hs.joined hxy)).trans js) (by rw [hs.zeta]; omega)
  refine ⟨key.2.1, ?_⟩
  rw [key.2.2]
  congr 5 <;> first | omega | (push_cast; omega)

end Triangulation
end Curver
