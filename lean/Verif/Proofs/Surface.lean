import Verif.Proofs.Topology2

namespace Curver
open Triangulation
namespace Triangulation
variable {T : Triangulation}

theorem Complete.sv_joined (hT : T.Complete) {x y : Int} (hx : T.IsLabel x) (h : T.SV x y) : T.Joined x y := by
  obtain ⟨v, h1, h2⟩ := h
  obtain ⟨w, _, k1, _, _, k4, k5, _, k7⟩ := hT.vertexOf_ok hx
  rw [h1] at k1; cases k1
  exact hT.joined_vertex k5 k7 k4 h2

theorem Complete.tail_sv (hT : T.Complete) {tail : Int → Nat} (h1 : ∀ a b c, T.Glues a b c → tail a = tail (inv c)) {x y : Int} (hx : T.IsLabel x) (h : T.SV x y) :
    tail y = tail x := by
  refine hT.sv_induct hx h (fun z => tail z = tail x) rfl ?_
  intro z hz h
  rw [← h]
  exact (h1 _ _ _ (hT.glues_nxt hz)).symm

/-- counting the vertices by a labelling of the corners -/
theorem Valid.vertices_of_tails (hT : T.Valid) {n : Nat} (tail : Int → Nat) (rep : Nat → Int)
    (h1 : ∀ a b c, T.Glues a b c → tail a = tail (inv c)) (h2 : ∀ i < n, T.IsLabel (rep i) ∧ tail (rep i) = i)
    (h3 : ∀ e, T.IsLabel e → tail e < n ∧ T.SV e (rep (tail e))) {vs : List (List Int)} (a1 : T.vertices = .ok vs) : vs.length = n := by
  obtain ⟨k1, k2, k3, k4⟩ := hT.comp.vertices_mem a1
  have hsv : ∀ v ∈ vs, ∀ x ∈ v, ∀ y, y ∈ v ↔ T.SV x y := by
    intro v hv x hx y
    have := hT.comp.vertexOf_of_mem a1 hv hx
    constructor
    · exact fun h => ⟨v, this, h⟩
    · rintro ⟨w, h, h'⟩; rw [this] at h; cases h; exact h'
  have hp : (vs.map (fun v => v.head?.map tail)).Perm ((List.range n).map some) := by
    rw [List.perm_ext_iff_of_nodup]
    · intro o
      simp only [List.mem_map, List.mem_range]
      constructor
      · rintro ⟨v, hv, rfl⟩
        obtain ⟨x, l, rfl⟩ := List.exists_cons_of_ne_nil (k2 v hv).1.ne
        exact ⟨tail x, (h3 x ((k2 _ hv).2.2 x (by simp))).1, rfl⟩
      · rintro ⟨i, hi, rfl⟩
        obtain ⟨v, hv, hr⟩ := k1 _ (h2 i hi).1
        refine ⟨v, hv, ?_⟩
        obtain ⟨x, l, rfl⟩ := List.exists_cons_of_ne_nil (k2 v hv).1.ne
        have := hT.comp.tail_sv h1 (h2 i hi).1 ((hsv _ hv _ hr x).1 (by simp))
        simp [this, (h2 i hi).2]
    · refine (List.nodup_map_iff_inj_on (hT.comp.nodup_vertices a1)).2 ?_
      intro v hv w hw he
      obtain ⟨x, l, rfl⟩ := List.exists_cons_of_ne_nil (k2 v hv).1.ne
      obtain ⟨y, l', rfl⟩ := List.exists_cons_of_ne_nil (k2 w hw).1.ne
      simp only [List.head?_cons, Option.map_some, Option.some.injEq] at he
      have lx := (k2 _ hv).2.2 x (by simp)
      have ly := (k2 _ hw).2.2 y (by simp)
      have sx := (h3 x lx).2
      have sy := (h3 y ly).2
      rw [← he] at sy
      refine k3 _ hv _ hw y ?_ (by simp)
      exact (hsv _ hv x (by simp) y).2 (hT.comp.sv_trans lx sx (hT.comp.sv_symm ly sy))
    · exact List.nodup_range.map (Option.some_injective _)
  have := hp.length_eq
  simpa using this

/-- recognising a surface from a labelling of its corners by punctures -/
theorem Valid.surface_of_tails (hT : T.Valid) {g n : Nat} (hn : 0 < n) (tail : Int → Nat) (rep : Nat → Int)
    (h1 : ∀ a b c, T.Glues a b c → tail a = tail (inv c)) (h2 : ∀ i < n, T.IsLabel (rep i) ∧ tail (rep i) = i)
    (h3 : ∀ e, T.IsLabel e → tail e < n ∧ T.SV e (rep (tail e))) (h4 : ∀ i < n, T.Joined (rep i) (rep 0))
    (hz : T.zeta + 6 = 6 * g + 3 * n) :
    T.numVertices = .ok n ∧ T.isConnected = .ok true ∧ T.surface = .ok [(T.labels, ((g : Int), (n : Int), 2 - 2 * (g : Int) - n))] := by
  obtain ⟨vs, cs, a1, a2, a3, _⟩ := hT.surface_spec
  obtain ⟨k1, k2, k3, k4⟩ := hT.comp.vertices_mem a1
  obtain ⟨m1, m2, m3, m4, m5⟩ := hT.comp.components_mem a2
  have hlen : vs.length = n := hT.vertices_of_tails tail rep h1 h2 h3 a1
  have hall : ∀ x, T.IsLabel x → T.Joined (rep 0) x := by
    intro x hx
    obtain ⟨p, q⟩ := h3 x hx
    exact ((hT.comp.sv_joined hx q).trans (h4 _ p)).symm
  have h0 := (h2 0 hn).1
  obtain ⟨c, hc, h0c⟩ := m2 _ h0
  have hcs : cs = [c] := by
    have : ∀ d ∈ cs, d = c := by
      intro d hd
      obtain ⟨y, hy⟩ := List.exists_mem_of_ne_nil _ (m3 d hd).1
      exact m4 d hd c hc y hy _ h0c (hall y ((m3 d hd).2.2 y hy)).symm
    rcases cs with _ | ⟨d, _ | ⟨d', l⟩⟩
    · cases hc
    · rw [this d (by simp)]
    · have := (this d (by simp)).trans (this d' (by simp)).symm
      simp [this] at m1
  have hcl : c = T.labels := by
    obtain ⟨cs', b1, b2, b3, _⟩ := hT.comp.components_ok
    rw [a2] at b1; cases b1
    subst hcs
    simp only [List.flatten_cons, List.flatten_nil, List.append_nil] at b2
    exact b2.eq_of_pairwise (fun a b _ _ h h' => absurd h (not_lt.2 (le_of_lt h'))) (b3 c (by simp)).2.1 sorted_labels
  subst hcs hcl
  refine ⟨by unfold numVertices; rw [a1, ← hlen]; rfl, by unfold isConnected; rw [a2]; rfl, ?_⟩
  have hs := hT.surface_exact a1 a3
  rw [a3]
  have hsum := hT.comp.sum_nv a1 a2
  have hfil : (vs.filter (fun vertex => vertex.head?.any (· ∈ T.labels))).length = n := by
    rw [← hlen]
    simpa [nv] using hsum
  simp only [List.map_cons, List.map_nil]
  rw [hfil, length_labels]
  congr 1
  have : ((2 * T.zeta : Nat) : Int) / 2 = T.zeta := by omega
  rw [this]
  have hz' : (T.zeta : Int) = 3 * (2 * g + n - 2) := by omega
  have e1 : (2 - (n : Int) + (T.zeta : Int) / 3) / 2 = g := by omega
  have e2 : Int.fdiv (-(T.zeta : Int)) 3 = 2 - 2 * (g : Int) - n := by
    rw [Int.fdiv_eq_ediv_of_nonneg _ (by decide)]; omega
  rw [e1, e2]

end Triangulation
end Curver
