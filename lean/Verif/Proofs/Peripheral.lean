import Verif.Model.Peripheral
import Verif.Proofs.LamArith
import Verif.Proofs.DualWeights
import Verif.Proofs.Topology
import Verif.Props.Utilities

namespace Curver
open Triangulation
variable {R : Type} [CommRing R] [LinearOrder R] [IsStrictOrderedRing R] [Halvable R]

/-- removing arcs around the corners: `p`, `q`, `r` at the tails of the sides `a`, `b`, `c` -/
theorem TriDual.sub {a b c x y z p q r : R} (h : TriDual a b c x y z) (hp : 0 ≤ p) (hq : 0 ≤ q) (hr : 0 ≤ r)
    (hp' : p ≤ max y 0) (hq' : q ≤ max z 0) (hr' : r ≤ max x 0) :
    TriDual (a - p - q) (b - q - r) (c - r - p) (x - r) (y - p) (z - q) := by
  have P : ∀ t : R, 0 ≤ t → max t 0 = t := fun t ht => max_eq_left ht
  have N : ∀ t : R, t < 0 → max t 0 = 0 := fun t ht => max_eq_right ht.le
  rcases h with ⟨h1, h2, h3, h4, h5, h6⟩ | ⟨h1, h2, h3, h4, h5, h6⟩ | ⟨h1, h2, h3, h4, h5, h6⟩ | ⟨h1, h2, h3, h4, h5, h6⟩
  · rw [P x h1] at hr'; rw [P y h2] at hp'; rw [P z h3] at hq'
    left; refine ⟨?_, ?_, ?_, ?_, ?_, ?_⟩ <;> linarith
  · rw [N x h1] at hr'; rw [P y h2] at hp'; rw [P z h3] at hq'
    right; left; refine ⟨?_, ?_, ?_, ?_, ?_, ?_⟩ <;> linarith
  · rw [N y h1] at hp'; rw [P z h2] at hq'; rw [P x h3] at hr'
    right; right; left; refine ⟨?_, ?_, ?_, ?_, ?_, ?_⟩ <;> linarith
  · rw [N z h1] at hq'; rw [P x h2] at hr'; rw [P y h3] at hp'
    right; right; right; refine ⟨?_, ?_, ?_, ?_, ?_, ?_⟩ <;> linarith

theorem TriDual.le {a b c x y z : R} (h : TriDual a b c x y z) : max y 0 + max z 0 ≤ a := by
  have P : ∀ t : R, 0 ≤ t → max t 0 = t := fun t ht => max_eq_left ht
  have N : ∀ t : R, t < 0 → max t 0 = 0 := fun t ht => max_eq_right ht.le
  rcases h with ⟨h1, h2, h3, h4, h5, h6⟩ | ⟨h1, h2, h3, h4, h5, h6⟩ | ⟨h1, h2, h3, h4, h5, h6⟩ | ⟨h1, h2, h3, h4, h5, h6⟩
  · rw [P y h2, P z h3]; linarith
  · rw [P y h2, P z h3]; linarith
  · rw [N y h1, P z h2]; linarith
  · rw [N z h1, P y h3]; linarith

namespace Lam
variable {L M N : Lam R}

/-- `m` is the number of times `L` runs around each vertex: the least left weight, or 0 -/
structure IsMult (L : Lam R) (m : Int → R) : Prop where
  nonneg : ∀ e, L.tri.IsLabel e → 0 ≤ m e
  const : ∀ e f, L.tri.IsLabel e → L.tri.SV e f → m e = m f
  le : ∀ e x, L.tri.IsLabel e → L.leftWeight e = .ok x → m e ≤ max x 0
  attained : ∀ e, L.tri.IsLabel e → ∃ f x, L.tri.SV e f ∧ L.leftWeight f = .ok x ∧ m e = max x 0

theorem IsMult.unique {m n : Int → R} (hm : L.IsMult m) (hn : L.IsMult n) (hc : L.tri.Complete) {e : Int} (he : L.tri.IsLabel e) : m e = n e := by
  apply le_antisymm
  · obtain ⟨f, x, h1, h2, h3⟩ := hn.attained e he
    rw [h3, hm.const e f he h1]
    exact hm.le f x (hc.sv_label he h1) h2
  · obtain ⟨f, x, h1, h2, h3⟩ := hm.attained e he
    rw [h3, hn.const e f he h1]
    exact hn.le f x (hc.sv_label he h1) h2

theorem maximin_zero {l : List R} (hl : l ≠ []) : ∃ m, maximin [[0], l] = .ok m ∧ 0 ≤ m ∧ (∀ x ∈ l, m ≤ max x 0) ∧ ∃ x ∈ l, m = max x 0 := by
  rcases hm : maximin [[0], l] with err | m
  · rw [C22_maximin_error] at hm
    rcases hm.1 with h | h
    · simp at h
    · simp only [List.mem_cons, List.not_mem_nil, or_false] at h
      rcases h with h | h
      · cases h
      · exact absurd h.symm hl
  · refine ⟨m, rfl, ?_⟩
    rw [C22_maximin] at hm
    simp only [List.mem_cons, List.not_mem_nil, or_false, forall_eq_or_imp, forall_eq, exists_eq_or_imp, exists_eq_left] at hm
    obtain ⟨-, h1, h2, h3⟩ := hm
    obtain ⟨y, hy, hy'⟩ := h3
    rcases h1 with ⟨rfl, -⟩ | ⟨h1, h1'⟩
    · exact ⟨le_rfl, fun x _ => le_max_right _ _, y, hy, (max_eq_right hy').symm⟩
    · exact ⟨h2, fun x hx => (h1' x hx).trans (le_max_left _ _), m, h1, (max_eq_left h2).symm⟩

theorem leftWeight_ok (hL : L.Consistent) {e : Int} (he : L.tri.IsLabel e) : ∃ x, L.leftWeight e = .ok x := by
  obtain ⟨b, c, hg⟩ := hL.1.1.comp.exists_glues he
  rw [leftWeight_eq hL.1 hg]
  exact hL.2 b (hL.1.1.comp.label_of_glues hg).2.1

theorem vertexMultiplicity_ok (hL : L.Consistent) {v : List Int} (hv : ∀ x ∈ v, L.tri.IsLabel x) (hne : v ≠ []) :
    ∃ m, L.vertexMultiplicity v = .ok m ∧ 0 ≤ m ∧ (∀ e ∈ v, ∀ x, L.leftWeight e = .ok x → m ≤ max x 0) ∧
      ∃ e ∈ v, ∃ x, L.leftWeight e = .ok x ∧ m = max x 0 := by
  have : ∀ e, ∃ x, L.tri.IsLabel e → L.leftWeight e = .ok x := fun e => by
    by_cases h : L.tri.IsLabel e
    · obtain ⟨x, hx⟩ := leftWeight_ok hL h; exact ⟨x, fun _ => hx⟩
    · exact ⟨0, fun h' => absurd h' h⟩
  choose g hg using this
  unfold vertexMultiplicity
  rw [mapM_ok (g := g) (fun x hx => hg x (hv x hx)), py_bind_ok]
  obtain ⟨m, h1, h2, h3, h4⟩ := maximin_zero (l := v.map g) (by simpa using hne)
  refine ⟨m, h1, h2, ?_, ?_⟩
  · intro e he x hx
    have := hg e (hv e he)
    rw [hx] at this; cases this
    exact h3 _ (List.mem_map_of_mem he)
  · obtain ⟨x, hx, hm⟩ := h4
    obtain ⟨e, he, rfl⟩ := List.mem_map.1 hx
    exact ⟨e, he, _, hg e (hv e he), hm⟩

/-- the multiplicity at the tail of an edge -/
def mu (L : Lam R) (e : Int) : R :=
  match L.tri.vertexOf e with
  | .ok v => (match L.vertexMultiplicity v with
    | .ok m => m
    | .error _ => 0)
  | .error _ => 0

theorem mu_spec (hL : L.Consistent) {e : Int} {v : List Int} (he : L.tri.IsLabel e) (hv : L.tri.vertexOf e = .ok v) : L.vertexMultiplicity v = .ok (L.mu e) := by
  obtain ⟨w, _, k1, _, _, k4, k5, _, k7⟩ := hL.1.1.comp.vertexOf_ok he
  rw [hv] at k1; cases k1
  obtain ⟨m, hm, _⟩ := vertexMultiplicity_ok hL k7 k5.ne
  unfold mu
  rw [hv]; dsimp only; rw [hm]

theorem isMult_mu (hL : L.Consistent) : L.IsMult L.mu := by
  have hc := hL.1.1.comp
  have key : ∀ e, L.tri.IsLabel e → ∃ v, L.tri.vertexOf e = .ok v ∧ e ∈ v ∧ 0 ≤ L.mu e ∧ (∀ f ∈ v, ∀ x, L.leftWeight f = .ok x → L.mu e ≤ max x 0) ∧
      ∃ f ∈ v, ∃ x, L.leftWeight f = .ok x ∧ L.mu e = max x 0 := by
    intro e he
    obtain ⟨w, _, k1, _, _, k4, k5, _, k7⟩ := hc.vertexOf_ok he
    obtain ⟨m, hm, h2⟩ := vertexMultiplicity_ok hL k7 k5.ne
    have := mu_spec hL he k1
    rw [hm] at this; cases this
    exact ⟨w, k1, k4, h2⟩
  refine ⟨?_, ?_, ?_, ?_⟩
  · intro e he
    obtain ⟨v, _, _, h, _⟩ := key e he; exact h
  · rintro e f he ⟨v, h1, h2⟩
    have := hc.vertexOf_unique he h1 h2
    unfold mu
    rw [h1, this]
  · intro e x he hx
    obtain ⟨v, _, h1, _, h, _⟩ := key e he
    exact h e h1 x hx
  · intro e he
    obtain ⟨v, h0, h1, _, _, f, hf, x, hx, h⟩ := key e he
    exact ⟨f, x, ⟨v, h0, hf⟩, hx, h⟩

/-- the tail of `~a` is the tail of `b` -/
theorem IsMult.inv {m : Int → R} (hm : L.IsMult m) (hc : L.tri.Complete) {a b c : Int} (hg : L.tri.Glues a b c) : m (inv a) = m b := by
  have h : L.tri.SV b (Curver.inv a) := hc.sv_glues (b := c) (by rw [inv_inv]; exact hg.rot)
  exact (hm.const b _ (hc.label_of_glues hg).2.1 h).symm

/-- removing the peripheral part -/
theorem IsMult.remove {m : Int → R} (hL : L.Consistent) (hm : L.IsMult m) (ht : N.tri = L.tri) (hl : N.geometric.length = L.geometric.length)
    (hw : ∀ e, L.tri.IsLabel e → N.w e = L.w e - (m e + m (Curver.inv e))) :
    N.Consistent ∧ (∀ e, L.tri.IsLabel e → ∀ x, L.leftWeight e = .ok x → N.leftWeight e = .ok (x - m e)) ∧ N.IsMult (fun _ => 0) := by
  have hc := hL.1.1.comp
  have hN : N.WellFormed := ⟨by rw [ht]; exact hL.1.1, by rw [hl, ht]; exact hL.1.2⟩
  -- the weights
  have wts : ∀ a b c x y z, L.tri.Glues a b c → TriDual (max (L.w a) 0) (max (L.w b) 0) (max (L.w c) 0) x y z → L.leftWeight a = .ok y → L.leftWeight b = .ok z →
      max (N.w a) 0 = max (L.w a) 0 - m a - m b := by
    intro a b c x y z hg hd h1 h2
    have la := hc.label_of_glues hg
    rw [hw a la.1, hm.inv hc hg]
    have p1 := hm.le a y la.1 h1
    have p2 := hm.le b z la.2.1 h2
    have p3 := hm.nonneg a la.1
    have p4 := hm.nonneg b la.2.1
    have := hd.le
    rcases le_total (L.w a) 0 with h | h
    · rw [max_eq_right h] at this ⊢
      have q1 : m a = 0 := by linarith [le_max_right y 0, le_max_right z 0]
      have q2 : m b = 0 := by linarith [le_max_right y 0, le_max_right z 0]
      rw [q1, q2]; simp [h]
    · rw [max_eq_left h] at this ⊢
      rw [max_eq_left (by linarith)]; ring
  have main : ∀ a b c, L.tri.Glues a b c → ∃ x y z, L.dualWeight a = .ok x ∧ L.dualWeight b = .ok y ∧ L.dualWeight c = .ok z ∧
      N.dualWeight a = .ok (x - m c) ∧ N.dualWeight b = .ok (y - m a) ∧ N.dualWeight c = .ok (z - m b) := by
    intro a b c hg
    have la := hc.label_of_glues hg
    obtain ⟨x, hx⟩ := hL.2 a la.1
    obtain ⟨y, hy⟩ := hL.2 b la.2.1
    obtain ⟨z, hz⟩ := hL.2 c la.2.2
    refine ⟨x, y, z, hx, hy, hz, ?_⟩
    have hd := (duals_iff hL.1 hg).1 ⟨hx, hy, hz⟩
    have l1 : L.leftWeight a = .ok y := by rw [leftWeight_eq hL.1 hg, hy]
    have l2 : L.leftWeight b = .ok z := by rw [leftWeight_eq hL.1 hg.rot, hz]
    have l3 : L.leftWeight c = .ok x := by rw [leftWeight_eq hL.1 hg.rot.rot, hx]
    have hg' : N.tri.Glues a b c := by rw [ht]; exact hg
    rw [duals_iff hN hg', wts a b c x y z hg hd l1 l2, wts b c a y z x hg.rot hd.rot l2 l3, wts c a b z x y hg.rot.rot hd.rot.rot l3 l1]
    exact hd.sub (hm.nonneg a la.1) (hm.nonneg b la.2.1) (hm.nonneg c la.2.2) (hm.le a y la.1 l1) (hm.le b z la.2.1 l2) (hm.le c x la.2.2 l3)
  have left : ∀ e, L.tri.IsLabel e → ∀ x, L.leftWeight e = .ok x → N.leftWeight e = .ok (x - m e) := by
    intro e he x hx
    obtain ⟨b, c, hg⟩ := hc.exists_glues he
    obtain ⟨_, y, _, _, hy, _, _, h, _⟩ := main e b c hg
    rw [leftWeight_eq hL.1 hg, hy] at hx; cases hx
    rw [leftWeight_eq hN (show N.tri.Glues e b c by rw [ht]; exact hg), h]
  refine ⟨⟨hN, ?_⟩, left, ?_, ?_, ?_, ?_⟩
  · intro e he
    rw [ht] at he
    obtain ⟨b, c, hg⟩ := hc.exists_glues he
    obtain ⟨x, _, _, _, _, _, h, _⟩ := main e b c hg
    exact ⟨_, h⟩
  · intro e _; exact le_rfl
  · intro e f _ _; rfl
  · intro e x _ _; exact le_max_right _ _
  · intro e he
    rw [ht] at he
    obtain ⟨f, x, h1, h2, h3⟩ := hm.attained e he
    refine ⟨f, x - m f, by rw [ht]; exact h1, left f (hc.sv_label he h1) x h2, ?_⟩
    rw [← hm.const e f he h1, h3]
    rcases le_total x 0 with h | h
    · rw [max_eq_right h]; simp [h]
    · rw [max_eq_left h]; simp

/-- the combination of vertex links -/
theorem isMult_links {m : Int → R} (hM : M.WellFormed) (h0 : ∀ e, M.tri.IsLabel e → 0 ≤ m e) (hcst : ∀ e f, M.tri.IsLabel e → M.tri.SV e f → m e = m f)
    (hw : ∀ e, M.tri.IsLabel e → M.w e = m e + m (Curver.inv e)) : M.Consistent ∧ (∀ e, M.tri.IsLabel e → M.leftWeight e = .ok (m e)) ∧ M.IsMult m := by
  have hc := hM.1.comp
  have hi : ∀ a b c, M.tri.Glues a b c → m (Curver.inv a) = m b := by
    intro a b c hg
    have h : M.tri.SV b (Curver.inv a) := hc.sv_glues (b := c) (by rw [inv_inv]; exact hg.rot)
    exact (hcst b _ (hc.label_of_glues hg).2.1 h).symm
  have main : ∀ a b c, M.tri.Glues a b c → M.dualWeight a = .ok (m c) ∧ M.dualWeight b = .ok (m a) ∧ M.dualWeight c = .ok (m b) := by
    intro a b c hg
    have la := hc.label_of_glues hg
    have n1 := h0 a la.1
    have n2 := h0 b la.2.1
    have n3 := h0 c la.2.2
    rw [duals_iff hM hg, hw a la.1, hw b la.2.1, hw c la.2.2, hi a b c hg, hi b c a hg.rot, hi c a b hg.rot.rot,
      max_eq_left (by linarith), max_eq_left (by linarith), max_eq_left (by linarith)]
    left
    refine ⟨n3, n1, n2, rfl, rfl, rfl⟩
  have left : ∀ e, M.tri.IsLabel e → M.leftWeight e = .ok (m e) := by
    intro e he
    obtain ⟨b, c, hg⟩ := hc.exists_glues he
    rw [leftWeight_eq hM hg, (main e b c hg).2.1]
  refine ⟨⟨hM, ?_⟩, left, h0, hcst, ?_, ?_⟩
  · intro e he
    obtain ⟨b, c, hg⟩ := hc.exists_glues he
    exact ⟨_, (main e b c hg).1⟩
  · intro e x he hx
    rw [left e he] at hx; cases hx
    exact le_max_left _ _
  · intro e he
    exact ⟨e, m e, hc.sv_refl he, left e he, (max_eq_left (h0 e he)).symm⟩

end Lam

namespace Triangulation
variable {T : Triangulation}

theorem cut_length (s : List Int) : (T.cutSequenceIntersections s : List R).length = T.zeta := by simp [cutSequenceIntersections]

theorem link_w (v : List Int) {e : Int} (he : T.IsLabel e) :
    (T.curveFromCutSequence v : Lam R).w e = ((v.count e + v.count (inv e) : Nat) : R) := by
  have := idx_lt he
  unfold Lam.w curveFromCutSequence cutSequenceIntersections
  dsimp only
  rw [List.getElem?_map, List.getElem?_range this]
  simp only [Option.map_some, Option.getD_some, Nat.cast_inj]
  rw [Int.toNat_of_nonneg (norm_nonneg e)]
  rcases lt_or_ge e 0 with h | h
  · rw [norm_of_neg h, inv_inv, Nat.add_comm]
  · rw [norm_of_nonneg h]

namespace Complete
variable (hT : T.Complete)
include hT

/-- as many arcs as there are corners at the vertex -/
theorem link_consts {v : List Int} (hv : ∃ e, T.IsLabel e ∧ T.vertexOf e = .ok v) (e f : Int) (he : T.IsLabel e) (h : T.SV e f) : v.count e = v.count f := by
  obtain ⟨g, hg, hgv⟩ := hv
  obtain ⟨w, _, k1, _, _, k4, _, k6, _⟩ := hT.vertexOf_ok hg
  rw [hgv] at k1; cases k1
  have key : e ∈ v ↔ f ∈ v := by
    have hf := hT.sv_label he h
    constructor
    · intro hx
      have h1 := hT.vertexOf_unique hg hgv hx
      obtain ⟨u, h2, h3⟩ := h
      rw [h1] at h2; cases h2; exact h3
    · intro hx
      have h1 := hT.vertexOf_unique hg hgv hx
      obtain ⟨u, h2, h3⟩ := hT.sv_symm he h
      rw [h1] at h2; cases h2; exact h3
  rw [k6.count, k6.count]
  simp only [key]

/-- distinct vertices have distinct links -/
theorem link_inj {vs : List (List Int)} (h : T.vertices = .ok vs) {v w : List Int} (hv : v ∈ vs) (hw : w ∈ vs)
    (he : (T.cutSequenceIntersections v : List R) = T.cutSequenceIntersections w) : v = w := by
  obtain ⟨k1, k2, k3, k4⟩ := hT.vertices_mem h
  by_contra hne
  have cnt : ∀ e, T.IsLabel e → v.count e + v.count (inv e) = w.count e + w.count (inv e) := by
    intro e hl
    have h1 := link_w (R := R) v hl
    have h2 := link_w (R := R) w hl
    have : (T.curveFromCutSequence v : Lam R) = T.curveFromCutSequence w := by unfold curveFromCutSequence; rw [he]
    rw [this, h2] at h1
    exact_mod_cast h1.symm
  have dis : ∀ x, x ∈ v → x ∉ w := fun x hx hx' => hne (k3 v hv w hw x hx hx')
  -- an edge with tail at one has its head at the other
  have step : ∀ (v w : List Int), v ∈ vs → w ∈ vs → (∀ e, T.IsLabel e → v.count e + v.count (inv e) = w.count e + w.count (inv e)) → (∀ x, x ∈ v → x ∉ w) →
      ∀ x, x ∈ v → inv x ∈ w := by
    intro v w hv hw cnt dis x hx
    have hc := cnt x ((k2 v hv).2.2 x hx)
    rw [(k2 v hv).2.1.count, (k2 v hv).2.1.count, (k2 w hw).2.1.count, (k2 w hw).2.1.count, if_pos hx, if_neg (dis x hx)] at hc
    by_contra hi
    rw [if_neg hi] at hc
    omega
  have s1 := step v w hv hw cnt dis
  have s2 := step w v hw hv (fun e hl => (cnt e hl).symm) (fun x hx hx' => dis x hx' hx)
  have sv : ∀ u ∈ vs, ∀ x y, x ∈ u → T.SV x y → y ∈ u := by
    intro u hu x y hx h'
    obtain ⟨u', h1, h2⟩ := h'
    rw [hT.vertexOf_of_mem h hu hx] at h1; cases h1; exact h2
  have turn : ∀ a b c, T.Glues a b c → T.SV (inv a) b := fun a b c hg =>
    hT.sv_symm (hT.label_of_glues hg).2.1 (hT.sv_glues (b := c) (by rw [inv_inv]; exact hg.rot))
  obtain ⟨a, ha⟩ := List.exists_mem_of_ne_nil _ (k2 v hv).1.ne
  obtain ⟨b, c, hg⟩ := hT.exists_glues ((k2 v hv).2.2 a ha)
  have hb := sv w hw _ _ (s1 a ha) (turn _ _ _ hg)
  have hc := sv v hv _ _ (s2 b hb) (turn _ _ _ hg.rot)
  have hd := sv w hw _ _ (s1 c hc) (turn _ _ _ hg.rot.rot)
  exact dis a ha hd

end Complete
end Triangulation

theorem sum_count {vs : List (List Int)} (hn : vs.flatten.Nodup) {f : List Int → R} {v : List Int} {e : Int} (hv : v ∈ vs) (he : e ∈ v) :
    (vs.map (fun u => (u.count e : R) * f u)).sum = f v := by
  induction vs with
  | nil => simp at hv
  | cons u vs ih =>
    rw [List.flatten_cons, List.nodup_append] at hn
    obtain ⟨n1, n2, n3⟩ := hn
    rw [List.map_cons, List.sum_cons]
    rcases List.mem_cons.1 hv with rfl | hv
    · rw [n1.count, if_pos he]
      have : (vs.map (fun u => (u.count e : R) * f u)).sum = 0 := by
        apply List.sum_eq_zero
        intro x hx
        obtain ⟨w, hw, rfl⟩ := List.mem_map.1 hx
        rw [List.count_eq_zero_of_not_mem]
        · simp
        · intro h'
          exact n3 e he e (List.mem_flatten.2 ⟨w, hw, h'⟩) rfl
      rw [this]; simp
    · rw [ih n2 hv, List.count_eq_zero_of_not_mem]
      · simp
      · intro h'
        exact n3 e h' e (List.mem_flatten.2 ⟨v, hv, he⟩) rfl

namespace Lam
variable [IntTest R] {L : Lam R}

theorem setComponent_new {α : Type} {d : List (Lam R × α)} {K : Lam R} {x : α} (h : ∀ p ∈ d, p.1.eqv K = false) : setComponent d K x = d ++ [(K, x)] := by
  induction d with
  | nil => rfl
  | cons p d ih =>
    obtain ⟨K', u⟩ := p
    rw [setComponent, if_neg (by rw [h (K', u) (by simp)]; simp), ih (fun q hq => h q (by simp [hq]))]
    rfl

theorem peripheralFrom_ok {μ : List Int → R} : ∀ (vs : List (List Int)) (d : List (Lam R × (R × List Int))),
    (∀ v ∈ vs, L.vertexMultiplicity v = .ok (μ v)) →
    vs.Pairwise (fun v w => (L.tri.cutSequenceIntersections v : List R) ≠ L.tri.cutSequenceIntersections w) →
    (∀ p ∈ d, ∀ v ∈ vs, p.1.eqv (L.tri.curveFromCutSequence v) = false) →
    L.peripheralFrom vs d = .ok (d ++ (vs.filter (fun v => decide (0 < μ v))).map (fun v => (L.tri.curveFromCutSequence v, (μ v, v)))) := by
  intro vs
  induction vs with
  | nil => intro d _ _ _; simp [peripheralFrom]
  | cons v vs ih =>
    intro d h1 h2 h3
    rw [List.pairwise_cons] at h2
    rw [peripheralFrom, h1 v (by simp), py_bind_ok, List.filter_cons]
    by_cases hp : 0 < μ v
    · rw [if_pos hp, if_pos (by simpa using hp), setComponent_new (fun p hp => h3 p hp v (by simp)),
        ih _ (fun w hw => h1 w (by simp [hw])) h2.2]
      · simp
      · intro p hp w hw
        rw [List.mem_append] at hp
        rcases hp with hp | hp
        · exact h3 p hp w (by simp [hw])
        · simp only [List.mem_singleton] at hp
          subst hp
          simp only [eqv, curveFromCutSequence, beq_self_eq_true, Bool.true_and, beq_eq_false_iff_ne]
          exact h2.1 w hw
    · rw [if_neg hp, if_neg (by simpa using hp), ih d (fun w hw => h1 w (by simp [hw])) h2.2 (fun p hp w hw => h3 p hp w (by simp [hw]))]

theorem consistent_link {T : Triangulation} (hT : T.Valid) {v : List Int} (hv : ∃ e, T.IsLabel e ∧ T.vertexOf e = .ok v) :
    (T.curveFromCutSequence v : Lam R).Consistent ∧ (∀ e, T.IsLabel e → ∃ n : Nat, (T.curveFromCutSequence v : Lam R).dualWeight e = .ok (n : R)) := by
  have hM : (T.curveFromCutSequence v : Lam R).WellFormed := ⟨hT, cut_length v⟩
  have := isMult_links (M := (T.curveFromCutSequence v : Lam R)) (m := fun e => (v.count e : R)) hM (fun e _ => Nat.cast_nonneg _)
    (fun e f he hs => by rw [hT.comp.link_consts hv e f he hs]) (fun e he => by rw [link_w (T := T) v he, Nat.cast_add])
  refine ⟨this.1, ?_⟩
  intro e he
  obtain ⟨b, c, hg⟩ := hT.comp.exists_glues he
  have := this.2.1 c (hT.comp.label_of_glues hg).2.2
  rw [leftWeight_eq hM (show (T.curveFromCutSequence v : Lam R).tri.Glues c e b from hg.rot.rot)] at this
  exact ⟨_, this⟩

theorem isIntegral_link {T : Triangulation} (hT : T.Valid) {v : List Int} (hv : ∃ e, T.IsLabel e ∧ T.vertexOf e = .ok v) :
    (T.curveFromCutSequence v : Lam R).isIntegral = .ok true := by
  unfold isIntegral
  rw [if_pos, pyAllM_ok_iff]
  · intro e he
    obtain ⟨n, hn⟩ := (consistent_link (R := R) hT hv).2 e (mem_labels.1 he)
    rw [hn, py_bind_ok, IntTest.isInt_natCast]; rfl
  · rw [List.all_eq_true]
    intro x hx
    unfold curveFromCutSequence cutSequenceIntersections at hx
    obtain ⟨i, _, rfl⟩ := List.mem_map.1 hx
    exact IntTest.isInt_natCast _

theorem emptyLamination_w (T : Triangulation) (e : Int) : (T.emptyLamination : Lam R).w e = 0 := by
  rw [w_eq]; unfold emptyLamination
  rw [List.getElem?_replicate]
  split <;> rfl

theorem peripheralComponents_ok (hL : L.Consistent) : ∃ vs, L.tri.vertices = .ok vs ∧ ∃ μ : List Int → R, (∀ v ∈ vs, L.vertexMultiplicity v = .ok (μ v)) ∧
    (∀ v ∈ vs, ∀ e ∈ v, μ v = L.mu e) ∧
    L.peripheralComponents = .ok ((vs.filter (fun v => decide (0 < μ v))).map (fun v => (L.tri.curveFromCutSequence v, (μ v, v)))) := by
  have hc := hL.1.1.comp
  obtain ⟨vs, h, _⟩ := hc.vertices_ok
  obtain ⟨k1, k2, k3, k4⟩ := hc.vertices_mem h
  refine ⟨vs, h, ?_⟩
  have : ∀ v, ∃ m, v ∈ vs → L.vertexMultiplicity v = .ok m := fun v => by
    by_cases hv : v ∈ vs
    · obtain ⟨m, hm, _⟩ := vertexMultiplicity_ok hL (k2 v hv).2.2 (k2 v hv).1.ne
      exact ⟨m, fun _ => hm⟩
    · exact ⟨0, fun h => absurd h hv⟩
  choose μ hμ using this
  refine ⟨μ, hμ, ?_, ?_⟩
  · intro v hv e he
    have h1 := mu_spec hL ((k2 v hv).2.2 e he) (hc.vertexOf_of_mem h hv he)
    rw [hμ v hv] at h1; injection h1
  · unfold peripheralComponents
    rw [h, py_bind_ok, peripheralFrom_ok vs [] hμ]
    · rfl
    · have hn := hc.nodup_vertices h
      exact List.Pairwise.imp_of_mem (fun {v w} hv hw hne heq => hne (hc.link_inj h hv hw heq)) hn
    · intro p hp; simp at hp

theorem peripheral_ok (P : Lam R → Py LamClass) (hL : L.Consistent) : ∃ p, L.peripheral P = .ok p ∧ p.tri = L.tri ∧ p.geometric.length = L.tri.zeta ∧
    (∀ e, L.tri.IsLabel e → p.w e = L.mu e + L.mu (Curver.inv e)) ∧ (p.cls.isMultiCurve = true ∨ p = L.tri.emptyLamination) := by
  have hc := hL.1.1.comp
  obtain ⟨vs, h, μ, h1, h2, h3⟩ := peripheralComponents_ok hL
  obtain ⟨k1, k2, k3, k4⟩ := hc.vertices_mem h
  have hμ0 : ∀ v ∈ vs, 0 ≤ μ v := fun v hv => by
    obtain ⟨a, ha⟩ := List.exists_mem_of_ne_nil _ (k2 v hv).1.ne
    rw [h2 v hv a ha]
    exact (isMult_mu hL).nonneg a ((k2 v hv).2.2 a ha)
  unfold peripheral
  rw [h3, py_bind_ok]
  generalize hls : ((vs.filter (fun v => decide (0 < μ v))).map (fun v => ((L.tri.curveFromCutSequence v : Lam R), (μ v, v)))).map (fun p => (p.1, p.2.1)) = ls
  have mem : ∀ p ∈ ls, ∃ v ∈ vs, p = (L.tri.curveFromCutSequence v, μ v) := by
    intro p hp
    rw [← hls, List.map_map, List.mem_map] at hp
    obtain ⟨v, hv, rfl⟩ := hp
    exact ⟨v, (List.mem_filter.1 hv).1, rfl⟩
  have tot : ∀ i : Nat, i < L.tri.zeta → (ls.map (fun p => (p.1.geometric[i]?).getD 0 * p.2)).sum = L.mu i + L.mu (Curver.inv i) := by
    intro i hi
    have hl : L.tri.IsLabel (i : Int) := by unfold IsLabel; omega
    have e1 : (ls.map (fun p => (p.1.geometric[i]?).getD 0 * p.2)).sum = (vs.map (fun v => ((v.count (i : Int) + v.count (Curver.inv i) : Nat) : R) * μ v)).sum := by
      rw [← hls, List.map_map, List.map_map]
      clear hls mem h h1 h2 h3 k1 k2 k3 k4
      induction vs with
      | nil => rfl
      | cons v vs ih =>
        have ih := ih (fun w hw => hμ0 w (by simp [hw]))
        have hv : ((L.tri.curveFromCutSequence v : Lam R).geometric[i]?).getD 0 = ((v.count (i : Int) + v.count (Curver.inv i) : Nat) : R) := by
          have := link_w (R := R) v hl
          rw [w_eq, norm_of_nonneg (by omega), Int.toNat_natCast] at this
          exact this
        rw [List.filter_cons, List.map_cons, List.sum_cons]
        by_cases hp : 0 < μ v
        · rw [if_pos (by simpa using hp), List.map_cons, List.sum_cons, ih]
          simp only [Function.comp_apply, hv]
        · rw [if_neg (by simpa using hp), ih, le_antisymm (not_lt.1 hp) (hμ0 v (by simp)), mul_zero, zero_add]
    have e2 : (vs.map (fun v => ((v.count (i : Int) + v.count (Curver.inv i) : Nat) : R) * μ v)).sum =
        (vs.map (fun v => (v.count (i : Int) : R) * μ v)).sum + (vs.map (fun v => (v.count (Curver.inv i) : R) * μ v)).sum := by
      rw [← List.sum_map_add]
      congr 1
      apply List.map_congr_left
      intro v _
      rw [Nat.cast_add, add_mul]
    obtain ⟨v, hv, hiv⟩ := k1 _ hl
    obtain ⟨w, hw, hiw⟩ := k1 _ (isLabel_inv.2 hl)
    rw [e1, e2, sum_count k4 hv hiv, sum_count k4 hw hiw, h2 v hv _ hiv, h2 w hw _ hiw]
  have lens : ∀ p ∈ keepNonempty ls, p.1.geometric.length = L.tri.zeta := by
    intro p hp
    obtain ⟨v, hv, rfl⟩ := mem p (List.mem_filter.1 hp).1
    exact cut_length v
  unfold disjointSumDict
  rw [if_neg, if_neg]
  · by_cases he : (keepNonempty ls).isEmpty = true
    · rw [if_pos he]
      refine ⟨_, rfl, rfl, by simp [emptyLamination], ?_, .inr rfl⟩
      intro e hl
      rw [emptyLamination_w]
      have hi := idx_lt hl
      have := tot _ hi
      rw [← sum_keepNonempty ls (fun p hp => by obtain ⟨v, hv, rfl⟩ := mem p hp; exact hμ0 v hv)] at this
      rw [List.isEmpty_iff.1 he] at this
      rw [Int.toNat_of_nonneg (norm_nonneg e)] at this
      rcases lt_or_ge e 0 with h0 | h0
      · rw [norm_of_neg h0, inv_inv] at this
        rw [add_comm, ← this]; rfl
      · rw [norm_of_nonneg h0] at this
        rw [← this]; rfl
    · rw [if_neg he]
      have hne : keepNonempty ls ≠ [] := by simpa using he
      rw [pyAllM_ok_iff.2, py_bind_ok]
      · simp only [Bool.not_true, Bool.false_eq_true, if_false]
        refine ⟨_, rfl, rfl, length_weighted hne lens, ?_, ?_⟩
        · intro e hl
          have hi := idx_lt hl
          rw [w_eq]
          dsimp only
          rw [weighted_getElem? hne lens hi, Option.getD_some, sum_keepNonempty ls (fun p hp => by obtain ⟨v, hv, rfl⟩ := mem p hp; exact hμ0 v hv),
            tot _ hi, Int.toNat_of_nonneg (norm_nonneg e)]
          rcases lt_or_ge e 0 with h0 | h0
          · rw [norm_of_neg h0, inv_inv, add_comm]
          · rw [norm_of_nonneg h0]
        · left
          have hcl : ∀ p ∈ keepNonempty ls, p.1.cls = .curve := by
            intro p hp
            obtain ⟨v, hv, rfl⟩ := mem p (List.mem_filter.1 hp).1
            rfl
          dsimp only
          unfold disjointClass
          dsimp only
          rw [if_neg, if_pos]
          · split <;> rfl
          · rw [List.all_eq_true]; intro p hp; rw [hcl p hp]; rfl
          · rw [List.all_eq_true]
            intro hall
            obtain ⟨p, hp⟩ := List.exists_mem_of_ne_nil _ hne
            have := hall p hp
            rw [hcl p hp] at this; cases this
      · intro p hp
        obtain ⟨v, hv, rfl⟩ := mem p (List.mem_filter.1 hp).1
        obtain ⟨a, ha⟩ := List.exists_mem_of_ne_nil _ (k2 v hv).1.ne
        exact isIntegral_link hL.1.1 ⟨a, (k2 v hv).2.2 a ha, hc.vertexOf_of_mem h hv ha⟩
  · simp only [List.any_eq_true, decide_eq_true_eq, not_exists, not_and, not_lt]
    intro p hp
    obtain ⟨v, hv, rfl⟩ := mem p hp
    exact hμ0 v hv
  · simp only [List.any_eq_true, bne_iff_ne, ne_eq, not_exists, not_and, not_not]
    intro p hp
    obtain ⟨v, hv, rfl⟩ := mem p hp
    rfl

end Lam
end Curver
