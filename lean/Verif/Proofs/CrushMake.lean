import Verif.Proofs.CrushLift
import Verif.Proofs.PachnerLam
import Verif.Proofs.HalfVertex
import Verif.Proofs.Crossing
import Verif.Proofs.Polygon
import Verif.Proofs.Vertices
import Verif.Proofs.TermUse

/-!
# Building crushes and lifts
-/

namespace Curver
open Triangulation

theorem sum_indicator (n j : Nat) (u : Int) : ((List.range n).map (fun i => if i = j then u else 0)).sum = if j < n then u else 0 := by
  induction n with
  | zero => simp
  | succ n ih =>
    rw [List.range_succ, List.map_append, List.sum_append, ih]
    simp only [List.map_cons, List.map_nil, List.sum_cons, List.sum_nil]
    split_ifs <;> omega

theorem count_norm (X : List Int) {x : Int} (hx : 0 ≤ x) : (((X.map norm).count x : Nat) : Int) = cn X x := by
  induction X with
  | nil => simp [cn]
  | cons y X ih =>
    unfold cn at ih ⊢
    rw [List.map_cons, List.count_cons, List.count_cons, List.count_cons]
    push_cast
    rw [ih]
    have : ∀ p : Prop, [Decidable p] → ((if p then 1 else 0 : Nat) : Int) = if p then 1 else 0 := by intros; split_ifs <;> rfl
    simp only [beq_iff_eq, norm, inv]
    split_ifs <;> omega

namespace Lam
variable {L M N K c s : Lam Int} {T T' : Triangulation} {a b e k t : Int} {X v : List Int} {P : Lam Int → Py LamClass}

theorem geometric_range (hN : N.WellFormed) : N.geometric = (List.range N.tri.zeta).map (fun (i : Nat) => N.w i) := by
  apply List.ext_getElem
  · simp [hN.2]
  · intro i h1 h2
    simp only [List.getElem_map, List.getElem_range]
    unfold w
    have : (norm (i : Int)).toNat = i := by unfold norm inv; omega
    rw [this, List.getElem?_eq_getElem h1]; rfl

/-- the weights of the image under the matrix -/
theorem linear_w (B : Base T a b e) (hT : T.Valid) (hN : N.WellFormed) (hz : N.tri.zeta = T.zeta) :
    ∃ g, CrushMove.linear P T (crushMatrix T.zeta b e X) N = T.lamination P g ∧ ∀ cl, LiftW N ⟨T, g, cl⟩ T b e X := by
  have nn := norm_ne B
  refine ⟨(crushMatrix T.zeta b e X).map (fun row => CrushMove.dotRow row N.geometric), ?_, fun cl => ?_⟩
  · unfold CrushMove.linear
    rw [if_neg]
    simp only [Bool.not_eq_true, List.any_eq_false]
    intro row hr
    unfold crushMatrix at hr
    obtain ⟨j, -, rfl⟩ := List.mem_map.1 hr
    simp [hN.2, hz]
  · have nb := B.labels.2.1
    have ne := B.labels.2.2
    have key : ∀ j : Nat, j < T.zeta → ((crushMatrix T.zeta b e X).map (fun row => CrushMove.dotRow row N.geometric))[j]? =
        some (cn X j * N.w b + (if (j : Int) = norm b then N.w e else N.w j)) := by
      intro j hj
      unfold crushMatrix
      rw [List.map_map, List.getElem?_map, List.getElem?_range hj]
      simp only [Option.map_some, Function.comp_apply, Option.some.injEq]
      unfold CrushMove.dotRow
      rw [geometric_range hN, hz, List.zipWith_map, List.zipWith_self]
      rw [count_norm X (by omega : (0:Int) ≤ (j:Int))]
      obtain ⟨nb', hnb⟩ : ∃ n : Nat, norm b = n := ⟨(norm b).toNat, by unfold norm inv; omega⟩
      obtain ⟨ne', hne⟩ : ∃ n : Nat, norm e = n := ⟨(norm e).toNat, by unfold norm inv; omega⟩
      have hb' : nb' < T.zeta := by
        have := idx_lt nb; rw [hnb] at this; simpa using this
      have he' : ne' < T.zeta := by
        have := idx_lt ne; rw [hne] at this; simpa using this
      have e1 : N.w b = N.w (nb' : Int) := wnorm (by rw [hnb]; unfold norm inv; omega)
      have e2 : N.w e = N.w (ne' : Int) := wnorm (by rw [hne]; unfold norm inv; omega)
      rw [hnb, hne] at nn
      have n1 : ne' ≠ nb' := by intro q; exact nn.1 (by rw [q])
      have fn : (fun i : Nat => (if (i : Int) = norm b then cn X j else if (i : Int) = norm e ∧ (j : Int) = norm b then 1 else if i = j then 1 else 0) * N.w i) =
          fun i : Nat => (if i = nb' then cn X j * N.w nb' else 0) + (if i = (if j = nb' then ne' else j) then N.w ((if j = nb' then ne' else j : Nat) : Int) else 0) := by
        funext i
        rw [hnb, hne]
        by_cases q1 : i = nb'
        · subst q1
          rw [if_pos rfl, if_pos rfl, if_neg]
          · ring
          · split_ifs with q
            · exact fun h => n1 h.symm
            · exact fun h => q h.symm
        · rw [if_neg (by omega), if_neg q1]
          by_cases q2 : j = nb'
          · rw [if_pos q2]
            by_cases q3 : i = ne'
            · subst q3; rw [if_pos ⟨rfl, by omega⟩, if_pos rfl]; ring
            · rw [if_neg (by omega), if_neg (by omega), if_neg q3]; ring
          · rw [if_neg q2, if_neg (by omega)]
            by_cases q3 : i = j
            · subst q3; simp
            · simp [q3]
      rw [fn, List.sum_map_add, sum_indicator, sum_indicator, if_pos hb', hnb, e1, e2]
      by_cases q2 : j = nb'
      · simp [q2, he']
      · rw [if_neg q2, if_pos hj, if_neg (by omega)]
    refine ⟨rfl, ⟨hT, by simp [crushMatrix]⟩, ?_⟩
    intro x hx
    have hi := idx_lt hx
    have := key _ hi
    have hnx : ((norm x).toNat : Int) = norm x := by unfold norm inv; omega
    rw [hnx] at this
    conv_lhs => unfold w
    show (List.map (fun row => CrushMove.dotRow row N.geometric) (crushMatrix T.zeta b e X))[(norm x).toNat]?.getD 0 = _
    rw [this]
    simp only [Option.getD_some]
    have nnn : norm (norm x) = norm x := by unfold norm inv; omega
    have cc : cn X (norm x) = cn X x := by
      rcases (show norm x = x ∨ norm x = inv x by unfold norm inv; omega) with q | q
      · rw [q]
      · rw [q, cn_inv]
    rw [cc, wnorm nnn]

/-- what has no arcs ends nowhere -/
theorem NoArcs.clear (hN : N.NoArcs) (hl : Loop T a b e X) (hc : Crushed T T' b e) (ht : N.tri = T') : N.Clear b e X := by
  have B := hl.fan.base
  have lab : ∀ {x}, T.IsLabel x → N.tri.IsLabel x := fun hx => by rw [ht]; exact hc.label.2 hx
  have lf0 : ∀ {x}, T.IsLabel x → 0 ≤ N.lf x := by
    intro x hx
    obtain ⟨y, z, hg⟩ := hN.1.1.comp.exists_glues (lab hx)
    exact (hN.lf_spec hg).2.2
  refine ⟨(noArcs_iff.1 hN).1, hN.nonneg (lab B.labels.2.1), lf0 (isLabel_inv.2 B.labels.2.1), fun x hx _ => hN.nonneg (lab (hl.label_mem (by simp [hx]))), fun x hx _ _ => lf0 (B.mu_label (hl.label_mem (by simp [hx])))⟩

/-- the data of a crush -/
structure Crushing (P : Lam Int → Py LamClass) (s : Lam Int) (m : CrushMove) (a b e : Int) (X : List Int) : Prop where
  short : ∃ v K, ShortAt s a b e X v K
  edge : s.parallelEdge P = .ok a
  curve : m.curve = s
  source : m.source = s.tri
  target : Crushed s.tri m.target b e
  matrix : m.matrix = crushMatrix s.tri.zeta b e X
  verts : ∃ vs, m.target.vertices = .ok vs ∧ ∀ v, v ∈ m.vertices ↔ v ∈ vs ∧ ∃ L, CrushMove.linear P s.tri m.matrix (m.target.curveFromCutSequence v) = .ok L ∧ L.isPeripheral P = .ok true

namespace Crushing
variable {m : CrushMove}

theorem loop (h : Crushing P s m a b e X) : Loop s.tri a b e X := by
  obtain ⟨_, _, h⟩ := h.short
  exact h.loop

theorem noArcs (h : Crushing P s m a b e X) : s.NoArcs := by
  obtain ⟨_, _, h⟩ := h.short
  exact h.noArcs

theorem cut (h : Crushing P s m a b e X) : Same s (s.tri.curveFromCutSequence X) := by
  obtain ⟨_, _, h⟩ := h.short
  exact ⟨rfl, h.cut⟩

/-- lifts exist -/
theorem lift_linear (h : Crushing P s m a b e X) (hP : ∀ L, ∃ c, P L = .ok c) (hN : N.Clear b e X) (ht : N.tri = m.target) :
    ∃ M, CrushMove.linear P s.tri m.matrix N = .ok M ∧ LiftW N M s.tri b e X := by
  have hz : N.tri.zeta = s.tri.zeta := by rw [ht, h.target.zeta]
  obtain ⟨g, g1, g2⟩ := linear_w (P := P) (X := X) h.loop.fan.base h.loop.valid hN.con.1 hz
  have g3 := g2 .lamination
  obtain ⟨M, m1, m2, m3⟩ := lamination_total hP (T := s.tri) (ws := g) (g3.flat hN h.loop h.target ht).1.belt.con
  refine ⟨M, by rw [h.matrix, g1, m1], ?_⟩
  obtain ⟨M1, M2, M3⟩ := M
  cases m2
  cases m3
  exact g2 _

end Crushing

theorem star_clear {m : CrushMove} (hl : Loop T a b e X) (hc : Crushed T m.target b e) (hv : m.target.Star v) : (m.target.curveFromCutSequence v : Lam Int).Clear b e X :=
  NoArcs.clear (link_noArcs hv.valid hv.ex) hl hc rfl

/-- what `crush` builds along a short curve -/
theorem crushShort_spec (hs : s.NoArcs) {m : CrushMove} (h : crushShort P s = .ok m) : ∃ a b e X, Crushing P s m a b e X := by
  unfold crushShort at h
  simp only [py_bind_eq_ok] at h
  obtain ⟨a, ha, t, ht, T', hT', l, hl, h⟩ := h
  obtain ⟨-, b, e, X, v, K, sh⟩ := parallelEdge_spec hs ha
  have hc := sh.loop.valid.comp
  rw [hc.corner_eq sh.loop.glues] at ht
  cases ht
  obtain ⟨T'', c1, c2⟩ := sh.loop.fan.base.crushed
  have : T'' = T' := by
    have := c1.symm.trans hT'
    injection this
  subst this
  rw [sh.around.around rfl] at hl
  cases hl
  unfold CrushMove.create at h
  simp only [py_bind_eq_ok] at h
  obtain ⟨_, -, p, -, _, -, q, -, _, -, _, -, _, -, vs, hvs, ps, hps, h⟩ := h
  injection h with h
  subst h
  refine ⟨a, b, e, X, ⟨v, K, sh⟩, ha, rfl, rfl, c2, rfl, vs, hvs, ?_⟩
  intro w
  constructor
  · intro hw
    simp only [List.mem_map, List.mem_filter] at hw
    obtain ⟨⟨w', p'⟩, ⟨h1, h2⟩, rfl⟩ := hw
    obtain ⟨x, x1, x2⟩ := mapM_mem_right hps h1
    simp only [py_bind_eq_ok] at x2
    obtain ⟨L, l1, r, l2, l3⟩ := x2
    injection l3 with l3
    injection l3 with l3 l4
    subst l3 l4
    refine ⟨x1, L, l1, ?_⟩
    dsimp only at h2
    rw [← h2]; exact l2
  · rintro ⟨h1, L, l1, l2⟩
    obtain ⟨y, y1, y2⟩ := mapM_mem_left hps h1
    simp only [py_bind_eq_ok] at y2
    obtain ⟨L', l1', r, l2', l3⟩ := y2
    have : L = L' := by
      have := l1.symm.trans l1'
      injection this
    subst this
    rw [l2] at l2'
    injection l2' with l2'
    injection l3 with l3
    subst l2' l3
    simp only [List.mem_map, List.mem_filter]
    exact ⟨_, ⟨y1, rfl⟩, rfl⟩

/-- it can always be built -/
theorem crushShort_total (hP : ∀ L, ∃ c, P L = .ok c) (hs : s.NoArcs) (hcl : s.cls = .curve) (ha : s.parallelEdge P = .ok a) : ∃ m, crushShort P s = .ok m := by
  obtain ⟨p1, b, e, X, v, K, sh⟩ := parallelEdge_spec hs ha
  have hc := sh.loop.valid.comp
  obtain ⟨T', c1, c2⟩ := sh.loop.fan.base.crushed
  unfold crushShort
  rw [ha, py_bind_ok, hc.corner_eq sh.loop.glues, py_bind_ok]
  dsimp only
  rw [c1, py_bind_ok, sh.around.around rfl, py_bind_ok]
  unfold CrushMove.create
  have s1 : s.isShortCurve P = .ok true := by
    unfold parallelEdge at ha
    simp only [py_bind_eq_ok] at ha
    obtain ⟨p, -, _, -, q, hq, _, hq', -⟩ := ha
    rw [pyAssert_ok_iff] at hq'
    rw [hq, hq']
  rw [hcl, p1, s1]
  obtain ⟨vs, hvs, -⟩ := c2.comp.vertices_ok
  have hm : ∃ r, vs.mapM (fun v => do
      let L ← CrushMove.linear P s.tri (crushMatrix s.tri.zeta b e (List.drop 1 (a :: X))) (T'.curveFromCutSequence v)
      let p ← L.isPeripheral P
      return (v, p)) = .ok r := by
    have key : ∀ w, ∃ r : List Int × Bool, w ∈ vs → (do
        let L ← CrushMove.linear P s.tri (crushMatrix s.tri.zeta b e (List.drop 1 (a :: X))) (T'.curveFromCutSequence w)
        let p ← L.isPeripheral P
        return (w, p)) = Except.ok r := by
      intro w
      by_cases hw : w ∈ vs
      · have st := star_of_mem c2.valid hvs hw
        have cl : (T'.curveFromCutSequence w : Lam Int).Clear b e X := NoArcs.clear (link_noArcs st.valid st.ex) sh.loop c2 rfl
        obtain ⟨g, g1, g2⟩ := linear_w (P := P) (X := X) sh.loop.fan.base sh.loop.valid cl.con.1 (show T'.zeta = s.tri.zeta from c2.zeta)
        have g3 := g2 .lamination
        have hcon := (g3.flat cl sh.loop c2 rfl).1.belt.con
        obtain ⟨M, m1, m2, m3⟩ := lamination_total hP (T := s.tri) (ws := g) hcon
        have hM : M.Consistent := by
          obtain ⟨M1, M2, M3⟩ := M
          cases m2
          cases m3
          exact ((g2 _).flat cl sh.loop c2 rfl).1.belt.con
        obtain ⟨p, hp⟩ := isPeripheral_total (P := P) hM
        refine ⟨(w, p), fun _ => ?_⟩
        rw [List.drop_one, List.tail_cons, g1, m1, py_bind_ok, hp, py_bind_ok]; rfl
      · exact ⟨(w, true), fun h => absurd h hw⟩
    choose f hf using key
    exact ⟨_, mapM_ok (g := f) (fun w hw => hf w hw)⟩
  obtain ⟨r, hr⟩ := hm
  rw [hvs]
  simp only [py_bind_ok, decide_true, pyAssert, if_true, beq_self_eq_true, Bool.not_false, hr]
  have : ((crushMatrix s.tri.zeta b e (List.drop 1 (a :: X))).length == s.tri.zeta && (crushMatrix s.tri.zeta b e (List.drop 1 (a :: X))).all (fun row => row.length == T'.zeta)) = true := by
    simp [crushMatrix, c2.zeta]
  rw [this]
  exact ⟨_, rfl⟩

end Lam
end Curver
