import Verif.Spec.VertexCycles
import Verif.Proofs.TwistCode
import Verif.Proofs.Peripheral
import Verif.Proofs.UnionConn
import Verif.Props.Termination

/-!
# Vertex cycles
-/

namespace Curver
open Triangulation

theorem countP_split {α : Type _} [BEq α] [LawfulBEq α] {D : List α} {P : α → Bool} {u v : α} (huv : u ≠ v) (hu : P u = true) (hv : P v = true) (h : ∀ p ∈ D, P p = true → p = u ∨ p = v) :
    D.countP P = D.count u + D.count v := by
  induction D with
  | nil => rfl
  | cons p D ih =>
    rw [List.countP_cons, List.count_cons, List.count_cons, ih (fun q hq => h q (List.mem_cons_of_mem _ hq))]
    by_cases q : P p = true
    · rcases h p (by simp) q with rfl | rfl
      · simp [q, huv]; omega
      · simp [q, huv.symm]; omega
    · have h1 : p ≠ u := by rintro rfl; exact q hu
      have h2 : p ≠ v := by rintro rfl; exact q hv
      simp [q, h1, h2]

theorem count_zip_rotate (l : List Int) (x : Int) : l.count x = (l.zip (l.rotate 1)).countP (fun p => p.1 == x) ∧ l.count x = (l.zip (l.rotate 1)).countP (fun p => p.2 == x) := by
  have h1 : (l.zip (l.rotate 1)).map Prod.fst = l := List.map_fst_zip (by simp)
  have h2 : (l.zip (l.rotate 1)).map Prod.snd = l.rotate 1 := List.map_snd_zip (by simp)
  constructor
  · conv_lhs => rw [← h1]
    rw [List.count_eq_countP, List.countP_map]; rfl
  · have : l.count x = (l.rotate 1).count x := (List.rotate_perm l 1).symm.count_eq x
    rw [this]
    conv_lhs => rw [← h2]
    rw [List.count_eq_countP, List.countP_map]; rfl

namespace Lam
variable {L K : Lam Int}

/-- one can go from the edge `x` on to `y` along `L` -/
def Onward (L : Lam Int) (p q : Int) : Prop := ∃ y z, L.tri.Glues p y z ∧ (L.lf p ≠ 0 ∧ q = inv z ∨ L.lf y ≠ 0 ∧ q = inv y)

/-- the graph has these edges -/
theorem cycleGraph_ok (hL : L.NoArcs) : ∃ edges, L.cycleGraph = .ok edges ∧ ∀ p q, (p, q) ∈ edges ↔ L.Onward p q := by
  have hc := hL.1.1.comp
  have each : ∀ e, L.tri.IsLabel e → L.connectedTo e = .ok ((if L.lf e ≠ 0 then [inv (L.tri.nxt (L.tri.nxt e))] else []) ++ (if L.lf (L.tri.nxt e) ≠ 0 then [inv (L.tri.nxt e)] else [])) := by
    intro e he
    have hg := hc.glues_nxt he
    unfold connectedTo
    rw [hc.corner_eq hg, py_bind_ok, (hL.left he).1, py_bind_ok, rightWeight_eq hL.1 hg, ← leftWeight_eq hL.1 hg.rot, (hL.left (hc.label_of_glues hg).2.1).1, py_bind_ok]
    rfl
  refine ⟨(L.tri.labels.map (fun e => ((if L.lf e ≠ 0 then [inv (L.tri.nxt (L.tri.nxt e))] else []) ++ (if L.lf (L.tri.nxt e) ≠ 0 then [inv (L.tri.nxt e)] else [])).map (fun edgy => (e, edgy)))).flatten, ?_, ?_⟩
  · unfold cycleGraph
    rw [mapM_ok (g := fun e => ((if L.lf e ≠ 0 then [inv (L.tri.nxt (L.tri.nxt e))] else []) ++ (if L.lf (L.tri.nxt e) ≠ 0 then [inv (L.tri.nxt e)] else [])).map (fun edgy => (e, edgy)))
      (fun e he => by rw [each e (mem_labels.1 he), py_bind_ok]; rfl), py_bind_ok]
    rfl
  · intro p q
    rw [← List.flatMap_def, List.mem_flatMap]
    constructor
    · rintro ⟨e, he, h⟩
      obtain ⟨f, h1, h2⟩ := List.mem_map.1 h
      obtain ⟨rfl, rfl⟩ := Prod.mk.inj h2
      refine ⟨_, _, hc.glues_nxt (mem_labels.1 he), ?_⟩
      rw [List.mem_append] at h1
      split_ifs at h1 with q1 q2 q2 <;> simp_all
    · rintro ⟨y, z, hg, h⟩
      have lp := (hc.label_of_glues hg).1
      obtain ⟨rfl, rfl⟩ := (hc.glues_iff lp).1 hg
      refine ⟨p, mem_labels.2 lp, List.mem_map.2 ⟨q, ?_, rfl⟩⟩
      rw [List.mem_append]
      rcases h with ⟨h1, h2⟩ | ⟨h1, h2⟩
      · exact .inl (by rw [if_pos h1, h2]; simp)
      · exact .inr (by rw [if_pos h1, h2]; simp)

/-- the passages through a triangle of a closed path -/
theorem cycle_counts (hL : L.NoArcs) {cyc : List Int} (h : ∀ p ∈ cyc.zip (cyc.rotate 1), L.Onward p.1 p.2) {a b c : Int} (hg : L.tri.Glues a b c) :
    cyc.count a = (cyc.zip (cyc.rotate 1)).count (a, inv b) + (cyc.zip (cyc.rotate 1)).count (a, inv c) ∧
    cyc.count (inv a) = (cyc.zip (cyc.rotate 1)).count (b, inv a) + (cyc.zip (cyc.rotate 1)).count (c, inv a) := by
  have hc := hL.1.1.comp
  have n := hc.glues_ne hg
  have l := hc.label_of_glues hg
  constructor
  · rw [(count_zip_rotate cyc a).1]
    refine countP_split (P := fun p => p.1 == a) (u := (a, inv b)) (v := (a, inv c)) (fun e => n.2.1 (Curver.inv_inj.1 (congrArg Prod.snd e))) (beq_self_eq_true _) (beq_self_eq_true _) ?_
    rintro ⟨p, q⟩ hp e
    simp only [beq_iff_eq] at e
    subst e
    obtain ⟨y, z, g, k⟩ := h _ hp
    obtain ⟨rfl, rfl⟩ := hc.glues_unique g hg
    rcases k with ⟨-, k⟩ | ⟨-, k⟩
    · right; rw [show q = inv z from k]
    · left; rw [show q = inv y from k]
  · rw [(count_zip_rotate cyc (inv a)).2]
    refine countP_split (P := fun p => p.2 == inv a) (u := (b, inv a)) (v := (c, inv a)) (fun e => n.2.1 (congrArg Prod.fst e)) (beq_self_eq_true _) (beq_self_eq_true _) ?_
    rintro ⟨p, q⟩ hp e
    simp only [beq_iff_eq] at e
    subst e
    obtain ⟨y, z, g, k⟩ := h _ hp
    dsimp only at g k
    rcases k with ⟨-, k⟩ | ⟨-, k⟩
    · obtain rfl : a = z := inv_inj.1 k
      obtain ⟨rfl, rfl⟩ := hc.glues_unique g.rot.rot hg
      exact .inl rfl
    · obtain rfl : a = y := inv_inj.1 k
      obtain ⟨rfl, rfl⟩ := hc.glues_unique g.rot hg
      exact .inr rfl

/-- the curve along a closed path -/
theorem cycle_lam (hL : L.NoArcs) {cyc : List Int} (h : ∀ p ∈ cyc.zip (cyc.rotate 1), L.Onward p.1 p.2) : (L.tri.curveFromCutSequence cyc : Lam Int).NoArcs ∧
    ∀ x, L.tri.IsLabel x → (L.tri.curveFromCutSequence cyc : Lam Int).lf x ≠ 0 → L.lf x ≠ 0 := by
  have hc := hL.1.1.comp
  have wf : (L.tri.curveFromCutSequence cyc : Lam Int).WellFormed := ⟨hL.1.1, by simp [curveFromCutSequence, cut_length]⟩
  have W : ∀ a b c, L.tri.Glues a b c → (L.tri.curveFromCutSequence cyc : Lam Int).w a =
      ((cyc.zip (cyc.rotate 1)).count (a, inv b) + (cyc.zip (cyc.rotate 1)).count (a, inv c) + (cyc.zip (cyc.rotate 1)).count (b, inv a) + (cyc.zip (cyc.rotate 1)).count (c, inv a) : Nat) := by
    intro a b c hg
    rw [link_w cyc (hc.label_of_glues hg).1, (cycle_counts hL h hg).1, (cycle_counts hL h hg).2]
    push_cast
    ring
  have na : (L.tri.curveFromCutSequence cyc : Lam Int).NoArcs := by
    rw [noArcs_iff, consistent_iff]
    refine ⟨⟨wf, ?_⟩, ?_⟩
    · intro a b c hg _ _ _
      rw [W a b c hg, W b c a hg.rot, W c a b hg.rot.rot]
      rw [max_eq_left (Int.natCast_nonneg _), max_eq_left (Int.natCast_nonneg _), max_eq_left (Int.natCast_nonneg _), Int.even_iff]
      push_cast
      omega
    · intro a b c hg
      rw [W a b c hg, W b c a hg.rot, W c a b hg.rot.rot]
      push_cast
      omega
  refine ⟨na, ?_⟩
  intro x hx h0
  obtain ⟨y, z, hg⟩ := hc.exists_glues hx
  have hg' : (L.tri.curveFromCutSequence cyc : Lam Int).tri.Glues x y z := hg
  have := (na.lf_spec hg').2.1
  rw [W x y z hg, W y z x hg.rot, W z x y hg.rot.rot] at this
  have hpos : 0 < (cyc.zip (cyc.rotate 1)).count (x, inv z) ∨ 0 < (cyc.zip (cyc.rotate 1)).count (z, inv x) := by
    by_contra q
    push Not at q
    push_cast at this
    omega
  have n := hc.glues_ne hg
  rcases hpos with q | q
  · obtain ⟨y', z', g, k⟩ := h _ (List.count_pos_iff.1 q)
    obtain ⟨rfl, rfl⟩ := hc.glues_unique g hg
    rcases k with ⟨k, -⟩ | ⟨-, k⟩
    · exact k
    · exact absurd (inv_inj.1 k) n.2.1.symm
  · obtain ⟨y', z', g, k⟩ := h _ (List.count_pos_iff.1 q)
    obtain ⟨rfl, rfl⟩ := hc.glues_unique g hg.rot.rot
    rcases k with ⟨-, k⟩ | ⟨k, -⟩
    · exact absurd (inv_inj.1 k) n.1
    · exact k

end Lam
end Curver
