import Verif.Proofs.Boundary2
import Verif.Proofs.UnionLink

/-!
# The curves around a multiarc that runs along edges
-/

namespace Curver
open Triangulation

namespace Triangulation
variable {T : Triangulation} {U V p : List Int}

/-- the vertex at the tail is on a used edge -/
def Touched (T : Triangulation) (U : List Int) (x : Int) : Prop := ∃ y, T.SV x y ∧ y ∈ U

theorem Touched.sv (hT : T.Valid) {x y : Int} (hx : T.IsLabel x) (h : T.SV x y) : T.Touched U x ↔ T.Touched U y := by
  have hc := hT.comp
  constructor
  · rintro ⟨z, z1, z2⟩
    exact ⟨z, hc.sv_trans (hc.sv_label hx h) (hc.sv_symm hx h) z1, z2⟩
  · rintro ⟨z, z1, z2⟩
    exact ⟨z, hc.sv_trans hx h z1, z2⟩

theorem Touched.glues (hT : T.Valid) {a b c : Int} (hg : T.Glues a b c) : T.Touched U a ↔ T.Touched U (inv c) := by
  have hc := hT.comp
  exact Touched.sv hT (hc.label_of_glues hg).1 (hc.sv_glues (b := b) (by rw [Curver.inv_inv]; exact hg))

/-- the edges that are passed are the unused ones that start at a touched vertex -/
theorem passed_iff (hT : T.Valid) (hU : Sym U) (hUl : ∀ x ∈ U, T.IsLabel x) (hl : ∀ x ∈ p, T.IsLabel x) (hf : ∀ x ∈ p, x ∉ U) (hp : ∀ x ∈ p, T.around1 U x ∈ p)
    (hs : ∀ x, T.IsLabel x → x ∉ U → T.nxt (T.nxt x) ∈ U → x ∈ p)
    (hQ : ∀ Q : Int → Prop, (∀ x, T.IsLabel x → x ∉ U → Q x → Q (T.around1 U x)) → (∀ x, T.IsLabel x → x ∉ U → T.nxt (T.nxt x) ∈ U → Q x) → ∀ x ∈ p, Q x) {x : Int} (hx : T.IsLabel x) :
    x ∈ p ↔ x ∉ U ∧ T.Touched U x := by
  have hc := hT.comp
  constructor
  · intro h
    refine ⟨hf x h, hQ (T.Touched U) ?_ ?_ x h⟩
    · intro e le _ he
      have hg := hc.glues_nxt le
      unfold around1
      split
      · exact (Touched.glues hT hg).1 he
      · rename_i q
        rw [not_not, ← hU] at q
        rw [← Touched.glues hT hg.rot.rot]
        exact ⟨_, hc.sv_refl (hc.label_of_glues hg).2.2, q⟩
    · intro e le _ he
      have hg := hc.glues_nxt le
      rw [Touched.glues hT hg]
      exact ⟨_, hc.sv_refl (isLabel_inv.2 (hc.label_of_glues hg).2.2), (hU _).1 he⟩
  · rintro ⟨h1, y, h2, h3⟩
    by_contra hx'
    -- otherwise the whole vertex is unused
    have : y ∉ U ∧ y ∉ p := by
      refine hc.sv_induct hx h2 (fun z => z ∉ U ∧ z ∉ p) ⟨h1, hx'⟩ (fun z lz hz => ?_)
      have hg := hc.glues_nxt lz
      have e : T.spin z = inv (T.nxt (T.nxt z)) := rfl
      have u1 : T.nxt (T.nxt z) ∉ U := fun q => hz.2 (hs z lz hz.1 q)
      rw [e]
      refine ⟨fun q => u1 ((hU _).2 q), fun q => hz.2 ((passed_none hT hU hl hf hp hg hz.1 u1).2 q)⟩
    exact this.1 h3

end Triangulation

namespace Lam
variable {L K s X Y S B M : Lam Int} {U p : List Int}

theorem DisjointFrom.tri (hd : X.DisjointFrom s) : X.tri = s.tri := by
  obtain ⟨S, _, hu⟩ := hd
  exact hu.wf.2.2.1.trans hu.wf.2.2.2.symm

open Classical in
/-- everything about the boundary of a multiarc that runs along edges -/
theorem outline_exists (hs : s.Consistent) (hle : ∀ x, s.tri.IsLabel x → s.w x ≤ 0) :
    ∃ V g, (s.negativeOn s.tri.labels >>= s.tri.neighbourhood) = .ok V ∧ s.tri.boundaryWeights V = .ok g ∧ g.length = s.tri.zeta ∧
      ∀ B : Lam Int, B.tri = s.tri → B.geometric = g → B.NoArcs ∧ B.IsOutline s ∧ B.DisjointFrom s ∧ (∀ M : Lam Int, M.NoArcs → M.DisjointFrom s → B.DisjointFrom M) ∧
        ∀ x, s.tri.IsLabel x → (s.Sheltered x ↔ x ∈ V) := by
  have hT := hs.1.1
  have hc := hT.comp
  rw [negativeOn_ok hs.1 (fun x hx => mem_labels.1 hx), py_bind_ok]
  set U := s.tri.labels.filter (fun x => decide (s.w x < 0)) with hU
  have mU : ∀ x, x ∈ U ↔ s.tri.IsLabel x ∧ s.w x < 0 := fun x => by rw [hU, List.mem_filter, mem_labels, decide_eq_true_eq]
  obtain ⟨V, v1, v2, v3, v4, v5, v6⟩ := neighbourhood_spec hT (U := U) (fun x => by rw [mU, mU, isLabel_inv, w_inv]) (fun x hx => ((mU x).1 hx).1)
  obtain ⟨g, p, g1, g2, g3, g4, g5⟩ := boundaryWeights_spec hT v3 v5
  refine ⟨V, g, v1, g1, g2.length, fun B b1 b2 => ?_⟩
  have tT : ∀ x, s.tri.IsLabel x → (s.tri.Touched V x ↔ s.EndsAt x) := by
    intro x hx
    constructor
    · rintro ⟨y, y1, y2⟩
      have := v6 (fun z => s.tri.IsLabel z ∧ s.tri.Touched U z ∧ s.tri.Touched U (Curver.inv z)) (fun z hz => ⟨isLabel_inv.2 hz.1, hz.2.2, by rw [Curver.inv_inv]; exact hz.2.1⟩)
        (fun a b c hg ha hb => ⟨(hc.label_of_glues hg).2.2, (Touched.glues hT hg.rot.rot).2 hb.2.2, (Touched.glues hT hg).1 ha.2.1⟩)
        (fun z hz => ⟨((mU z).1 hz).1, ⟨z, hc.sv_refl ((mU z).1 hz).1, hz⟩, ⟨Curver.inv z, hc.sv_refl (isLabel_inv.2 ((mU z).1 hz).1), by rw [mU, isLabel_inv, w_inv, ← mU]; exact hz⟩⟩) y y2
      obtain ⟨z, ⟨v, z1, z2⟩, z3⟩ := (Touched.sv hT hx y1).2 this.2.1
      exact ⟨v, z1, z, z2, ((mU z).1 z3).2⟩
    · rintro ⟨v, y1, y, y2, y3⟩
      have hsv : s.tri.SV x y := ⟨v, y1, y2⟩
      exact ⟨y, hsv, v2 y ((mU y).2 ⟨hc.sv_label hx hsv, y3⟩)⟩
  have pI : ∀ x, s.tri.IsLabel x → (x ∈ p ↔ x ∉ V ∧ s.EndsAt x) := fun x hx => by
    rw [passed_iff hT v3 v4 g2.label g2.free g3 g4 g5 hx, tT x hx]
  have wB : B.WellFormed := ⟨by rw [b1]; exact hT, by rw [b2, b1]; exact g2.length⟩
  have hA : B.Around V p := by
    refine ⟨wB, v3, by rw [b1]; exact v5, by rw [b1]; exact g2.label, g2.free, by rw [b1]; exact g3, by rw [b1]; exact g4, fun x hx => ?_⟩
    rw [b1] at hx
    have hlt := idx_lt hx
    have hn : (0 : Int) ≤ norm x := by unfold norm Curver.inv; omega
    have := g2.count _ hlt
    unfold Lam.w
    rw [b2, this, show (((norm x).toNat : Nat) : Int) = norm x by omega]
    by_cases q0 : 0 ≤ x
    · rw [show norm x = x by unfold norm Curver.inv; omega]; rfl
    · rw [show norm x = Curver.inv x by unfold norm Curver.inv; omega, Curver.inv_inv, add_comm]; rfl
  have zero : ∀ M : Lam Int, M.NoArcs → M.DisjointFrom s → ∀ x ∈ V, M.w x = 0 := by
    intro M hM hd
    refine v6 (fun z => M.w z = 0) (fun z hz => by rw [w_inv]; exact hz) (fun a b c hg ha hb => ?_) (fun z hz => hd.zero hM ((mU z).1 hz).1 ((mU z).1 hz).2)
    have := (noArcs_iff.1 hM).2 c a b (by rw [hd.tri]; exact hg.rot.rot)
    omega
  have dB : B.DisjointFrom s := by
    refine disjoint_of_support hA.noArcs hs b1 hle (fun x hx px => ?_)
    by_contra hne
    have hxU : x ∈ V := v2 x ((mU x).2 ⟨hx, lt_of_le_of_ne (hle x hx) hne⟩)
    have := (hA.zero (by rw [b1]; exact hx) hxU).2.2
    omega
  have hwt : ∀ x, s.tri.IsLabel x → x ∉ V → B.w x = (if s.EndsAt x then 1 else 0) + (if s.EndsAt (Curver.inv x) then 1 else 0) := by
    intro x hx hV
    have hV' : Curver.inv x ∉ V := fun h => hV ((v3 x).2 h)
    rw [hA.weight x (by rw [b1]; exact hx)]
    have e1 : x ∈ p ↔ s.EndsAt x := by rw [pI x hx]; tauto
    have e2 : Curver.inv x ∈ p ↔ s.EndsAt (Curver.inv x) := by rw [pI _ (isLabel_inv.2 hx)]; tauto
    have cg : ∀ (A C : Prop) [Decidable A] [Decidable C], (A ↔ C) → (if A then (1 : Int) else 0) = if C then 1 else 0 := by
      intro A C _ _ h
      by_cases q : A
      · rw [if_pos q, if_pos (h.1 q)]
      · rw [if_neg q, if_neg (fun c => q (h.2 c))]
    rw [cg _ _ e1, cg _ _ e2]
  have sh : ∀ x, s.tri.IsLabel x → (s.Sheltered x ↔ x ∈ V) := by
    intro x hx
    constructor
    · intro h
      by_contra hV
      have h0 := h B hA.noArcs dB
      rw [hwt x hx hV] at h0
      by_cases q : s.EndsAt x
      · rw [if_pos q] at h0; split_ifs at h0 <;> omega
      · -- the curve around the vertex at the tail
        obtain ⟨v, _, k1, _, _, k4, _⟩ := hc.vertexOf_ok hx
        have hst : s.tri.Star v := ⟨hT, x, hx, k1⟩
        have hw : ∀ y, s.tri.IsLabel y → (s.tri.curveFromCutSequence v : Lam Int).w y = ((v.count y + v.count (Curver.inv y) : Nat) : Int) := fun y hy => link_w v hy
        have hN : (s.tri.curveFromCutSequence v : Lam Int).NoArcs := link_noArcs hT ⟨x, hx, k1⟩
        have hd : (s.tri.curveFromCutSequence v : Lam Int).DisjointFrom s := by
          refine disjoint_of_support hN hs rfl hle (fun y hy py => ?_)
          by_contra hne
          have hneg : s.w y < 0 := lt_of_le_of_ne (hle y hy) hne
          rw [hw y hy] at py
          have : y ∈ v ∨ Curver.inv y ∈ v := by
            by_contra hh
            push Not at hh
            rw [List.count_eq_zero_of_not_mem hh.1, List.count_eq_zero_of_not_mem hh.2] at py
            simp at py
          rcases this with h' | h'
          · exact q ⟨v, k1, y, h', hneg⟩
          · exact q ⟨v, k1, _, h', by rw [w_inv]; exact hneg⟩
        have := h _ hN hd
        rw [hw x hx] at this
        have := List.count_pos_iff.2 k4
        omega
    · intro h M hM hd
      exact zero M hM hd x h
  refine ⟨hA.noArcs, ⟨b1, fun x hx h => (hA.zero (by rw [b1]; exact hx) ((sh x hx).1 h)).2.2, fun x hx h => ?_⟩, dB, fun M hM hd => hA.disjoint hM (hd.tri.trans b1.symm) (zero M hM hd), sh⟩
  rw [hwt x hx (fun q => h ((sh x hx).2 q))]

end Lam
end Curver
