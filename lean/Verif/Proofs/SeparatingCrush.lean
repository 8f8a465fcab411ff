import Verif.Proofs.Separating
import Verif.Proofs.CrushEnc
import Verif.Props.Topology

/-!
# Counting the components of the crushed surface
-/

namespace Curver
open Triangulation
namespace Triangulation
variable {T T' : Triangulation} {a b e : Int} {X : List Int}

/-- what is joined afterwards was joined before -/
theorem Crushed.joined (hc : Crushed T T' b e) (h : Loop T a b e X) {x y : Int} (hj : T'.Joined x y) : T.Joined x y := by
  have B := h.fan.base
  have ab : T.Joined a b := joined_of_glues h.glues
  have be : T.Joined b e := joined_of_glues h.glues.rot
  have mu : ∀ x, T.Joined x (Lam.crushLabel b e x) := by
    intro x
    unfold Lam.crushLabel
    split_ifs with q1 q2
    · rw [q1]; exact be.symm.trans (joined_inv T b)
    · rw [q2]; exact (joined_inv T b).symm.trans be
    · exact .refl
  induction hj with
  | refl => exact .refl
  | tail _ hab ih =>
    refine ih.trans ?_
    rcases hab with rfl | ⟨c, hg⟩
    · exact joined_inv T _
    · obtain ⟨x', y', z', g', rfl, rfl, rfl⟩ := hc.back B hg
      exact ((mu x').symm.trans (joined_of_glues g')).trans (mu y')

/-- what was joined before is joined afterwards, or becomes so when the two sides of the curve are glued back -/
theorem Crushed.joined_of (hc : Crushed T T' b e) (h : Loop T a b e X) {x y : Int} (hae : T'.Joined a e) (hj : T.Joined x y) : T'.Joined x y := by
  have B := h.fan.base
  have ab : T'.Joined a b := joined_of_glues (hc.folded B)
  have be : T'.Joined b e := ab.symm.trans hae
  have mu : ∀ x, T'.Joined x (Lam.crushLabel b e x) := by
    intro x
    unfold Lam.crushLabel
    split_ifs with q1 q2
    · rw [q1]; exact be.symm.trans (joined_inv T' b)
    · rw [q2]; exact (joined_inv T' b).symm.trans be
    · exact .refl
  induction hj with
  | refl => exact .refl
  | tail _ hab ih =>
    refine ih.trans ?_
    rcases hab with rfl | ⟨c, hg⟩
    · exact joined_inv T' _
    · exact ((mu _).trans (joined_of_glues (hc.glues hg))).trans (mu _).symm

theorem length_le_of_rel {α β : Type} [DecidableEq β] {R : α → β → Prop} : ∀ {cs : List α} {ds : List β}, cs.Nodup → (∀ c ∈ cs, ∃ d ∈ ds, R c d) → (∀ c ∈ cs, ∀ c' ∈ cs, ∀ d ∈ ds, R c d → R c' d → c = c') → cs.length ≤ ds.length
  | [], _, _, _, _ => Nat.zero_le _
  | c :: cs, ds, h1, h2, h3 => by
    obtain ⟨d, d1, d2⟩ := h2 c (by simp)
    have h1' := List.nodup_cons.1 h1
    have := length_le_of_rel (R := R) (cs := cs) (ds := ds.erase d) h1'.2 (by
      intro c' hc'
      obtain ⟨d', e1, e2⟩ := h2 c' (by simp [hc'])
      refine ⟨d', ?_, e2⟩
      refine (List.mem_erase_of_ne ?_).2 e1
      rintro rfl
      exact h1'.1 (by rw [h3 c (by simp) c' (by simp [hc']) d' e1 d2 e2]; exact hc')) (by
      intro x hx y hy z hz
      exact h3 x (by simp [hx]) y (by simp [hy]) z (List.mem_of_mem_erase hz))
    have e1 := List.length_erase_of_mem d1
    have e2 := List.length_pos_of_mem d1
    simp only [List.length_cons]
    omega

/-- there is one more component exactly if the two sides of the curve are not joined any more -/
theorem Crushed.components (hc : Crushed T T' b e) (h : Loop T a b e X) {cs ds : List (List Int)} (h1 : T.components = .ok cs) (h2 : T'.components = .ok ds) :
    cs.length < ds.length ↔ ¬ T'.Joined a e := by
  obtain ⟨m1, m2, m3, m4, m5⟩ := h.valid.comp.components_mem h1
  obtain ⟨n1, n2, n3, n4, n5⟩ := hc.comp.components_mem h2
  have B := h.fan.base
  have ae : T.Joined a e := (joined_of_glues h.glues.rot.rot).symm
  constructor
  · intro q hae
    have : ds.length ≤ cs.length := length_le_of_rel (R := fun d c => ∃ x ∈ d, x ∈ c) n1 (by
        intro d hd
        obtain ⟨x, hx⟩ := List.exists_mem_of_ne_nil _ (n3 d hd).1
        obtain ⟨c, c1, c2⟩ := m2 x (hc.label.1 ((n3 d hd).2.2 x hx))
        exact ⟨c, c1, x, hx, c2⟩) (by
        rintro d hd d' hd' c hc' ⟨x, x1, x2⟩ ⟨y, y1, y2⟩
        exact n4 d hd d' hd' x x1 y y1 (hc.joined_of h hae ((m5 c hc' x x2 y).1 y2)))
    omega
  · intro hae
    obtain ⟨d0, d1, d2⟩ := n2 e (hc.label.2 B.labels.2.2)
    have : cs.length ≤ (ds.erase d0).length := length_le_of_rel (R := fun c d => ∃ x ∈ c, x ∈ d ∧ (a ∈ c → x = a)) m1 (by
        intro c hc'
        obtain ⟨x, hx, hxa⟩ : ∃ x ∈ c, a ∈ c → x = a := by
          by_cases q : a ∈ c
          · exact ⟨a, q, fun _ => rfl⟩
          · obtain ⟨x, hx⟩ := List.exists_mem_of_ne_nil _ (m3 c hc').1
            exact ⟨x, hx, fun k => absurd k q⟩
        obtain ⟨d, e1, e2⟩ := n2 x (hc.label.2 ((m3 c hc').2.2 x hx))
        refine ⟨d, (List.mem_erase_of_ne ?_).2 e1, x, hx, e2, hxa⟩
        rintro rfl
        have j := (n5 d e1 x e2 e).1 d2
        have ja := (m5 c hc' x hx a).2 ((hc.joined h j).trans ae.symm)
        rw [hxa ja] at j
        exact hae j) (by
        rintro c hc' c' hc'' d hd ⟨x, x1, x2, -⟩ ⟨y, y1, y2, -⟩
        exact m4 c hc' c' hc'' x x1 y y1 (hc.joined h ((n5 d (List.mem_of_mem_erase hd) x x2 y).1 y2)))
    have e1 := List.length_erase_of_mem d1
    have e2 := List.length_pos_of_mem d1
    omega

open Classical in
/-- the two sides of the curve are not joined exactly if the vertices have sides -/
theorem Crushed.sides_iff (hc : Crushed T T' b e) (h : Loop T a b e X) : (∃ σ, Lam.VertexSides T (T.curveFromCutSequence X : Lam Int).w σ) ↔ ¬ T'.Joined a e := by
  have B := h.fan.base
  have n := B.nes
  have nd := h.nodup
  have w : ∀ {x}, T.IsLabel x → (T.curveFromCutSequence X : Lam Int).w x = (if x ∈ X then 1 else 0) + (if inv x ∈ X then 1 else 0) := by
    intro x hx
    rw [link_w X hx]
    have : ∀ y, (X.count y : Int) = if y ∈ X then 1 else 0 := by
      intro y
      split_ifs with q
      · rw [List.count_eq_one_of_mem nd q]; rfl
      · rw [List.count_eq_zero.2 q]; rfl
    push_cast
    rw [this, this]
  constructor
  · rintro ⟨σ, s1, s2⟩ hj
    -- the colour of the triangle to the left
    let D : Int → Bool := fun x => if x = b ∨ x = inv b then xor (σ a) (decide (a ∈ X)) else xor (σ x) (decide (x ∈ X))
    have Dx : ∀ {x}, x ≠ b → x ≠ inv b → D x = xor (σ x) (decide (x ∈ X)) := by
      intro x h1 h2
      show (if _ then _ else _) = _
      rw [if_neg (by tauto)]
    have Db : D b = σ a := by
      show (if _ then _ else _) = _
      rw [if_pos (.inl rfl)]
      simp [h.a_notin]
    have Dib : D (inv b) = σ a := by
      show (if _ then _ else _) = _
      rw [if_pos (.inr rfl)]
      simp [h.a_notin]
    have Da : D a = σ a := by
      rw [Dx n.1 (fun q => B.bn (inv_eq_iff.1 q.symm))]
      simp [h.a_notin]
    have turn : ∀ {x}, T.IsLabel x → xor (σ x) (decide (x ∈ X)) = xor (σ (inv x)) (decide (inv x ∈ X)) := by
      intro x hx
      have q := s2 x hx
      rw [w hx] at q
      revert q
      by_cases q1 : x ∈ X <;> by_cases q2 : inv x ∈ X <;> simp only [q1, q2, if_true, if_false, decide_true, decide_false] <;> cases σ x <;> cases σ (inv x) <;> simp
    have step : ∀ {x y z}, T.Glues x y z → x ≠ a → x ≠ b → xor (σ x) (decide (x ∈ X)) = xor (σ z) (decide (z ∈ X)) := by
      intro x y z hg q1 q2
      rw [turn (h.valid.comp.label_of_glues hg).2.2, s1 _ _ _ hg]
      have : inv z ∈ X ↔ x ∈ X := by rw [h.next hg]; simp [q1, q2]
      simp only [this]
    have eD : D e = !σ a := by
      rw [Dx n.2.1.symm (fun q => B.bi (inv_eq_iff.1 q.symm)), turn B.labels.2.2, s1 _ _ _ h.glues]
      simp [h.inv_e_mem]
    have ib : xor (σ (inv b)) (decide (inv b ∈ X)) = D e := by
      rw [← turn B.labels.2.1, Dx n.2.1.symm (fun q => B.bi (inv_eq_iff.1 q.symm)), step h.glues.rot.rot n.2.2 n.2.1.symm]
    have gl : ∀ {x y z}, T'.Glues x y z → D x = D z := by
      intro x₀ y₀ z₀ hg₀
      obtain ⟨x, y, z, hg, rfl, rfl, rfl⟩ := hc.back B hg₀
      by_cases qa : x = a
      · subst qa
        rw [(h.valid.comp.glues_unique hg h.glues).2, Base.mu_e, Base.mu_other (Ne.symm n.2.2) (fun q => B.bn (inv_eq_iff.1 q.symm)), Dib, Da]
      by_cases qb : x = b
      · subst qb
        rw [(h.valid.comp.glues_unique hg h.glues.rot).2, Base.mu_other n.2.1 (Curver.inv_ne x).symm, Base.mu_other (Ne.symm n.2.2) (fun q => B.bn (inv_eq_iff.1 q.symm)), Db, Da]
      by_cases qe : x = e
      · subst qe
        rw [(h.valid.comp.glues_unique hg h.glues.rot.rot).2, Base.mu_e, Base.mu_other n.2.1 (Curver.inv_ne b).symm, Db, Dib]
      have o := B.other hg ⟨qa, qb, qe⟩
      have m : ∀ {y}, y ≠ b → y ≠ e → D (Lam.crushLabel b e y) = xor (σ y) (decide (y ∈ X)) := by
        intro y q1 q2
        by_cases q : y = inv b
        · rw [q, B.mu_ib, ib]
        · rw [Base.mu_other q2 q, Dx q1 q]
      rw [m qb qe, m o.2.2.1 o.2.2.2, step hg qa qb]
    have key : ∀ {x y}, T'.IsLabel x → T'.Joined x y → D x = D y := by
      intro x y hx hj
      induction hj with
      | refl => rfl
      | @tail u v huv hab ih =>
        rw [ih]
        have hu := hc.comp.joined_isLabel huv hx
        rcases hab with rfl | ⟨c, hg⟩
        · by_cases q1 : u = b
          · rw [q1, Db, Dib]
          by_cases q2 : u = inv b
          · rw [q2, Curver.inv_inv, Db, Dib]
          rw [Dx q1 q2, Dx (fun q => q2 (inv_eq_iff.1 q)) (fun q => q1 (inv_inj.1 q)), turn (hc.label.1 hu)]
        · exact (gl hg.rot).symm
    have := key (hc.label.2 B.labels.1) hj
    rw [Da, eD] at this
    cases q : σ a <;> simp [q] at this
  · intro hj
    let ρ : Int → Int := fun x => if x ∈ X then a else if x = inv b then e else x
    refine ⟨fun x => decide (T'.Joined a (ρ x)), ?_, ?_⟩
    · intro x y z hg
      have hx := (h.valid.comp.label_of_glues hg).1
      have sv : T.SV x (inv z) := h.valid.comp.sv_glues (by rw [Curver.inv_inv]; exact hg)
      have sv' : T'.SV (ρ x) (ρ (inv z)) := hc.sv_old h hx sv
      have hl : T'.IsLabel (ρ x) := by
        rw [hc.label]
        show T.IsLabel (if _ then _ else _)
        split_ifs
        · exact h.sweep.label
        · exact B.labels.2.2
        · exact hx
      have j := hc.comp.sv_joined hl sv'
      have : T'.Joined a (ρ x) ↔ T'.Joined a (ρ (inv z)) := ⟨fun q => q.trans j, fun q => q.trans j.symm⟩
      simp only [this]
    · intro x hx
      rw [w hx]
      have key : ∀ {x}, T.IsLabel x → x ∈ X → inv x ∉ X → ¬ T'.Joined a (ρ (inv x)) := by
        intro x hx q1 q2 k
        have e1 : ρ (inv x) = if inv x = inv b then e else inv x := by
          show (if _ then _ else _) = _
          rw [if_neg q2]
        rw [e1] at k
        by_cases q3 : x = b
        · rw [q3, if_pos rfl] at k
          exact hj k
        rw [if_neg (fun q => q3 (inv_inj.1 q))] at k
        have r := hc.sv_right h q1
        rw [if_neg (fun q => q2 (by rw [q, Curver.inv_inv]; exact h.b_mem)), if_neg q3] at r
        exact hj ((k.trans (joined_inv T' x).symm).trans ((hc.comp.sv_joined (hc.label.2 hx) r).trans (joined_inv T' e).symm))
      have one : ∀ {x}, x ∈ X → T'.Joined a (ρ x) := by
        intro x q
        have : ρ x = a := if_pos q
        rw [this]
        exact .refl
      by_cases q1 : x ∈ X <;> by_cases q2 : inv x ∈ X
      · simp [q1, q2, one q1, one q2]
      · simp [q1, q2, one q1, key hx q1 q2]
      · have := key (isLabel_inv.2 hx) q2 (by rwa [Curver.inv_inv])
        rw [Curver.inv_inv] at this
        simp [q1, q2, one q2, this]
      · have e1 : ρ x = x := by
          show (if _ then _ else _) = _
          rw [if_neg q1, if_neg (fun q => q2 (by rw [q, Curver.inv_inv]; exact h.b_mem))]
        have e2 : ρ (inv x) = inv x := by
          show (if _ then _ else _) = _
          rw [if_neg q2, if_neg (fun q => q1 (by rw [inv_inj.1 q]; exact h.b_mem))]
        have : T'.Joined a (inv x) ↔ T'.Joined a x := ⟨fun q => q.trans (joined_inv T' x).symm, fun q => q.trans (joined_inv T' x)⟩
        simp [q1, q2, e1, e2, this]

end Triangulation

namespace Lam
variable {c s : Lam Int} {P : Lam Int → Py LamClass} {dflt : Int → Int → Bool} {n : Nat}

theorem isSeparating_spec {r : Bool} (hc : c.NoArcs) (hp : ¬ c.Peripheral) (h : c.isSeparating P dflt n = .ok r) : r = true ↔ c.Separates := by
  unfold isSeparating at h
  simp only [py_bind_eq_ok] at h
  obtain ⟨f, hf, ds, h1, cs, h2, h⟩ := h
  injection h with h
  obtain ⟨g1, g2, m, s, a, b, e, X, H⟩ := crush_spec hc hp hf
  obtain ⟨cs1, k1, k1'⟩ : ∃ cs1, s.tri.components = .ok cs1 ∧ cs1.length = cs.length := by
    obtain ⟨cs1, c1, -⟩ := H.crush.loop.valid.comp.components_ok
    obtain ⟨-, -, -, ⟨_, k, -, -, a1, a2⟩, -⟩ := C36_invariant g1 H.legal1
    rw [H.source1, h2] at a1
    rw [H.target1, c1] at a2
    injection a1 with a1
    injection a2 with a2
    exact ⟨cs1, c1, a2.trans a1.symm⟩
  obtain ⟨ds1, k2, k2'⟩ : ∃ ds1, m.target.components = .ok ds1 ∧ ds1.length = ds.length := by
    obtain ⟨ds1, c1, -⟩ := H.crush.target.comp.components_ok
    obtain ⟨-, -, -, ⟨_, k, -, -, a1, a2⟩, -⟩ := C36_invariant g2 H.legal2
    rw [H.source2, c1] at a1
    rw [show g2.target = f.target from by rw [H.eq], h1] at a2
    injection a1 with a1
    injection a2 with a2
    exact ⟨ds1, c1, a1.trans a2.symm⟩
  rw [← h, ← k1', ← k2', decide_eq_true_eq, H.crush.target.components H.crush.loop k1 k2, ← H.crush.target.sides_iff H.crush.loop]
  obtain ⟨K, a1, a2⟩ := H.acts
  have cut := H.crush.cut
  constructor
  · intro q
    have q1 : Separates (s.tri.curveFromCutSequence X) := q
    have q2 := (q1.same cut.symm).same a2.symm
    exact q2.enc (H.legal1.noArcs hc a1) H.legal1.inv' (H.legal1.undo hc.1 a1).2.2.2
  · intro q
    exact ((q.enc hc H.legal1 a1).same a2).same cut

end Lam
end Curver
