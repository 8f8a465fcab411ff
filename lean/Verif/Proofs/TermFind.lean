import Verif.Proofs.TermSub
import Verif.Proofs.VertexMap2

/-!
# When there is nothing left to flip or to cut, there is a component parallel to an edge
-/

namespace Curver
open Triangulation
namespace Lam
variable {L L' N : Lam Int}

/-- no curve goes round a vertex -/
def NonPer (L : Lam Int) : Prop := ∀ x, L.tri.IsLabel x → ∃ y, L.tri.SV x y ∧ L.lf y ≤ 0

theorem nonPer_iff (hL : L.Consistent) : L.NonPer ↔ L.IsMult (fun _ => 0) := by
  have hc := hL.1.1.comp
  constructor
  · intro h
    refine ⟨fun _ _ => le_rfl, fun _ _ _ _ => rfl, fun e x _ _ => le_max_right _ _, ?_⟩
    intro e he
    obtain ⟨y, h1, h2⟩ := h e he
    exact ⟨y, L.lf y, h1, hL.left (hc.sv_label he h1), (max_eq_right h2).symm⟩
  · intro h x hx
    obtain ⟨f, n, h1, h2, h3⟩ := h.attained x hx
    refine ⟨f, h1, ?_⟩
    rw [lf_eq h2]
    omega

theorem NonPer.enc (h : L.NonPer) (hL : L.Consistent) {k : Enc} (hk : k.Legal) (ht : L.tri = k.source) (ha : k.applyLam L = .ok L') : L'.NonPer := by
  obtain ⟨C, hC, hR⟩ := hk.carries
  have hL' : L'.Consistent := by
    obtain ⟨L₁, t1, t2, t3, -⟩ := hk.path.performLam_total hL ht
    rw [← Enc.applyLam_on k ht.symm, ha] at t1; cases t1
    exact t3
  rw [nonPer_iff hL] at h
  rw [nonPer_iff hL']
  exact hk.isMult hC hR hL ht ha h (fun _ _ _ => rfl) (fun _ _ _ _ => rfl)

theorem NonPer.less (h : L.NonPer) (hl : Less L N) : N.NonPer := by
  intro x hx
  rw [hl.tri] at hx
  obtain ⟨y, h1, h2⟩ := h x hx
  have := hl.lf y
  refine ⟨y, by rw [hl.tri]; exact h1, ?_⟩
  by_cases q : L.tri.IsLabel y
  · exact (hl.lf y q).trans h2
  · exact absurd (hl.cons.1.1.comp.sv_label (by rw [hl.tri]; exact hx) (by rw [hl.tri]; exact h1)) (by rw [hl.tri]; exact q)

/-- the orbit of a start is a curve around an edge -/
theorem Starts.belt {e : Int} (h : L.Starts e) (hS : L.Smooth) (hI : L.IsCut []) (hP : L.NonPer) :
    ∃ X, L.Belt (L.tri.nxt e) (L.tri.nxt (L.tri.nxt e)) e X 0 1 := by
  have hc := hS.cons.1.1.comp
  obtain ⟨he, h1, h2⟩ := h
  have hg := hc.glues_nxt he
  have l := hc.label_of_glues hg
  have k := hS.corner hg
  have hd : L.Dom e := by
    refine ⟨he, ?_⟩
    have := k.2.2.2.1
    omega
  have hlone := hI.lonely rfl e ⟨he, h1, h2⟩
  rw [rt_eq hS.cons.1 hg] at h2
  generalize L.tri.nxt e = y at *
  generalize L.tri.nxt y = z at *
  have hy : L.lf y = 0 := by omega
  have hz : L.lf z = 0 := by omega
  obtain ⟨p, hp, hch, hne⟩ := hS.orb_cons hd
  have hnd := hS.orb_nodup hd
  have hdom : ∀ x ∈ e :: p, L.Dom x := fun x hx => hS.orb_dom hd (by rw [hp]; exact hx)
  have hrt : ∀ x ∈ p, 0 < L.rt x := by
    intro x hx
    obtain ⟨i, rfl⟩ := (hS.mem_orb (x := x) hd).1 (by rw [hp]; simp [hx])
    exact hlone i (hne _ hx)
  rw [hp] at hnd
  have hpv : L.pv e = Curver.inv z := by rw [pv_eq hS.cons.1 hg, if_neg (by omega)]
  -- going on is turning
  have turn : ∀ a b, L.Dom a → b = L.nx a → 0 < L.rt b → Curver.inv b = L.tri.spin (Curver.inv a) ∧ 0 < L.lf (Curver.inv a) := by
    intro a b ha hb hr
    have hbd := hS.nx_dom ha
    rw [← hb] at hbd
    obtain ⟨u, v, hg'⟩ := hc.exists_glues hbd.1
    have e1 := hS.pv_nx ha
    rw [← hb, pv_eq hS.cons.1 hg'] at e1
    rw [rt_eq hS.cons.1 hg'] at hr
    rw [if_pos hr] at e1
    rw [← e1, Curver.inv_inv, Sweep.spin_eq hc hg'.rot]
    exact ⟨rfl, hr⟩
  have w0 : max (L.w y) 0 = 0 := by omega
  cases p with
  | nil =>
    exfalso
    simp only [List.cons_append, List.nil_append, List.isChain_cons_cons, List.isChain_singleton, and_true] at hch
    have e1 := hS.pv_nx hd
    rw [← hch, hpv] at e1
    have e2 : L.tri.spin e = e := by rw [Sweep.spin_eq hc hg, e1]
    obtain ⟨f, f1, f2⟩ := hP e he
    have := hc.sv_induct he f1 (fun u => u = e) rfl (fun u _ hu => by rw [hu, e2])
    rw [this] at f2
    omega
  | cons b p =>
    have hlast : ∀ (p : List Int) (a : Int), List.IsChain (fun a b => b = L.nx a) ((a :: p) ++ [e]) → (∀ x ∈ a :: p, L.Dom x) → (a :: p).getLast (by simp) = Curver.inv z := by
      intro p
      induction p with
      | nil =>
        intro a ha hd
        simp only [List.cons_append, List.nil_append, List.isChain_cons_cons, List.isChain_singleton, and_true] at ha
        have := hS.pv_nx (hd a (by simp))
        rw [← ha, hpv] at this
        exact this.symm
      | cons c p ih =>
        intro a ha hd
        rw [List.getLast_cons (by simp)]
        simp only [List.cons_append, List.isChain_cons_cons] at ha
        exact ih c (by simpa using ha.2) (fun x hx => hd x (by simp at hx ⊢; tauto))
    have hchain : ∀ (p : List Int) (a : Int), List.IsChain (fun a b => b = L.nx a) (a :: p) → (∀ x ∈ a :: p, L.Dom x) → (∀ x ∈ p, 0 < L.rt x) →
        List.IsChain (fun x y => y = L.tri.spin x) ((a :: p).map Curver.inv) ∧ ∀ x ∈ (a :: p).dropLast, 0 < L.lf (Curver.inv x) := by
      intro p
      induction p with
      | nil => intro a _ _ _; simp
      | cons c p ih =>
        intro a ha hd hr
        rw [List.isChain_cons_cons] at ha
        obtain ⟨i1, i2⟩ := ih c ha.2 (fun x hx => hd x (by simp at hx ⊢; tauto)) (fun x hx => hr x (by simp [hx]))
        obtain ⟨t1, t2⟩ := turn a c (hd a (by simp)) ha.1 (hr c (by simp))
        constructor
        · rw [List.map_cons, List.map_cons, List.isChain_cons_cons]
          exact ⟨t1, by rwa [List.map_cons] at i1⟩
        · intro x hx
          rw [List.dropLast_cons_cons] at hx
          rcases List.mem_cons.1 hx with rfl | hx
          · exact t2
          · exact i2 x hx
    obtain ⟨c1, c2⟩ := hchain (b :: p) e (List.isChain_append.1 hch).1 hdom hrt
    have c3 := hlast (b :: p) e hch hdom
    let X := (e :: b :: p).map Curver.inv
    have hXne : X ≠ [] := by simp [X]
    have hXlast : X.getLast hXne = z := by
      simp only [X]
      rw [List.getLast_map, c3, Curver.inv_inv]
    have hXdom : ∀ x ∈ X, L.Dom x := by
      intro x hx
      obtain ⟨u, hu, rfl⟩ := List.mem_map.1 hx
      exact ⟨isLabel_inv.2 (hdom u hu).1, by rw [w_inv]; exact (hdom u hu).2⟩
    have hyX : y ∉ X := fun q => by have := (hXdom y q).2; omega
    have hyX' : Curver.inv y ∉ X := fun q => by have := (hXdom _ q).2; rw [w_inv] at this; omega
    have hXnd : X.Nodup := hnd.map (fun a b h => inv_inj.1 h)
    have hsweep : Sweep L.tri y X := by
      refine ⟨l.2.1, ?_, List.nodup_cons.2 ⟨hyX, hXnd⟩, hyX'⟩
      have e1 : L.tri.spin y = Curver.inv e := Sweep.spin_eq hc hg.rot
      have e2 : L.tri.spin z = Curver.inv y := Sweep.spin_eq hc hg.rot.rot
      have : List.IsChain (fun x y => y = L.tri.spin x) (X ++ [Curver.inv y]) := by
        rw [List.isChain_append]
        refine ⟨c1, by simp, ?_⟩
        intro u hu v hv
        rw [List.getLast?_eq_getLast_of_ne_nil hXne, hXlast] at hu
        simp only [Option.mem_def, Option.some.injEq, List.head?_cons] at hu hv
        rw [← hu, ← hv, e2]
      have hX : X = Curver.inv e :: (b :: p).map Curver.inv := rfl
      rw [hX] at this ⊢
      rw [List.cons_append, List.isChain_cons_cons]
      exact ⟨e1.symm, this⟩
    refine ⟨X, hS.cons, ⟨hS.cons.1.1, hsweep, hg.rot, by simp [X]⟩, hy, hz, le_rfl, ?_⟩
    intro x hx hxz
    obtain ⟨u, hu, rfl⟩ := List.mem_map.1 hx
    have hu' : u ∈ (e :: b :: p).dropLast := by
      rw [← List.dropLast_append_getLast (l := e :: b :: p) (by simp), c3] at hu
      rcases List.mem_append.1 hu with q | q
      · exact q
      · exfalso
        rw [List.mem_singleton] at q
        exact hxz (by rw [q, Curver.inv_inv])
    have := c2 u hu'
    omega

/-- every corner that a strand turns about lies on such a curve -/
theorem Smooth.run (hS : L.Smooth) (hI : L.IsCut []) (hP : L.NonPer) {s : Int} (hs : L.tri.IsLabel s) (h0 : 0 < L.lf s) : ∃ f β η X, L.Belt f β η X 0 1 ∧ s ∈ X := by
  have hc := hS.cons.1.1.comp
  by_contra hno
  push Not at hno
  obtain ⟨q, q1, q2⟩ := hP s hs
  have := hc.sv_induct hs q1 (fun z => L.tri.IsLabel z ∧ 0 < L.lf z ∧ ∀ f β η X, L.Belt f β η X 0 1 → z ∈ X → s ∈ X) ⟨hs, h0, fun _ _ _ _ _ h => h⟩ (by
    rintro z hz ⟨-, z1, z2⟩
    have hsp := hc.isLabel_spin hz
    have back : ∀ f β η X, L.Belt f β η X 0 1 → L.tri.spin z ∈ X → s ∈ X := by
      intro f β η X hb hx
      rcases (hb.loop.mem_spin hz).1 hx with rfl | r
      · have := hb.first; omega
      · exact z2 f β η X hb r.1
    refine ⟨hsp, ?_, back⟩
    by_contra hn
    -- the run ends here
    obtain ⟨v, c, hg⟩ := hc.exists_glues hz
    have k := hS.corner hg
    have hb : L.tri.IsLabel (L.tri.spin z) := hsp
    have hw : 0 < L.w (L.tri.spin z) := by
      rw [Sweep.spin_eq hc hg, w_inv]; omega
    obtain ⟨e, d, hg'⟩ := hc.exists_glues hb
    have k' := hS.corner hg'
    have lg := hc.label_of_glues hg'
    have hst : L.Starts e := by
      refine ⟨lg.2.1, by omega, ?_⟩
      rw [rt_eq hS.cons.1 hg'.rot]; omega
    obtain ⟨X, hX⟩ := hst.belt hS hI hP
    rw [hc.nxt_of_glues hg'.rot, hc.nxt_of_glues hg'.rot.rot] at hX
    exact hno _ _ _ _ hX (back _ _ _ _ hX hX.loop.b_mem))
  omega

/-- the arcs and curves that the loop finds are recorded -/
theorem par_found {par : List (Lam Int × (Int × Int))} (h : L.parallelComponents = .ok par) {x : Int} (hx : L.tri.IsLabel x) :
    (∀ K k, L.parallelArc x = .ok (some (K, k)) → K.geometric ∈ keys par) ∧ ∀ K k, L.parallelCurve x = .ok (some (K, k)) → K.geometric ∈ keys par := by
  obtain ⟨-, T2, -⟩ := foldlM_all (P := fun _ => True)
    (R := fun x d => (∀ K k, L.parallelArc x = .ok (some (K, k)) → K.geometric ∈ keys d) ∧ ∀ K k, L.parallelCurve x = .ok (some (K, k)) → K.geometric ∈ keys d)
    trivial (by
      intro d x d' hx _ hf
      unfold parallelStep at hf
      simp only [py_bind_eq_ok] at hf
      obtain ⟨arc, a1, curve, a2, a3⟩ := hf
      obtain ⟨d1, b2, b3, b4⟩ : ∃ d1, (∀ K k, arc = some (K, k) → K.geometric ∈ keys d1) ∧
          (∀ g ∈ keys d, g ∈ keys d1) ∧ ((curve = none → d1 = d') ∧ ∀ c k, curve = some (c, k) → setComponent d1 c (k, x) = d') := by
        cases arc with
        | none => exact ⟨d, by simp, fun _ h => h, fun e => by subst e; exact Except.ok.inj a3, fun c k e => by subst e; exact Except.ok.inj a3⟩
        | some q =>
          obtain ⟨K, k⟩ := q
          refine ⟨setComponent d K (k, x), ?_, ?_, fun e => by subst e; exact Except.ok.inj a3, fun c k e => by subst e; exact Except.ok.inj a3⟩
          · rintro K' k' e
            cases e
            exact mem_keys_set.2 (.inr rfl)
          · exact fun g hg => mem_keys_set.2 (.inl hg)
      obtain ⟨c2, c3⟩ : (∀ K k, curve = some (K, k) → K.geometric ∈ keys d') ∧ (∀ g ∈ keys d1, g ∈ keys d') := by
        cases curve with
        | none => rw [← b4.1 rfl]; exact ⟨by simp, fun _ h => h⟩
        | some q =>
          obtain ⟨K, k⟩ := q
          rw [← b4.2 K k rfl]
          refine ⟨?_, fun g hg => mem_keys_set.2 (.inl hg)⟩
          rintro K' k' e
          cases e
          exact mem_keys_set.2 (.inr rfl)
      refine ⟨trivial, ⟨?_, ?_⟩, ?_⟩
      · intro K k e
        rw [a1] at e
        exact c3 _ (b2 K k (Except.ok.inj e))
      · intro K k e
        rw [a2] at e
        exact c2 K k (Except.ok.inj e)
      · rintro y ⟨r1, r2⟩
        exact ⟨fun K k e => c3 _ (b3 _ (r1 K k e)), fun K k e => c3 _ (b3 _ (r2 K k e))⟩) h
  exact T2 x (mem_labels.2 hx)

/-- a belt is recorded, at some edge -/
theorem Belt.recorded {f β η : Int} {X : List Int} (hb : L.Belt f β η X 0 1) {par : List (Lam Int × (Int × Int))} (h : L.parallelComponents = .ok par) :
    ∃ p ∈ par, L.tri.IsLabel p.2.2 ∧ ∃ β' η' X' a k, 0 < k ∧ L.Belt p.2.2 β' η' X' a k ∧ ∀ x, L.tri.IsLabel x → cn X' x = cn X x := by
  obtain ⟨k', -, hf⟩ := hb.found (by omega)
  have hk := (par_found h hb.loop.sweep.label).2 _ _ hf
  unfold keys at hk
  obtain ⟨p, hp, hpg⟩ := List.mem_map.1 hk
  obtain ⟨e1, e2⟩ := (parallel_entries hb.con.1 h).1 p hp
  rcases e2 with ⟨e2, -⟩ | e2
  · rw [e2] at hpg
    exact absurd hpg (arc_ne_curve e1 X)
  · obtain ⟨b1, β', η', X', a, b2, b3, -⟩ := parallelCurve_belt hb.con e1 e2
    refine ⟨p, hp, e1, β', η', X', a, _, b1, b3, ?_⟩
    intro x hx
    rw [← curve_cn X' hx, ← curve_cn X hx]
    rw [b2] at hpg
    exact w_congr hpg x

/-- if nothing remains to be flipped or cut then something can be taken away -/
theorem Smooth.progress (hS : L.Smooth) (hI : L.IsCut []) (hP : L.NonPer) (hb : ¬ L.Blank) {par : List (Lam Int × (Int × Int))} (h : L.parallelComponents = .ok par) :
    ∃ p ∈ par, L.w p.2.2 ≤ 0 := by
  have hc := hS.cons.1.1.comp
  by_cases hneg : ∃ x, L.tri.IsLabel x ∧ L.w x < 0
  · -- an arc
    obtain ⟨x, hx, hx0⟩ := hneg
    obtain ⟨f, hf, hf0, hfs⟩ : ∃ f, L.tri.IsLabel f ∧ L.w f < 0 ∧ sign f = 1 := by
      by_cases q : 0 ≤ x
      · exact ⟨x, hx, hx0, by rw [sign_eq_one_iff]; exact q⟩
      · exact ⟨Curver.inv x, isLabel_inv.2 hx, by rw [w_inv]; exact hx0, by rw [sign_eq_one_iff]; unfold Curver.inv; omega⟩
    have ha : L.parallelArc f = .ok (some (L.tri.edgeArcOf f, -L.w f)) := by
      unfold parallelArc
      rw [if_pos hfs, wt_eq hS.cons.1.2 hf, py_bind_ok, if_pos (by omega)]
      rfl
    have hk := (par_found h hf).1 _ _ ha
    unfold keys at hk
    obtain ⟨p, hp, hpg⟩ := List.mem_map.1 hk
    obtain ⟨e1, e2⟩ := (parallel_entries hS.cons.1 h).1 p hp
    refine ⟨p, hp, ?_⟩
    rcases e2 with ⟨-, -, e3, e4⟩ | e2
    · omega
    · obtain ⟨b1, β', η', X', a, b2, b3, -⟩ := parallelCurve_belt hS.cons e1 e2
      rw [b2] at hpg
      exact absurd hpg.symm (arc_ne_curve hf X')
  · push Not at hneg
    by_contra hno
    push Not at hno
    -- an edge with more than nothing on it
    have start : ∃ s, L.tri.IsLabel s ∧ 0 < L.lf s := by
      by_contra q
      push Not at q
      apply hb
      intro x hx
      obtain ⟨y, z, hg⟩ := hc.exists_glues hx
      have k := hS.corner hg
      have l := hc.label_of_glues hg
      have h1 := q x hx
      have h2 := q y l.2.1
      have h3 := hneg x hx
      omega
    -- where a recorded edge is crossed, all the corners around it are
    have full : ∀ {p β η X a k}, p ∈ par → L.Belt p.2.2 β η X a k → 0 < k → ∀ x ∈ p.2.2 :: X, 0 < L.lf x := by
      intro p β η X a k hp hb hk x hx
      have k1 := hS.corner hb.loop.glues
      have h1 := hb.first
      have h2 := hb.last
      have h3 := hno p hp
      have ha : 0 < a := by omega
      rcases List.mem_cons.1 hx with rfl | hx
      · omega
      · by_cases q : x = β
        · rw [q]; omega
        · have := hb.room x hx q; omega
    obtain ⟨s0, s1, s2⟩ := start
    obtain ⟨f, β, η, X, h1, -⟩ := hS.run hI hP s1 s2
    obtain ⟨p, p1, p2, β2, η2, X2, a, k, p3, p4, p5⟩ := h1.recorded h
    have pf := full p1 p4 p3
    obtain ⟨f', β', η', X', q1, q2⟩ := hS.run hI hP p2 (pf _ (by simp))
    obtain ⟨r, r1, r2, β3, η3, X3, a3, k3, r3, r4, r5⟩ := q1.recorded h
    have rf := full r1 r4 r3
    -- forwards
    have fwd : ∀ (l : List Int) (u : Int), List.IsChain (fun x y => y = L.tri.spin x) (u :: (l ++ [Curver.inv p.2.2])) → (∀ x ∈ u :: l, 0 < L.lf x ∧ L.tri.IsLabel x) → u ∈ X' → Curver.inv p.2.2 ∈ X' := by
      have go : ∀ u, 0 < L.lf u → L.tri.IsLabel u → u ∈ X' → L.tri.spin u ∈ X' := by
        intro u u1 u2 u3
        refine (q1.loop.mem_spin u2).2 (.inr ⟨u3, ?_⟩)
        rintro rfl
        have := q1.last; omega
      intro l
      induction l with
      | nil =>
        intro u hch hu hx
        simp only [List.nil_append, List.isChain_cons_cons, List.isChain_singleton, and_true] at hch
        rw [hch]
        exact go u (hu u (by simp)).1 (hu u (by simp)).2 hx
      | cons c l ih =>
        intro u hch hu hx
        rw [List.cons_append, List.isChain_cons_cons] at hch
        refine ih c hch.2 (fun x hx => hu x (by simp at hx ⊢; tauto)) ?_
        rw [hch.1]
        exact go u (hu u (by simp)).1 (hu u (by simp)).2 hx
    have q3 : Curver.inv p.2.2 ∈ X' := fwd X2 p.2.2 p4.loop.sweep.chain (fun x hx => ⟨pf x hx, p4.loop.label_mem hx⟩) q2
    -- the same edge on the other curve
    obtain ⟨t, t1, t2⟩ : ∃ t, t ∈ X' ∧ t ∈ X3 := by
      have e := r5 p.2.2 p2
      have : 1 ≤ cn X' p.2.2 := by
        unfold cn
        have := List.count_pos_iff.2 q2
        omega
      rw [← e] at this
      by_cases q : p.2.2 ∈ X3
      · exact ⟨_, q2, q⟩
      by_cases q' : Curver.inv p.2.2 ∈ X3
      · exact ⟨_, q3, q'⟩
      · exfalso
        unfold cn at this
        rw [List.count_eq_zero.2 q, List.count_eq_zero.2 q'] at this
        simp at this
    -- backwards
    have bwd : ∀ (l : List Int) (u : Int), List.IsChain (fun x y => y = L.tri.spin x) (u :: (l ++ [Curver.inv r.2.2])) → (∀ x ∈ u :: l, 0 < L.lf x ∧ L.tri.IsLabel x) → t ∈ u :: l → u ∈ X' := by
      intro l
      induction l with
      | nil =>
        intro u _ _ ht
        rw [List.mem_singleton] at ht
        exact ht ▸ t1
      | cons c l ih =>
        intro u hch hu ht
        rcases List.mem_cons.1 ht with ht | ht
        · exact ht ▸ t1
        rw [List.cons_append, List.isChain_cons_cons] at hch
        have := ih c hch.2 (fun x hx => hu x (by simp at hx ⊢; tauto)) ht
        rw [hch.1] at this
        rcases (q1.loop.mem_spin (hu u (by simp)).2).1 this with rfl | v
        · have := (hu u (by simp)).1
          have := q1.first
          omega
        · exact v.1
    have q4 : r.2.2 ∈ X' := bwd X3 r.2.2 r4.loop.sweep.chain (fun x hx => ⟨rf x hx, r4.loop.label_mem hx⟩) (by simp [t2])
    have e := r5 r.2.2 r2
    rw [r4.loop.cn_a] at e
    have : 1 ≤ cn X' r.2.2 := by
      unfold cn
      have := List.count_pos_iff.2 q4
      omega
    omega

end Lam
end Curver
