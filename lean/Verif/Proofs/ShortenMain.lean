import Verif.Spec.Shorten
import Verif.Proofs.ShortenTrace
import Verif.Proofs.ShortenSum
import Verif.Props.VertexMap

/-!
# `shorten`: the rounds, and what it returns
-/

namespace Curver
open Triangulation

theorem maximumFrom_spec {key : Int → Py Int} {ub : Int} : ∀ {l : List Int} {best r : Int × Int}, maximumFrom key ub best l = .ok r → r = best ∨ (r.1 ∈ l ∧ key r.1 = .ok r.2)
  | [], best, r, h => by cases h; exact .inl rfl
  | x :: l, best, r, h => by
    simp only [maximumFrom, py_bind_eq_ok] at h
    obtain ⟨k, h1, h⟩ := h
    generalize hb : (if best.2 < k then (x, k) else best) = b at h
    have hb' : b = best ∨ b = (x, k) := by
      rw [← hb]; split
      · exact .inr rfl
      · exact .inl rfl
    have fin : r = b → r = best ∨ (r.1 ∈ x :: l ∧ key r.1 = .ok r.2) := by
      intro hr
      rcases hb' with q | q
      · exact .inl (hr.trans q)
      · rw [hr, q]; exact .inr ⟨by simp, h1⟩
    split at h
    · cases h; exact fin rfl
    · rcases maximumFrom_spec h with q | ⟨q1, q2⟩
      · exact fin q
      · exact .inr ⟨by simp [q1], q2⟩

theorem maximumM_spec {key : Int → Py Int} {ub : Int} {l : List Int} {r : Int × Int} (h : maximumM key ub l = .ok r) : r.1 ∈ l ∧ key r.1 = .ok r.2 := by
  cases l with
  | nil => cases h
  | cons x l =>
    simp only [maximumM, py_bind_eq_ok] at h
    obtain ⟨k, h1, h⟩ := h
    split at h
    · cases h; exact ⟨by simp, h1⟩
    · rcases maximumFrom_spec h with q | ⟨q1, q2⟩
      · rw [q]; exact ⟨by simp, h1⟩
      · exact ⟨by simp [q1], q2⟩

namespace Lam
variable {L : Lam Int} {P : Lam Int → Py LamClass} {S : Lam Int → Py (Lam Int × Enc)}

/-- the edges that are chosen meet the lamination -/
theorem shortenStrategy_pos (hL : L.WellFormed) {e k : Int} (hf : L.tri.Flippable e) (h : L.shortenStrategy e = .ok k) (hk : k ≠ 0) : 0 < L.w e := by
  have hc := hL.1.comp
  unfold Lam.shortenStrategy at h
  rw [(hc.isFlippable_iff hf.1).2 hf, py_bind_ok, if_pos rfl, hc.square_eq hf, py_bind_ok] at h
  simp only [py_bind_eq_ok] at h
  obtain ⟨ad, h1, bd, h2, _, _, _, _, ed, h3, h⟩ := h
  have hg := hc.glues_nxt hf.1
  have ht := (duals_iff hL hg).1 ⟨h3, h1, h2⟩
  unfold TriDual at ht
  split at h
  · omega
  · split at h
    · omega
    · cases h; exact absurd rfl hk

/-- a move that keeps all the edges that the lamination does not meet -/
structure Fine (L : Lam Int) (h : Enc) : Prop where
  legal : h.Legal
  kind : h.kind ≠ .encoding
  source : h.source = L.tri
  spares : ∀ x, L.tri.IsLabel x → L.w x ≤ 0 → h.Spares x

theorem flip_fine (hL : L.WellFormed) {e : Int} (h0 : 0 < L.w e) {m : LMove} {h : Enc} (hm : L.tri.encodeFlip e = .ok m) (hh : m.encode = .ok h) : Fine L h := by
  obtain ⟨T, h1, h2, rfl⟩ := hL.1.encodeFlip_ok_iff.1 hm
  have hl : LMove.Legal _ := .flip L.tri e _ hL.1 hm
  obtain ⟨f, f1, f2, f3, f4, f5, f6⟩ := hl.encoded
  cases f1.symm.trans hh
  refine ⟨f2, f3, f5, ?_⟩
  intro x hx hx0
  refine Enc.encode_spares (.flip L.tri T e hL.1 h1 h2 ⟨?_, ?_⟩) hh
  · rintro rfl; omega
  · rintro rfl; rw [w_inv] at hx0; omega

theorem accelerate_fine (hS : Good S) (hL : L.WellFormed) {e : Int} (he : L.tri.IsLabel e) {h : Enc} (ha : accelerate S P L e = .ok (some h)) : Fine L h := by
  unfold accelerate at ha
  simp only [py_bind_eq_ok] at ha
  obtain ⟨l, h1, c, h2, ⟨num, den⟩, h3, ha⟩ := ha
  obtain ⟨c1, c2, c3⟩ := traceCurve_spec hL he h2
  dsimp only at ha
  split at ha
  · simp only [py_bind_eq_ok] at ha
    obtain ⟨g, h4, h5⟩ := ha
    cases h5
    have := encodeTwist_keeps hS c2 h4
    exact ⟨this.legal, by rw [this.kind]; simp, this.source.trans c1, fun x hx h0 => this.spares x ⟨by rw [c1]; exact hx, c3 x hx h0⟩⟩
  · cases ha

theorem chooseMove_fine (hS : Good S) {slow : Int → Int → Bool} {zeta : Nat} {st : FlipState} (hL : st.lam.WellFormed) {e c d : Int} (he : st.lam.tri.IsLabel e) {l r : Nat} {flip : Enc}
    (hf : Fine st.lam flip) {move : Enc} {rest : Nat × (Nat × List Int)} (h : chooseMove S P slow zeta st e c d l r flip = .ok (move, rest)) : Fine st.lam move := by
  unfold chooseMove at h
  split at h
  · rw [py_bind_eq_ok] at h
    obtain ⟨lam', -, h⟩ := h
    split at h
    · split at h
      · next g hg => cases h; exact accelerate_fine hS hL he hg
      · cases h; exact hf
      · cases h; exact hf
      · cases h
    · cases h; exact hf
  · cases h; exact hf

theorem Chain.edges {N M : Lam Int} {l : List Item} (h : Chain N l M) {i : Item} (hi : i ∈ l) : M.tri.IsLabel i.edge ∧ M.w i.edge ≤ 0 := by
  induction l generalizing N with
  | nil => cases hi
  | cons j l ih =>
    obtain ⟨N', h1, h2⟩ := h
    rcases List.mem_cons.1 hi with rfl | hi
    · have hx : N.tri.IsLabel i.edge ∧ N.w i.edge ≤ 0 := by
        cases i with
        | arc f μ => exact ⟨h1.2.2.1, by show N.w f ≤ 0; have := h1.2.2.2; omega⟩
        | curve f k =>
          obtain ⟨_, _, _, _, β, η, X, h5, _⟩ := h1
          exact ⟨(h5.loop.valid.comp.label_of_glues h5.loop.glues).1, h5.off⟩
      have h3 := h1.nonpos hx.1 hx.2
      have h4 : N'.tri.IsLabel i.edge := by rw [h1.wf.2]; exact hx.1
      exact ⟨by rw [h2.tri]; exact h4, h2.nonpos h4 h3⟩
    · exact ih h2 hi

theorem Chain.congr_right {N M M' : Lam Int} {l : List Item} (ht : M'.tri = M.tri) (hg : M'.geometric = M.geometric) (h : Chain N l M) : Chain N l M' := by
  induction l generalizing N with
  | nil => exact ⟨ht.trans h.1, hg.trans h.2⟩
  | cons i l ih =>
    obtain ⟨N', h1, h2⟩ := h
    exact ⟨N', h1, ih h2⟩

/-- what is known during the rounds: `N₀` and `per₀` are the two parts of the lamination -/
structure Inv (N₀ per₀ : Lam Int) (l : List Item) (lam per : Lam Int) (conj : Enc) : Prop where
  legal : conj.Legal
  kind : conj.kind ≠ .encoding
  source : conj.source = N₀.tri
  target : conj.target = lam.tri
  wf : lam.WellFormed
  chain : ∃ N, conj.applyLam N₀ = .ok N ∧ Chain N l lam
  per : conj.applyLam per₀ = .ok per
  spares : ∀ f, N₀.tri.IsLabel f → N₀.w f ≤ 0 → conj.Spares f

namespace Inv
variable {N₀ per₀ lam lam' per per' : Lam Int} {l : List Item} {conj conj' h : Enc}

theorem step (I : Inv N₀ per₀ l lam per conj) (h0 : N₀.Consistent) (hp : per₀.WellFormed) (hf : Fine lam h) (h1 : h.mul conj = .ok conj') (h2 : h.applyLam lam = .ok lam') (h3 : h.applyLam per = .ok per') :
    Inv N₀ per₀ l lam' per' conj' := by
  obtain ⟨k1, k2, k3, k4, -⟩ := Enc.mul_ok hf.legal I.legal h1
  obtain ⟨N, n1, n2⟩ := I.chain
  have hNt := n2.tri
  have hC := (I.legal.applyLam_total ⟨N₀, h0, I.source.symm⟩)
  obtain ⟨⟨N', c1, c2⟩, c3⟩ := hC
  rw [n1] at c3
  injection c3 with c3
  subst c3
  obtain ⟨⟨N1, d1, d2⟩, d3⟩ := hf.legal.applyLam_total ⟨N, c1, by rw [hf.source, hNt]⟩
  dsimp only at d1 d2 d3
  obtain ⟨M1, m1, m2⟩ := n2.enc hf.legal (fun i hi => by
    obtain ⟨a1, a2⟩ := n2.edges hi
    exact hf.spares _ a1 a2) c1.1 d3
  cases h2.symm.trans m1
  refine ⟨k1, k4 hf.kind I.kind, k2.source.trans I.source, ?_, m2.wf d1.1, ⟨N1, ?_, m2⟩, ?_, ?_⟩
  · rw [k2.target, m2.tri, d2]
  · rw [k2.lam Int N₀ h0.1, n1, py_bind_ok, d3]
  · rw [k2.lam Int per₀ hp, I.per, py_bind_ok, h3]
  · intro f hfl hf0
    have s := I.spares f hfl hf0
    obtain ⟨w1, w2⟩ := Enc.spares_w I.legal s hfl h0.1 n1
    refine (hf.spares f (by rw [hNt]; exact w2) (n2.nonpos w2 (by rw [w1]; exact hf0))).mul s h1

theorem append (I : Inv N₀ per₀ l lam per conj) {l' : List Item} (h : Chain lam l' lam') : Inv N₀ per₀ (l ++ l') lam' per conj := by
  obtain ⟨N, n1, n2⟩ := I.chain
  exact ⟨I.legal, I.kind, I.source, I.target.trans h.tri.symm, h.wf I.wf, ⟨N, n1, n2.append h⟩, I.per, I.spares⟩

end Inv

variable {N₀ per₀ : Lam Int} {l : List Item} {slow : Int → Int → Bool} {zeta : Nat}

theorem flipRounds_inv (hS : Good S) (h0 : N₀.Consistent) (hp : per₀.WellFormed) {ub : Int} : ∀ (n : Nat) {st st' : FlipState}, Inv N₀ per₀ l st.lam st.peripheral st.conjugator →
    flipRounds S P slow zeta ub n st = .ok st' → Inv N₀ per₀ l st'.lam st'.peripheral st'.conjugator
  | 0, _, _, _, h => by cases h
  | n + 1, st, st', I, h => by
    rw [flipRounds, py_bind_eq_ok] at h
    obtain ⟨⟨edge, key⟩, h1, h⟩ := h
    obtain ⟨-, hkey⟩ := maximumM_spec h1
    dsimp only at h hkey
    split at h
    · cases h; exact I
    · next hk =>
      generalize turns st.extra edge st.turnLeft st.turnRight = lr at h
      obtain ⟨a, b⟩ := lr
      simp only [py_bind_eq_ok] at h
      obtain ⟨s, h2, m, h3, flip, h4, ⟨move, a', b', extra⟩, h5, conj, h6, lam, h7, per, h8, h9⟩ := h
      obtain ⟨T, q1, -⟩ := I.wf.1.encodeFlip_ok_iff.1 h3
      have hpos := shortenStrategy_pos I.wf q1 hkey hk
      have hfine := chooseMove_fine hS I.wf q1.1 (flip_fine I.wf hpos h3 h4) h5
      exact flipRounds_inv hS h0 hp n (st := ⟨lam, per, conj, a', b', extra⟩) (I.step h0 hp hfine h6 h7 h8) h9

theorem cutAlong_inv (hS : Good S) (h0 : N₀.Consistent) (hp : per₀.WellFormed) {n : Nat} {sequence : List Int} {st st' : FlipState} (I : Inv N₀ per₀ l st.lam st.peripheral st.conjugator)
    (hb : st.lam.noBipods = .ok ()) (hs : st.lam.cutSequence n = .ok sequence) (h : cutAlong S sequence st = .ok st') : Inv N₀ per₀ l st'.lam st'.peripheral st'.conjugator := by
  unfold cutAlong at h
  split at h
  · cases h; exact I
  · simp only [py_bind_eq_ok] at h
    obtain ⟨⟨s, g⟩, h1, conj, h2, lam, h3, per, h4, h5⟩ := h
    cases h5
    have hM : (⟨st.lam.tri, st.lam.tri.cutSequenceIntersections sequence, .integral⟩ : Lam Int).WellFormed := ⟨I.wf.1, cut_length sequence⟩
    have G := hS _ _ _ hM h1
    have hpos := cutSequence_spec I.wf (noBipods_spec hb) hs
    refine I.step h0 hp ⟨G.legal, G.kind, G.source, ?_⟩ h2 h3 h4
    intro x hx hx0
    refine G.spares x hx ?_
    have : (⟨st.lam.tri, st.lam.tri.cutSequenceIntersections sequence, .integral⟩ : Lam Int).w x = cn sequence x := cut_w sequence hx
    rw [this]
    unfold cn
    rw [List.count_eq_zero_of_not_mem, List.count_eq_zero_of_not_mem]
    · simp
    · intro k
      have := hpos _ k
      rw [w_inv] at this
      omega
    · intro k
      have := hpos _ k
      omega

theorem rounds_inv (hS : Good S) (h0 : N₀.Consistent) (hp : per₀.WellFormed) {fuel : Nat} : ∀ (n : Nat) {l : List Item} {st st' : RoundState}, Inv N₀ per₀ l st.lam st.peripheral st.conjugator →
    (st.arcs, st.curves) = l.foldl Item.record ([], []) → rounds S P slow zeta fuel n st = .ok st' →
    ∃ l', Inv N₀ per₀ l' st'.lam st'.peripheral st'.conjugator ∧ (st'.arcs, st'.curves) = l'.foldl Item.record ([], []) ∧ st'.lam.isEmpty = true
  | 0, _, _, _, _, _, h => by cases h
  | n + 1, l, st, st', I, hr, h => by
    rw [rounds, py_bind_eq_ok] at h
    obtain ⟨⟨g', arcs', curves'⟩, h1, h⟩ := h
    obtain ⟨l', c1, c2, -⟩ := subtractFrom_chain I.wf h1
    have I' := I.append (Chain.congr_right (M := ⟨st.lam.tri, g', st.lam.cls⟩) (M' := ⟨st.lam.tri, g', .integral⟩) rfl rfl c1)
    have hr' : (arcs', curves') = (l ++ l').foldl Item.record ([], []) := by
      rw [List.foldl_append, ← hr]; exact c2
    dsimp only at h
    split at h
    · next he =>
      cases h
      exact ⟨l ++ l', I', hr', he⟩
    · simp only [py_bind_eq_ok] at h
      obtain ⟨b, h2, f, h3, _, h4, sequence, h5, f', h6, h7⟩ := h
      have I1 := flipRounds_inv hS h0 hp fuel (st := ⟨⟨st.lam.tri, g', .integral⟩, st.peripheral, st.conjugator, 0, 0, []⟩) I' h3
      have I2 := cutAlong_inv hS h0 hp I1 h4 h5 h6
      exact rounds_inv hS h0 hp n (st := ⟨f'.lam, f'.peripheral, f'.conjugator, arcs', curves', b⟩) I2 hr' h7

theorem peripheralFrom_mult : ∀ {vs : List (List Int)} {d d' : List (Lam Int × (Int × List Int))}, L.peripheralFrom vs d = .ok d' → ∀ v ∈ vs, ∃ m, L.vertexMultiplicity v = .ok m
  | [], _, _, _ => by simp
  | v :: vs, d, d', h => by
    simp only [peripheralFrom, py_bind_eq_ok] at h
    obtain ⟨m, h1, h⟩ := h
    intro u hu
    rcases List.mem_cons.1 hu with rfl | hu
    · exact ⟨m, h1⟩
    · split at h
      · exact peripheralFrom_mult h u hu
      · exact peripheralFrom_mult h u hu

/-- the peripheral part is only defined when all dual weights are -/
theorem consistent_of_peripheral (hL : L.WellFormed) {p : Lam Int} (h : L.peripheral P = .ok p) : L.Consistent := by
  have hc := hL.1.comp
  refine ⟨hL, ?_⟩
  intro e he
  unfold Lam.peripheral peripheralComponents at h
  simp only [py_bind_eq_ok] at h
  obtain ⟨d, ⟨vs, h1, h2⟩, -⟩ := h
  obtain ⟨b, c, hg⟩ := hc.exists_glues he
  have hl := hc.label_of_glues hg
  obtain ⟨v, hv, hev⟩ := (hc.vertices_mem h1).1 c hl.2.2
  obtain ⟨m, hm⟩ := peripheralFrom_mult h2 v hv
  unfold vertexMultiplicity at hm
  rw [py_bind_eq_ok] at hm
  obtain ⟨ls, h3, -⟩ := hm
  obtain ⟨x, -, hx⟩ := mapM_mem_left h3 hev
  rw [leftWeight_eq hL hg.rot.rot] at hx
  exact ⟨x, hx⟩

theorem Item.Takes.entry {i : Item} {N N' : Lam Int} (h : i.Takes N N') : 0 < (i.term N.tri).2 ∧
    ∃ e, N.tri.IsLabel e ∧ ((i.term N.tri).1 = N.tri.edgeArcOf e ∨ N.tri.edgeCurve e = .ok (i.term N.tri).1) := by
  cases i with
  | arc f μ => exact ⟨h.2.2.2.1, f, h.2.2.1, .inl rfl⟩
  | curve f k =>
    obtain ⟨h1, h2, h3, h4, β, η, X, h5, h6⟩ := h
    obtain ⟨t1, t2⟩ := Item.term_curve h5.loop k
    rw [t2]
    exact ⟨h3, f, (h5.loop.valid.comp.label_of_glues h5.loop.glues).1, .inr t1⟩

/-- the curves around the vertices and the items, one after another, are all there is -/
def Stripped (s : Lam Int) : Prop := ∃ (K N M : Lam Int) (l : List Item), K.tri = s.tri ∧ K.geometric = s.geometric ∧ K.Consistent ∧ N.Consistent ∧ N.tri = K.tri ∧ Chain N l M ∧
  (∀ x, N.tri.IsLabel x → M.w x = 0) ∧ ∀ x, K.tri.IsLabel x → K.w x = K.mu x + K.mu (Curver.inv x) + N.w x

/-- lamination.py:780-787: how the result was put together -/
def Rebuilt (P : Lam Int → Py LamClass) (L s : Lam Int) : Prop := ∃ (g : Enc) (per₀ per K N M : Lam Int) (l : List Item), g.Legal ∧ L.peripheral P = .ok per₀ ∧ g.applyLam per₀ = .ok per ∧
  (∀ x, K.tri.IsLabel x → per.w x = K.mu x + K.mu (Curver.inv x)) ∧ K.tri = s.tri ∧ K.geometric = s.geometric ∧ K.Consistent ∧ N.Consistent ∧ N.tri = K.tri ∧ Chain N l M ∧
  (∀ x, N.tri.IsLabel x → M.w x = 0) ∧ (∀ x, K.tri.IsLabel x → K.w x = K.mu x + K.mu (Curver.inv x) + N.w x) ∧
  ∃ ts, (l.map (Item.term N.tri)).Perm ts ∧ (∀ p ∈ ts, p.1.geometric.length = N.tri.zeta) ∧ N.tri.disjointSumDict P ((per, 1) :: ts) = .ok s

theorem Rebuilt.stripped {P : Lam Int → Py LamClass} {L s : Lam Int} (h : Rebuilt P L s) : s.Stripped := by
  obtain ⟨g, per₀, per, K, N, M, l, -, -, -, -, h1, h2, h3, h4, h5, h6, h7, h8, -⟩ := h
  exact ⟨K, N, M, l, h1, h2, h3, h4, h5, h6, h7, h8⟩

/-- the state after the last round -/
theorem rounds_end (hS : Good S) {fuel : Nat} (hL : L.WellFormed) {per₀ N₀ : Lam Int} {i : Enc} {st : RoundState} (h1 : L.peripheral P = .ok per₀)
    (h2 : L.nonPeripheral P (promote := false) = .ok N₀) (h3 : L.tri.idEncoding = .ok i) (h4 : rounds S P slow L.tri.zeta fuel fuel ⟨N₀, per₀, i, [], [], true⟩ = .ok st) :
    ∃ l N K, Inv N₀ per₀ l st.lam st.peripheral st.conjugator ∧ Chain N l st.lam ∧ K.Consistent ∧ st.conjugator.applyLam L = .ok K ∧ N.tri = K.tri ∧ N.Consistent ∧
      (∀ x, N.tri.IsLabel x → st.lam.w x = 0) ∧ st.arcs = arcsOf l ∧ st.curves = curvesOf l ∧ (∀ j ∈ l, st.peripheral.eqv (j.term N.tri).1 = false) ∧
      st.peripheral.tri = K.tri ∧ st.peripheral.geometric.length = N.tri.zeta ∧ (∀ x, K.tri.IsLabel x → st.peripheral.w x = K.mu x + K.mu (Curver.inv x)) ∧
      ∀ x, K.tri.IsLabel x → K.w x = st.peripheral.w x + N.w x := by
  have hC := consistent_of_peripheral hL h1
  obtain ⟨p, p1, p2, p3, p4, -⟩ := peripheral_ok P hC
  cases h1.symm.trans p1
  obtain ⟨d1, d2, d3⟩ := C42_decomposition P L hC false per₀ N₀ h1 h2
  have hper : per₀.WellFormed := ⟨by rw [p2]; exact hL.1, by rw [p2, p3]⟩
  obtain ⟨i', i1, i2, i3, i4, i5, i6, -⟩ := hL.1.idEncoding_spec
  cases h3.symm.trans i1
  have I : Inv N₀ per₀ [] N₀ per₀ i := by
    refine ⟨i2, by rw [i3]; simp, i4.trans d1.symm, i5.trans d1.symm, d2.1, ⟨N₀, i6 Int N₀ d2.1 d1, rfl, rfl⟩, i6 Int per₀ hper p2, ?_⟩
    intro f hf _
    exact Enc.id_spares hL.1 (by rw [← d1]; exact hf) h3
  obtain ⟨l, I', hr, he⟩ := rounds_inv hS d2 hper fuel (l := []) (st := ⟨N₀, per₀, i, [], [], true⟩) I rfl h4
  obtain ⟨N, n1, n2⟩ := I'.chain
  obtain ⟨⟨K, k1, k2⟩, k3⟩ := I'.legal.applyLam_total ⟨L, hC, by rw [I'.source, d1]⟩
  dsimp only at k3
  obtain ⟨p', q1, q2, q3, q4, -⟩ := peripheral_ok P k1
  obtain ⟨N', r1⟩ := C42_non_peripheral_exists P K k1
  obtain ⟨⟨k, a1, a2⟩, ⟨k', b1, b2⟩⟩ := C43_parts st.conjugator I'.legal P false L K hC k3 per₀ p' N₀ N' h1 q1 h2 r1
  cases I'.per.symm.trans a1
  cases n1.symm.trans b1
  obtain ⟨a3, a4⟩ := eqv_spec.1 a2
  obtain ⟨b3, b4⟩ := eqv_spec.1 b2
  obtain ⟨c1, c2, c3⟩ := C42_decomposition P K k1 false p' N' q1 r1
  have hNt : N.tri = K.tri := b3.trans c1
  have hNc : N.Consistent := by
    obtain ⟨⟨N1, z1, z2⟩, z3⟩ := I'.legal.applyLam_total ⟨N₀, d2, I'.source.symm⟩
    rw [n1] at z3
    injection z3 with z3
    rw [z3]; exact z1
  have hm' := isMult_mu k1
  have hz : ∀ x, N.tri.IsLabel x → st.lam.w x = 0 := by
    intro x hx
    exact (Lam.all_zero_iff I'.wf).1 he x (by rw [n2.tri]; exact hx)
  rw [n2.record] at hr
  injection hr with hr1 hr2
  refine ⟨l, N, K, I', n2, k1, k3, hNt, hNc, hz, hr1, hr2, ?_, a3.trans q2, by rw [a4, q3, hNt], fun x hx => by rw [w_congr a4]; exact q4 x hx, fun x hx => by rw [w_congr a4, w_congr b4]; exact c3 x hx⟩
  intro j hj
  obtain ⟨J, J', j1, j2⟩ := n2.takes_of_mem hj
  have := j2.not_peripheral (per := st.peripheral) (m := K.mu) (by rw [j1, hNt]; exact hm'.nonneg) (by rw [j1, hNt]; exact hm'.const)
    (by intro x hx; rw [j1, hNt] at hx; rw [w_congr a4]; exact q4 x hx)
  rwa [j1] at this

theorem shortenStep_core (hS : Good S) {fuel : Nat} (hL : L.WellFormed) {per₀ N₀ short : Lam Int} {i : Enc} {st : RoundState} (h1 : L.peripheral P = .ok per₀)
    (h2 : L.nonPeripheral P (promote := false) = .ok N₀) (h3 : L.tri.idEncoding = .ok i) (h4 : rounds S P slow L.tri.zeta fuel fuel ⟨N₀, per₀, i, [], [], true⟩ = .ok st)
    (h5 : rebuild P st.lam.tri st.peripheral st.arcs st.curves = .ok short) :
    (Shortens L short st.conjugator ∧ L.Consistent ∧ ∃ m items, ShortSum short m items) ∧ Rebuilt P L short := by
  have hC := consistent_of_peripheral hL h1
  obtain ⟨p, p1, p2, p3, p4, -⟩ := peripheral_ok P hC
  cases h1.symm.trans p1
  obtain ⟨d1, d2, d3⟩ := C42_decomposition P L hC false per₀ N₀ h1 h2
  have hmu := isMult_mu hC
  obtain ⟨l, N, K, I', n2, k1, k3, hNt, hNc, hz, hr1, hr2, hpa, a3, hpl, q4, hKw⟩ := rounds_end hS hL h1 h2 h3 h4
  have hm' := isMult_mu k1
  rw [n2.tri, hr1, hr2] at h5
  obtain ⟨g1, g2, g3, g4⟩ := rebuild_w P hNc.1 n2 hz hpl hpa h5
  have hKs : K = ⟨short.tri, short.geometric, K.cls⟩ := by
    refine Lam.ext_w (hNt.symm.trans g1.symm) rfl k1.1.2 g2.2 ?_
    intro x hx
    rw [hKw x hx]
    exact (g4 x (by rw [hNt]; exact hx)).symm
  refine ⟨⟨⟨I'.legal, I'.kind, I'.source.trans d1, ?_, g2, ?_, K, k3, ?_, ?_⟩, hC, K.mu, l.map (Item.term N.tri), ?_⟩,
    st.conjugator, per₀, st.peripheral, K, N, st.lam, l, I'.legal, h1, I'.per, q4, by rw [hKs], by rw [hKs], k1, hNc, hNt, n2, hz, ?_, rebuild_eq P n2 hpa h5⟩
  · rw [I'.target, n2.tri, g1]
  · intro f hf h0
    refine I'.spares f (by rw [d1]; exact hf) ?_
    have e1 := d3 f hf
    have e2 := p4 f hf
    have e3 := hmu.nonneg f hf
    have e4 := hmu.nonneg (Curver.inv f) (isLabel_inv.2 hf)
    omega
  · rw [g1, hNt]
  · rw [hKs]
  · have hst : short.tri = K.tri := g1.trans hNt
    refine ⟨g2, fun e he => hm'.nonneg e (hst ▸ he), ?_, ?_, ?_, ?_⟩
    · intro e v he hv e' he'
      exact hm'.const e e' (hst ▸ he) ⟨v, hst ▸ hv, he'⟩
    · intro p hp
      obtain ⟨j, hj, rfl⟩ := List.mem_map.1 hp
      obtain ⟨J, J', j1, j2⟩ := n2.takes_of_mem hj
      have := j2.entry
      rw [j1] at this
      rw [g1]; exact this
    · rw [List.pairwise_map]
      exact n2.apart.imp (fun h => h.1)
    · intro e he
      have he' : N.tri.IsLabel e := by rw [← g1]; exact he
      rw [g4 e he', q4 e (hst ▸ he), n2.sum he', hz e he', zero_add]
      simp only [mul_comm]
  · intro x hx
    rw [hKw x hx, q4 x hx]

theorem shortenStep_full (hS : Good S) {fuel : Nat} {s : Lam Int} {h : Enc} (hL : L.WellFormed) (hs : shortenStep S P slow fuel L = .ok (s, h)) :
    (Shortens L s h ∧ s.isShort P = .ok true ∧ L.Consistent ∧ ∃ m items, ShortSum s m items) ∧ Rebuilt P L s := by
  unfold shortenStep at hs
  simp only [py_bind_eq_ok, pyAssert_ok_iff] at hs
  obtain ⟨per₀, h1, N₀, h2, i, h3, st, h4, short, h5, b, h6, _, h7, h8⟩ := hs
  subst h7
  injection h8 with h8
  injection h8 with e1 e2
  subst e1 e2
  obtain ⟨⟨a, b, c⟩, d⟩ := shortenStep_core hS hL h1 h2 h3 h4 h5
  exact ⟨⟨a, h6, b, c⟩, d⟩

theorem shortenStep_spec (hS : Good S) {fuel : Nat} {s : Lam Int} {h : Enc} (hL : L.WellFormed) (hs : shortenStep S P slow fuel L = .ok (s, h)) :
    Shortens L s h ∧ s.isShort P = .ok true ∧ L.Consistent ∧ ∃ m items, ShortSum s m items := (shortenStep_full hS hL hs).1

theorem shortenAll_good (dflt : Int → Int → Bool) : ∀ (n : Nat) (slow : Int → Int → Bool), Good (shortenAll P dflt n slow)
  | 0, _, _, _, _, _, h => by cases h
  | n + 1, _, _, _, _, hM, h => (shortenStep_spec (shortenAll_good dflt n dflt) hM h).1

theorem shortenAll_spec {dflt : Int → Int → Bool} {n : Nat} {slow : Int → Int → Bool} {s : Lam Int} {h : Enc} (hL : L.WellFormed) (hs : shortenAll P dflt n slow L = .ok (s, h)) :
    Shortens L s h ∧ s.isShort P = .ok true ∧ L.Consistent ∧ ∃ m items, ShortSum s m items := by
  cases n with
  | zero => cases hs
  | succ n => exact shortenStep_spec (shortenAll_good dflt n dflt) hL hs

theorem shortenAll_stripped {dflt : Int → Int → Bool} {n : Nat} {slow : Int → Int → Bool} {s : Lam Int} {h : Enc} (hL : L.WellFormed) (hs : shortenAll P dflt n slow L = .ok (s, h)) : s.Stripped := by
  cases n with
  | zero => cases hs
  | succ n => exact (shortenStep_full (shortenAll_good dflt n dflt) hL hs).2.stripped

theorem shortenAll_rebuilt {dflt : Int → Int → Bool} {n : Nat} {slow : Int → Int → Bool} {s : Lam Int} {h : Enc} (hL : L.WellFormed) (hs : shortenAll P dflt n slow L = .ok (s, h)) : Rebuilt P L s := by
  cases n with
  | zero => cases hs
  | succ n => exact (shortenStep_full (shortenAll_good dflt n dflt) hL hs).2

end Lam
end Curver
