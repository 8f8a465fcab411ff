import Verif.Proofs.FindIsometry
import Verif.Proofs.MappingEq
import Verif.Props.Utilities

namespace Curver
open Triangulation

/-! ### lists -/

theorem perm_of_rel {α β γ : Type _} {l₁ : List α} {l₂ : List β} (n₁ : l₁.Nodup) (n₂ : l₂.Nodup) (R : α → β → Prop)
    (h₁ : ∀ a ∈ l₁, ∃ b ∈ l₂, R a b) (h₂ : ∀ b ∈ l₂, ∃ a ∈ l₁, R a b) (u₁ : ∀ a ∈ l₁, ∀ a' ∈ l₁, ∀ b ∈ l₂, R a b → R a' b → a = a')
    (u₂ : ∀ a ∈ l₁, ∀ b ∈ l₂, ∀ b' ∈ l₂, R a b → R a b' → b = b') (va : α → γ) (vb : β → γ)
    (hv : ∀ a ∈ l₁, ∀ b ∈ l₂, R a b → va a = vb b) : (l₁.map va).Perm (l₂.map vb) := by
  classical
  rcases l₁ with _ | ⟨a₀, t⟩
  · have : l₂ = [] := by
      rcases l₂ with _ | ⟨b, t⟩
      · rfl
      · obtain ⟨a, ha, _⟩ := h₂ b (by simp); simp at ha
    rw [this]; rfl
  obtain ⟨b₀, hb₀, _⟩ := h₁ a₀ (by simp)
  let φ : α → β := fun a => if h : ∃ b ∈ l₂, R a b then h.choose else b₀
  have hφ : ∀ a ∈ a₀ :: t, φ a ∈ l₂ ∧ R a (φ a) := by
    intro a ha
    have h := h₁ a ha
    simp only [φ, dif_pos h]
    exact h.choose_spec
  have hp : ((a₀ :: t).map φ).Perm l₂ := by
    rw [List.perm_ext_iff_of_nodup (List.Nodup.map_on (fun x hx y hy hxy => ?_) n₁) n₂]
    · intro b
      rw [List.mem_map]
      constructor
      · rintro ⟨a, ha, rfl⟩; exact (hφ a ha).1
      · intro hb
        obtain ⟨a, ha, hr⟩ := h₂ b hb
        exact ⟨a, ha, u₂ a ha _ (hφ a ha).1 b hb (hφ a ha).2 hr⟩
    · exact u₁ x hx y hy _ (hφ x hx).1 (hφ x hx).2 (hxy ▸ (hφ y hy).2)
  refine List.Perm.trans ?_ (hp.map vb)
  rw [List.map_map]
  refine List.Perm.of_eq (List.map_congr_left (fun a ha => ?_))
  exact hv a ha _ (hφ a ha).1 (hφ a ha).2

theorem cyclicSlice_eq {α : Type _} [DecidableEq α] (p q : List α) (x y : α) (hx : x ∉ p) :
    cyclicSlice (p ++ x :: q) x (some y) = .ok ((x :: q ++ p).takeWhile (fun z => z ≠ y)) := by
  by_cases hy : y ∈ p ++ x :: q
  · have hy' : y ∈ x :: q ++ p := by
      simp only [List.mem_append, List.mem_cons] at hy ⊢; tauto
    have : ∃ r s, x :: q ++ p = r ++ y :: s ∧ y ∉ r := by
      generalize x :: q ++ p = l at hy'
      induction l with
      | nil => simp at hy'
      | cons a l ih =>
        by_cases h : y = a
        · exact ⟨[], l, by simp [h], by simp⟩
        · obtain ⟨r, s, h1, h2⟩ := ih (by simpa [h] using hy')
          exact ⟨a :: r, s, by rw [h1]; rfl, by simp [h, h2]⟩
    obtain ⟨r, s, hr, hyr⟩ := this
    rw [C23_stop p q r s x y hx hr hyr, hr]
    congr 1
    rw [List.takeWhile_append_of_pos]
    · simp
    · intro z hz
      simp only [decide_not, Bool.not_eq_eq_eq_not, Bool.not_true, decide_eq_false_iff_not]
      rintro rfl; exact hyr hz
  · rw [C23_stop_absent _ _ _ hy, C23_rotation p q x hx]
    congr 1
    have := List.takeWhile_append_of_pos (p := fun z => decide (z ≠ y)) (l₁ := x :: q ++ p) (l₂ := []) (by
      intro z hz
      simp only [decide_not, Bool.not_eq_eq_eq_not, Bool.not_true, decide_eq_false_iff_not]
      rintro rfl
      simp only [List.mem_append, List.mem_cons] at hy hz; tauto)
    simpa using this.symm

namespace Triangulation
variable {S T : Triangulation} {f : Int → Int}

theorem chain_iterate {s : Int → Int} : ∀ (l : List Int) (a : Int), List.IsChain (fun x y => y = s x) (a :: l) →
    a :: l = List.iterate s a (l.length + 1) := by
  intro l
  induction l with
  | nil => intro a _; rfl
  | cons b l ih =>
    intro a h
    rw [List.isChain_cons_cons] at h
    have := ih b h.2
    rw [List.length_cons, List.iterate, ← h.1, ← this]

theorem IsVertex.rotation {p q : List Int} {x : Int} (h : T.IsVertex (p ++ x :: q)) : x :: q ++ p = List.iterate T.spin x (p ++ x :: q).length := by
  have hc := h.chain
  have h1 := (List.isChain_append.1 hc)
  have : List.IsChain (fun x y => y = T.spin x) (x :: (q ++ p)) := by
    rw [← List.cons_append, List.isChain_append]
    refine ⟨h1.2.1, h1.1, ?_⟩
    intro a ha b hb
    have hcl := h.closes
    have e1 : (p ++ x :: q).getLast h.ne = a := by
      rw [List.getLast_append_of_ne_nil _ (by simp)]
      rw [List.getLast?_eq_getLast_of_ne_nil (by simp)] at ha
      simpa using ha
    rw [e1] at hcl
    rcases p with _ | ⟨c, p⟩
    · simp at hb
    · simp only [List.head?_cons, Option.mem_def, Option.some.injEq] at hb
      simp only [List.cons_append, List.head?_cons, Option.some.injEq] at hcl
      rw [← hb, hcl]
  have := chain_iterate _ _ this
  rw [List.cons_append, this]
  congr 1
  simp; omega

theorem Complete.edgeKey_ok (hT : T.Complete) {e : Int} (he : T.IsLabel e) : ∃ v w, T.vertexOf e = .ok v ∧ T.vertexOf (inv e) = .ok w ∧
    T.edgeKey e = .ok (v.length, ((List.iterate T.spin (inv e) w.length).takeWhile (fun z => z ≠ e)).length) := by
  obtain ⟨v, vs, h1, h2, h3, h4, h5, h6, h7⟩ := hT.vertexOf_ok he
  obtain ⟨w, ws, k1, k2, k3, k4, k5, k6, k7⟩ := hT.vertexOf_ok (isLabel_inv.2 he)
  refine ⟨v, w, h1, k1, ?_⟩
  unfold edgeKey
  rw [h1, py_bind_ok, k1, py_bind_ok]
  obtain ⟨p, q, rfl⟩ := List.append_of_mem k4
  have hp : inv e ∉ p := fun h => by
    rw [List.nodup_append] at k6
    exact k6.2.2 _ h _ (by simp) rfl
  rw [cyclicSlice_eq p q _ _ hp, py_bind_ok, k5.rotation]; rfl

theorem Complete.isLabel_iterate (hT : T.Complete) {e : Int} (he : T.IsLabel e) (n : Nat) : ∀ x ∈ List.iterate T.spin e n, T.IsLabel x := by
  induction n generalizing e with
  | zero => intro x hx; simp [List.iterate] at hx
  | succ n ih =>
    intro x hx
    simp only [List.iterate, List.mem_cons] at hx
    rcases hx with rfl | hx
    · exact he
    · exact ih (hT.isLabel_spin he) x hx

theorem IsIsometry.iterate (h : S.IsIsometry T f) (hS : S.Complete) (hT : T.Complete) {e : Int} (he : S.IsLabel e) (n : Nat) :
    List.iterate T.spin (f e) n = (List.iterate S.spin e n).map f := by
  induction n generalizing e with
  | zero => rfl
  | succ n ih =>
    simp only [List.iterate, List.map_cons]
    rw [← h.spin hS hT he, ih (hS.isLabel_spin he)]

theorem takeWhile_map_length {f : Int → Int} {e : Int} : ∀ (l : List Int), (∀ x ∈ l, f x = f e → x = e) →
    ((l.map f).takeWhile (fun z => z ≠ f e)).length = (l.takeWhile (fun z => z ≠ e)).length := by
  intro l
  induction l with
  | nil => intro _; rfl
  | cons a l ih =>
    intro h
    by_cases ha : a = e
    · simp [ha]
    · have : f a ≠ f e := fun h' => ha (h a (by simp) h')
      simp only [List.map_cons, List.takeWhile_cons, this, ha, ne_eq, not_false_eq_true, decide_true, if_true, List.length_cons]
      rw [ih (fun x hx => h x (by simp [hx]))]

/-- the key is an isometry invariant -/
theorem IsIsometry.edgeKey (h : S.IsIsometry T f) (hS : S.Complete) (hT : T.Complete) {e : Int} (he : S.IsLabel e) :
    T.edgeKey (f e) = S.edgeKey e := by
  obtain ⟨v, w, h1, h2, h3⟩ := hS.edgeKey_ok he
  obtain ⟨v', w', k1, k2, k3⟩ := hT.edgeKey_ok (h.maps e he)
  rw [h3, k3]
  have hi := isLabel_inv.2 he
  have e1 := h.vertex_length hS hT he h1 k1
  rw [← h.inverts e he] at k2 ⊢
  have e2 := h.vertex_length hS hT hi h2 k2
  rw [e1, e2, h.iterate hS hT hi, takeWhile_map_length]
  intro x hx hxe
  exact h.inj _ _ (hS.isLabel_iterate hi _ x hx) he hxe

/-! ### surfaces -/

theorem IsIsometry.adjacent (h : S.IsIsometry T f) {a b : Int} (ha : S.IsLabel a) (hab : S.Adjacent a b) : T.Adjacent (f a) (f b) := by
  rcases hab with rfl | ⟨c, hc⟩
  · exact .inl (h.inverts a ha)
  · exact .inr ⟨f c, h.glues _ _ _ hc⟩

theorem IsIsometry.joined (h : S.IsIsometry T f) (hS : S.Complete) {a b : Int} (ha : S.IsLabel a) (hab : S.Joined a b) : T.Joined (f a) (f b) := by
  induction hab with
  | refl => exact .refl
  | tail h1 h2 ih => exact ih.trans (.single (h.adjacent (hS.joined_isLabel h1 ha) h2))

theorem IsIsometry.joined_iff (h : S.IsIsometry T f) (hS : S.Complete) (hT : T.Complete) {a b : Int} (ha : S.IsLabel a) (hb : S.IsLabel b) :
    T.Joined (f a) (f b) ↔ S.Joined a b := by
  refine ⟨fun hj => ?_, h.joined hS ha⟩
  obtain ⟨g, hg, hgf, hfg⟩ := h.exists_inverse hS hT
  have := hg.joined hT (h.maps a ha) hj
  rwa [hgf a ha, hgf b hb] at this

/-- the components and vertices of a valid triangulation -/
theorem Complete.components_mem (hT : T.Complete) {cs : List (List Int)} (h : T.components = .ok cs) :
    cs.Nodup ∧ (∀ e, T.IsLabel e → ∃ c ∈ cs, e ∈ c) ∧ (∀ c ∈ cs, c ≠ [] ∧ c.Nodup ∧ ∀ e ∈ c, T.IsLabel e) ∧
    (∀ c ∈ cs, ∀ d ∈ cs, ∀ x ∈ c, ∀ y ∈ d, T.Joined x y → c = d) ∧ ∀ c ∈ cs, ∀ x ∈ c, ∀ y, y ∈ c ↔ T.Joined x y := by
  obtain ⟨cs', h1, h2, h3, h4⟩ := hT.components_ok
  rw [h] at h1; cases h1
  have hnd : cs.flatten.Nodup := h2.nodup_iff.2 nodup_labels
  have hdis := (List.nodup_flatten.1 hnd).2
  have hsame : ∀ c ∈ cs, ∀ d ∈ cs, ∀ x ∈ c, ∀ y ∈ d, T.Joined x y → c = d := by
    intro c hc d hd x hx y hy hj
    have hyc := ((h3 c hc).2.2 x hx y).2 hj
    by_contra hne
    haveI : Std.Symm (List.Disjoint (α := Int)) := ⟨fun _ _ h => h.symm⟩
    exact hdis.forall hc hd hne hyc hy
  refine ⟨?_, ?_, ?_, hsame, fun c hc x hx y => (h3 c hc).2.2 x hx y⟩
  · refine List.Pairwise.imp_of_mem ?_ hdis
    intro a b ha hb hd hab
    subst hab
    obtain ⟨x, hx⟩ := List.exists_mem_of_ne_nil _ (h3 a ha).1
    exact hd hx hx
  · intro e he
    have := h2.mem_iff.2 (mem_labels.2 he)
    rw [List.mem_flatten] at this
    exact this
  · intro c hc
    refine ⟨(h3 c hc).1, (List.nodup_flatten.1 hnd).1 c hc, ?_⟩
    intro e he
    rw [← mem_labels, ← h2.mem_iff]
    exact List.mem_flatten.2 ⟨c, hc, he⟩

/-- the number of vertices in a component -/
def nv (vs : List (List Int)) (c : List Int) : Nat := (vs.filter (fun vertex => vertex.head?.any (· ∈ c))).length

theorem Complete.mem_nv (hT : T.Complete) {vs cs : List (List Int)} (hv : T.vertices = .ok vs) (hc : T.components = .ok cs) {c v : List Int} (h : c ∈ cs) {x : Int}
    (hx : x ∈ v) : v ∈ vs.filter (fun vertex => vertex.head?.any (· ∈ c)) ↔ v ∈ vs ∧ x ∈ c := by
  rw [List.mem_filter]
  refine and_congr_right (fun hvs => ?_)
  obtain ⟨_, k2, _⟩ := hT.vertices_mem hv
  obtain ⟨l1, l2, l3⟩ := k2 v hvs
  obtain ⟨_, _, _, _, m5⟩ := hT.components_mem hc
  obtain ⟨y, l, rfl⟩ := List.exists_cons_of_ne_nil l1.ne
  simp only [List.head?_cons, Option.any_some, decide_eq_true_eq]
  have hyx := hT.joined_vertex l1 l3 (e := y) (by simp) hx
  exact ⟨fun h' => (m5 c h y h' x).2 hyx, fun h' => (m5 c h x h' y).2 hyx.symm⟩

theorem Complete.vertexOf_of_mem (hT : T.Complete) {vs : List (List Int)} (hv : T.vertices = .ok vs) {v : List Int} (h : v ∈ vs) {e : Int} (he : e ∈ v) :
    T.vertexOf e = .ok v := by
  obtain ⟨_, k2, k3, _⟩ := hT.vertices_mem hv
  obtain ⟨w, ws, h1, h2, h3, h4, _⟩ := hT.vertexOf_ok ((k2 v h).2.2 e he)
  rw [hv] at h2; cases h2
  rw [h1, k3 v h w h3 e he h4]

theorem Complete.nodup_vertices (hT : T.Complete) {vs : List (List Int)} (hv : T.vertices = .ok vs) : vs.Nodup := by
  obtain ⟨_, k2, _, k4⟩ := hT.vertices_mem hv
  refine List.Pairwise.imp_of_mem ?_ (List.nodup_flatten.1 k4).2
  intro a b ha hb hd hab
  subst hab
  obtain ⟨x, hx⟩ := List.exists_mem_of_ne_nil _ (k2 a ha).1.ne
  exact hd hx hx

theorem IsIsometry.surface_perm (h : S.IsIsometry T f) (hS : S.Complete) (hT : T.Complete) {vs ws cs ds : List (List Int)}
    (hvs : S.vertices = .ok vs) (hws : T.vertices = .ok ws) (hcs : S.components = .ok cs) (hds : T.components = .ok ds) :
    (cs.map (fun c => (nv vs c, c.length))).Perm (ds.map (fun d => (nv ws d, d.length))) := by
  obtain ⟨g, hg, hgf, hfg⟩ := h.exists_inverse hS hT
  obtain ⟨a1, a2, a3, a4, a5⟩ := hS.components_mem hcs
  obtain ⟨b1, b2, b3, b4, b5⟩ := hT.components_mem hds
  obtain ⟨c1, c2, c3, c4⟩ := hS.vertices_mem hvs
  obtain ⟨d1, d2, d3, d4⟩ := hT.vertices_mem hws
  refine perm_of_rel a1 b1 (fun c d => ∃ x ∈ c, f x ∈ d) ?_ ?_ ?_ ?_ _ _ ?_
  · intro c hc
    obtain ⟨x, hx⟩ := List.exists_mem_of_ne_nil _ (a3 c hc).1
    obtain ⟨d, hd, hxd⟩ := b2 (f x) (h.maps x ((a3 c hc).2.2 x hx))
    exact ⟨d, hd, x, hx, hxd⟩
  · intro d hd
    obtain ⟨y, hy⟩ := List.exists_mem_of_ne_nil _ (b3 d hd).1
    have hly := (b3 d hd).2.2 y hy
    obtain ⟨c, hc, hxc⟩ := a2 (g y) (hg.maps y hly)
    exact ⟨c, hc, g y, hxc, by rw [hfg y hly]; exact hy⟩
  · rintro c hc c' hc' d hd ⟨x, hx, hxd⟩ ⟨x', hx', hxd'⟩
    have := (b5 d hd _ hxd _).1 hxd'
    rw [h.joined_iff hS hT ((a3 c hc).2.2 x hx) ((a3 c' hc').2.2 x' hx')] at this
    exact a4 c hc c' hc' x hx x' hx' this
  · rintro c hc d hd d' hd' ⟨x, hx, hxd⟩ ⟨x', hx', hxd'⟩
    have := (a5 c hc x hx x').1 hx'
    have := h.joined hS ((a3 c hc).2.2 x hx) this
    exact b4 d hd d' hd' _ hxd _ hxd' this
  · rintro c hc d hd ⟨x, hx, hxd⟩
    have hlx := (a3 c hc).2.2 x hx
    have hmem : ∀ y, S.IsLabel y → (f y ∈ d ↔ y ∈ c) := by
      intro y hy
      rw [a5 c hc x hx y, b5 d hd _ hxd, h.joined_iff hS hT hlx hy]
    have e1 : c.length = d.length := by
      have := perm_of_rel (a3 c hc).2.1 (b3 d hd).2.1 (fun y z => z = f y)
        (fun y hy => ⟨f y, (hmem y ((a3 c hc).2.2 y hy)).2 hy, rfl⟩)
        (fun z hz => by
          have hlz := (b3 d hd).2.2 z hz
          have hgz := hg.maps z hlz
          exact ⟨g z, (hmem _ hgz).1 (by rw [hfg z hlz]; exact hz), (hfg z hlz).symm⟩)
        (fun y hy y' hy' z _ r r' => h.inj _ _ ((a3 c hc).2.2 y hy) ((a3 c hc).2.2 y' hy') (r ▸ r'))
        (fun y _ z _ z' _ r r' => r.trans r'.symm) (fun _ => ()) (fun _ => ()) (fun _ _ _ _ _ => rfl)
      simpa using this.length_eq
    have hne : ∀ v ∈ vs, ∃ y, y ∈ v := fun v hv => List.exists_mem_of_ne_nil _ (c2 v hv).1.ne
    have hne' : ∀ w ∈ ws, ∃ y, y ∈ w := fun w hw => List.exists_mem_of_ne_nil _ (d2 w hw).1.ne
    have e2 : nv vs c = nv ws d := by
      have := perm_of_rel ((hS.nodup_vertices hvs).filter (fun vertex => vertex.head?.any (· ∈ c)))
        ((hT.nodup_vertices hws).filter (fun vertex => vertex.head?.any (· ∈ d))) (fun v w => ∃ y ∈ v, f y ∈ w)
        (fun v hv => by
          obtain ⟨y, hy⟩ := hne v (List.mem_of_mem_filter hv)
          obtain ⟨hv, hyc⟩ := (hS.mem_nv hvs hcs hc hy).1 hv
          have hly := (a3 c hc).2.2 y hyc
          obtain ⟨w, hw, hyw⟩ := d1 (f y) (h.maps y hly)
          exact ⟨w, (hT.mem_nv hws hds hd hyw).2 ⟨hw, (hmem y hly).2 hyc⟩, y, hy, hyw⟩)
        (fun w hw => by
          obtain ⟨z, hz⟩ := hne' w (List.mem_of_mem_filter hw)
          obtain ⟨hw, hzd⟩ := (hT.mem_nv hws hds hd hz).1 hw
          have hlz := (b3 d hd).2.2 z hzd
          have hgz := hg.maps z hlz
          obtain ⟨v, hv, hyv⟩ := c1 (g z) hgz
          have hfz : f (g z) ∈ w := by rw [hfg z hlz]; exact hz
          exact ⟨v, (hS.mem_nv hvs hcs hc hyv).2 ⟨hv, (hmem _ hgz).1 (by rw [hfg z hlz]; exact hzd)⟩, g z, hyv, hfz⟩)
        (fun v hv v' hv' w hw => by
          rintro ⟨y, hy, hyw⟩ ⟨y', hy', hyw'⟩
          have hv := List.mem_of_mem_filter hv
          have hv' := List.mem_of_mem_filter hv'
          have hw := List.mem_of_mem_filter hw
          have hly := (c2 v hv).2.2 y hy
          have hly' := (c2 v' hv').2.2 y' hy'
          have k1 : T.vertexOf (f y) = .ok w := hT.vertexOf_of_mem hws hw hyw
          have k2 : S.vertexOf (g (f y)) = .ok v := by rw [hgf y hly]; exact hS.vertexOf_of_mem hvs hv hy
          have := hg.vertex_mem hT hS (h.maps y hly) k1 k2 _ hyw'
          rw [hgf y' hly'] at this
          exact c3 v hv v' hv' y' this hy')
        (fun v hv w hw w' hw' => by
          rintro ⟨y, hy, hyw⟩ ⟨y', hy', hyw'⟩
          have hv := List.mem_of_mem_filter hv
          have hw := List.mem_of_mem_filter hw
          have hw' := List.mem_of_mem_filter hw'
          have hly := (c2 v hv).2.2 y hy
          have := h.vertex_mem hS hT hly (hS.vertexOf_of_mem hvs hv hy) (hT.vertexOf_of_mem hws hw hyw) _ hy'
          exact d3 w hw w' hw' _ this hyw') (fun _ => ()) (fun _ => ()) (fun _ _ _ _ _ => rfl)
      simpa [nv] using this.length_eq
    rw [e1, e2]

theorem surfaceLe_total (a b : Int × Int × Int) : surfaceLe a b ∨ surfaceLe b a := by unfold surfaceLe; omega
theorem surfaceLe_trans (a b c : Int × Int × Int) : surfaceLe a b → surfaceLe b c → surfaceLe a c := by unfold surfaceLe; omega
theorem surfaceLe_antisymm (a b : Int × Int × Int) : surfaceLe a b → surfaceLe b a → a = b := by
  unfold surfaceLe
  intro h1 h2
  ext <;> omega

theorem surfaceSort_eq {l l' : List (Int × Int × Int)} (h : l.Perm l') : l.insertionSort surfaceLe = l'.insertionSort surfaceLe := by
  haveI : Std.Total surfaceLe := ⟨surfaceLe_total⟩
  haveI : IsTrans _ surfaceLe := ⟨surfaceLe_trans⟩
  haveI : Std.Antisymm surfaceLe := ⟨surfaceLe_antisymm⟩
  refine List.Perm.eq_of_pairwise' (r := surfaceLe) ?_ ?_ ?_
  · exact List.pairwise_insertionSort _ _
  · exact List.pairwise_insertionSort _ _
  · exact (List.perm_insertionSort _ _).trans (h.trans (List.perm_insertionSort _ _).symm)

theorem IsIsometry.surface (h : S.IsIsometry T f) (hS : S.Valid) (hT : T.Valid) {s t : List (List Int × (Int × Int × Int))} (hs : S.surface = .ok s) (ht : T.surface = .ok t) :
    (s.map Prod.snd).insertionSort surfaceLe = (t.map Prod.snd).insertionSort surfaceLe := by
  obtain ⟨vs, cs, a1, a2, a3, _⟩ := hS.surface_spec
  obtain ⟨ws, ds, b1, b2, b3, _⟩ := hT.surface_spec
  rw [hs] at a3; rw [ht] at b3
  cases a3; cases b3
  apply surfaceSort_eq
  have hp := h.surface_perm hS.comp hT.comp a1 b1 a2 b2
  have := hp.map (fun p : Nat × Nat => (((2 - (p.1 : Int) + (p.2 : Int) / 2 / 3) / 2, (p.1 : Int), Int.fdiv (-((p.2 : Int) / 2)) 3) : Int × Int × Int))
  rw [List.map_map, List.map_map] at this
  rw [List.map_map, List.map_map]
  exact this

/-! ### the search -/

/-- the key, as a function -/
def keyOf (T : Triangulation) (e : Int) : Nat × Nat := (T.edgeKey e).toOption.getD (0, 0)

theorem Complete.edgeKey_eq (hT : T.Complete) {e : Int} (he : T.IsLabel e) : T.edgeKey e = .ok (T.keyOf e) := by
  obtain ⟨v, w, _, _, h⟩ := hT.edgeKey_ok he
  unfold keyOf; rw [h]; rfl

theorem Complete.maxByKey_ok (hT : T.Complete) {c : List Int} (hc : c ≠ []) (hl : ∀ e ∈ c, T.IsLabel e) : ∃ e ∈ c, T.maxByKey c = .ok e := by
  rcases c with _ | ⟨a, l⟩
  · exact absurd rfl hc
  unfold maxByKey
  dsimp only
  rw [hT.edgeKey_eq (hl a (by simp)), py_bind_ok]
  have : ∀ (l' : List Int) (b : Int × (Nat × Nat)), (∀ e ∈ l', e ∈ l) → b.1 ∈ a :: l → ∃ b', l'.foldlM (fun (b : Int × (Nat × Nat)) e' => do
      let k' ← T.edgeKey e'
      return if keyLt b.2 k' then (e', k') else b) b = (.ok b' : Py _) ∧ b'.1 ∈ a :: l := by
    intro l'
    induction l' with
    | nil => intro b _ hb; exact ⟨b, rfl, hb⟩
    | cons e l' ih =>
      intro b he hb
      have hel := he e (by simp)
      rw [List.foldlM_cons, hT.edgeKey_eq (hl e (by simp [hel])), py_bind_ok, py_pure, py_bind_ok]
      apply ih _ (fun x hx => he x (by simp [hx]))
      split
      · simp [hel]
      · exact hb
  obtain ⟨b, h1, h2⟩ := this l (a, T.keyOf a) (fun _ h => h) (by simp)
  exact ⟨b.1, h2, by rw [h1]; rfl⟩

end Triangulation

theorem mem_pyProduct {α : Type} : ∀ {ls : List (List α)} {c : List α}, c ∈ pyProduct ls ↔ List.Forall₂ (fun x l => x ∈ l) c ls := by
  intro ls
  induction ls with
  | nil => intro c; simp [pyProduct]
  | cons l ls ih =>
    intro c
    simp only [pyProduct, List.mem_flatMap, List.mem_map]
    constructor
    · rintro ⟨x, hx, c', hc', rfl⟩; exact .cons hx (ih.1 hc')
    · intro h
      cases h with
      | cons h1 h2 => exact ⟨_, h1, _, ih.2 h2, rfl⟩

theorem nodup_pyProduct {α : Type} : ∀ {ls : List (List α)}, (∀ l ∈ ls, l.Nodup) → (pyProduct ls).Nodup := by
  intro ls
  induction ls with
  | nil => intro _; simp [pyProduct]
  | cons l ls ih =>
    intro h
    simp only [pyProduct]
    rw [List.nodup_flatMap]
    refine ⟨fun x _ => (ih (fun l hl => h l (by simp [hl]))).map (fun _ _ h => by injection h), ?_⟩
    refine List.Pairwise.imp ?_ (h l (by simp))
    intro a b hab
    rw [Function.onFun, List.disjoint_left]
    intro c hc hc'
    rw [List.mem_map] at hc hc'
    obtain ⟨_, _, rfl⟩ := hc
    obtain ⟨_, _, h'⟩ := hc'
    injection h' with h1 h2
    exact hab h1.symm

theorem filterMap_split {α β : Type _} {P : List α} (hP : P.Nodup) (F : α → Option β) (Q : β → Prop) {c : α} {m : β} (hc : c ∈ P) (hm : F c = some m)
    (hu : ∀ c' ∈ P, ∀ m', F c' = some m' → Q m' → c' = c) :
    ∃ l₁ l₂, P.filterMap F = l₁ ++ m :: l₂ ∧ ∀ m' ∈ l₁ ++ l₂, ¬ Q m' := by
  obtain ⟨p, q, rfl⟩ := List.append_of_mem hc
  refine ⟨p.filterMap F, q.filterMap F, by simp [List.filterMap_append, List.filterMap_cons, hm], ?_⟩
  rw [List.nodup_append, List.nodup_cons] at hP
  intro m' hm' hq
  rw [List.mem_append, List.mem_filterMap, List.mem_filterMap] at hm'
  rcases hm' with ⟨x, hx, hf⟩ | ⟨x, hx, hf⟩
  · have := hu x (by simp [hx]) m' hf hq
    subst this
    exact hP.2.2 x hx x (by simp) rfl
  · have := hu x (by simp [hx]) m' hf hq
    subst this
    exact hP.2.1.1 hx

theorem filterMap_toOption {α β : Type _} (F : α → Option β) (P : List α) : (P.map F).filterMap id = P.filterMap F := by
  rw [List.filterMap_map]; rfl

namespace Triangulation
variable {S T : Triangulation}

theorem zip_keys {α β : Type _} : ∀ {s : List α} {c : List β}, c.length = s.length → (s.zip c).map Prod.fst = s := by
  intro s
  induction s with
  | nil => intro c h; simp
  | cons a s ih =>
    intro c h
    rcases c with _ | ⟨b, c⟩
    · simp at h
    · simp at h ⊢; exact ih h

/-- what is listed -/
theorem Valid.isometriesTo_main (hS : S.Valid) (hT : T.Valid) : ∃ l, S.isometriesTo T = .ok l ∧ (∀ m ∈ l, m.Legal ∧ ∃ f, m.IsIsometryMove S T f) ∧
    ∀ f, S.IsIsometry T f → ∃ l₁ m l₂, l = l₁ ++ m :: l₂ ∧ m.IsIsometryMove S T f ∧ ∀ m' ∈ l₁ ++ l₂, ¬ m'.IsIsometryMove S T f := by
  have hSc := hS.comp
  have hTc := hT.comp
  unfold isometriesTo
  by_cases hz : S.zeta = T.zeta
  swap
  · rw [if_pos hz]
    exact ⟨[], rfl, by simp, fun f hf => absurd hf.zeta.symm hz⟩
  rw [if_neg (by simpa using hz)]
  obtain ⟨s, hs⟩ := hS.surface_ok
  obtain ⟨t, ht⟩ := hT.surface_ok
  simp only [hs, ht, py_bind_ok]
  by_cases hsurf : (s.map Prod.snd).insertionSort surfaceLe = (t.map Prod.snd).insertionSort surfaceLe
  swap
  · rw [if_pos hsurf]
    exact ⟨[], rfl, by simp, fun f hf => absurd (hf.surface hS hT hs ht) hsurf⟩
  rw [if_neg (by simpa using hsurf)]
  obtain ⟨cs, hcs, _⟩ := hSc.components_ok
  obtain ⟨a1, a2, a3, a4, a5⟩ := hSc.components_mem hcs
  simp only [hcs, py_bind_ok]
  let src : List Int → Int := fun c => (S.maxByKey c).toOption.getD 0
  have hsrc : ∀ c ∈ cs, S.maxByKey c = .ok (src c) ∧ src c ∈ c := by
    intro c hc
    obtain ⟨e, he, h1⟩ := hSc.maxByKey_ok (a3 c hc).1 (a3 c hc).2.2
    have : src c = e := by simp only [src]; rw [h1]; rfl
    rw [this]; exact ⟨h1, he⟩
  have hsl : ∀ e ∈ cs.map src, S.IsLabel e := by
    intro e he
    obtain ⟨c, hc, rfl⟩ := List.mem_map.1 he
    exact (a3 c hc).2.2 _ (hsrc c hc).2
  have hsn : (cs.map src).Nodup := List.Nodup.map_on (fun c hc d hd hcd => a4 c hc d hd _ (hsrc c hc).2 _ (hsrc d hd).2 (hcd ▸ .refl)) a1
  rw [mapM_ok (g := src) (fun c hc => (hsrc c hc).1), py_bind_ok,
    mapM_ok (g := S.keyOf) (fun e he => hSc.edgeKey_eq (hsl e he)), py_bind_ok]
  have htar : ∀ value : Nat × Nat, (do
      let keys ← T.labels.mapM (fun e => do
        let k ← T.edgeKey e
        return (e, k))
      return (keys.filter (fun p => p.2 == value)).map Prod.fst) = (.ok (T.labels.filter (fun e => T.keyOf e == value)) : Py _) := by
    intro value
    rw [mapM_ok (g := fun e => (e, T.keyOf e)) (fun e he => by rw [hTc.edgeKey_eq (mem_labels.1 he)]; rfl), py_bind_ok, py_pure, List.filter_map,
      List.map_map]
    congr 1
    exact List.map_id _
  simp only [htar]
  rw [mapM_ok (g := fun value => T.labels.filter (fun e => T.keyOf e == value)) (fun _ _ => rfl), py_bind_ok]
  set sources := cs.map src with hsources
  set targets := (sources.map S.keyOf).map (fun value => T.labels.filter (fun e => T.keyOf e == value)) with htargets
  have hmem : ∀ chosen, chosen ∈ pyProduct targets ↔ List.Forall₂ (fun x e => T.IsLabel x ∧ T.keyOf x = S.keyOf e) chosen sources := by
    intro chosen
    rw [mem_pyProduct, htargets, List.map_map, List.forall₂_map_right_iff]
    simp only [Function.comp, List.mem_filter, mem_labels, beq_iff_eq]
  have hnodup : (pyProduct targets).Nodup := by
    apply nodup_pyProduct
    intro l hl
    rw [htargets, List.mem_map] at hl
    obtain ⟨v, _, rfl⟩ := hl
    exact nodup_labels.filter _
  have hd : ∀ chosen ∈ pyProduct targets, PyDict.keys (sources.zip chosen) = sources ∧
      ∀ p ∈ sources.zip chosen, S.IsLabel p.1 ∧ T.IsLabel p.2 := by
    intro chosen hch
    have hF := (hmem chosen).1 hch
    refine ⟨zip_keys hF.length_eq, ?_⟩
    intro p hp
    refine ⟨hsl p.1 (List.of_mem_zip hp).1, ?_⟩
    have : ∀ x ∈ chosen, T.IsLabel x := by
      clear hp hch
      intro x hx
      generalize sources = ss at hF
      induction hF with
      | nil => simp at hx
      | cons h1 h2 ih =>
        rw [List.mem_cons] at hx
        rcases hx with rfl | hx
        · exact h1.1
        · exact ih hx
    exact this _ (List.of_mem_zip hp).2
  let F : List Int → Option LMove := fun chosen => (S.findIsometry T (sources.zip chosen)).toOption
  have hfound : ∀ chosen ∈ pyProduct targets, S.tryFindIsometry T (sources.zip chosen) = .ok (F chosen) ∧
      ((∃ m f, F chosen = some m ∧ m.IsIsometryMove S T f ∧ m.Legal ∧ S.ExtendsTo T (sources.zip chosen) f) ∨
        (F chosen = none ∧ ∀ f, ¬ S.ExtendsTo T (sources.zip chosen) f)) := by
    intro chosen hch
    obtain ⟨k1, k2⟩ := hd chosen hch
    rcases hS.findIsometry_main hT (by rw [k1]; exact hsn) k2 hz.symm with ⟨m, f, h1, h2, h3, h4⟩ | ⟨h1, h2⟩
    · refine ⟨?_, .inl ⟨m, f, ?_, h2, h3, h4⟩⟩
      · unfold tryFindIsometry; simp only [F, h1]; rfl
      · simp only [F, h1]; rfl
    · refine ⟨?_, .inr ⟨?_, h2⟩⟩
      · unfold tryFindIsometry; simp only [F, h1]; rfl
      · simp only [F, h1]; rfl
  rw [mapM_ok (g := F) (fun c hc => (hfound c hc).1), py_bind_ok]
  refine ⟨_, rfl, ?_, ?_⟩
  · intro m hm
    rw [filterMap_toOption, List.mem_filterMap] at hm
    obtain ⟨c, hc, hF⟩ := hm
    rcases (hfound c hc).2 with ⟨m', f, h1, h2, h3, _⟩ | ⟨h1, _⟩
    · rw [hF] at h1; cases h1; exact ⟨h3, f, h2⟩
    · rw [hF] at h1; cases h1
  · intro f hf
    rw [filterMap_toOption]
    have hch : sources.map f ∈ pyProduct targets := by
      rw [hmem, List.forall₂_map_left_iff, List.forall₂_same]
      intro e he
      refine ⟨hf.maps e (hsl e he), ?_⟩
      unfold keyOf
      rw [hf.edgeKey hSc hTc (hsl e he)]
    have hext : S.ExtendsTo T (sources.zip (sources.map f)) f := by
      refine ⟨hf, ?_, ?_⟩
      · intro e v hev
        rw [List.mem_iff_getElem] at hev
        obtain ⟨i, hi, hev⟩ := hev
        simp at hev
        rw [← hev.1, ← hev.2]
      · intro e he hno
        obtain ⟨c, hc, hec⟩ := a2 e he
        rw [(hd _ hch).1] at hno
        exact absurd ((a5 c hc _ (hsrc c hc).2 e).1 hec) (hno (src c) (List.mem_map.2 ⟨c, hc, rfl⟩))
    rcases (hfound _ hch).2 with ⟨m, g, h1, h2, h3, h4⟩ | ⟨_, h2⟩
    swap
    · exact absurd hext (h2 f)
    have hgf : ∀ e, S.IsLabel e → g e = f e := ExtendsTo.unique hSc hTc (fun k hk => by rw [(hd _ hch).1] at hk; exact hsl k hk) h4 hext
    have hmf : m.IsIsometryMove S T f := by
      obtain ⟨i, i1, i2, i3, i4, i5⟩ := h2
      refine ⟨i, i1, i2, i3, ⟨i4.1, ?_⟩, hf⟩
      intro e v
      rw [i4.2]
      exact and_congr_right (fun he => by rw [hgf e he])
    obtain ⟨l₁, l₂, k1, k2⟩ := filterMap_split hnodup F (fun m' => m'.IsIsometryMove S T f) hch h1 (by
      intro c hc m' hm' hq
      rcases (hfound c hc).2 with ⟨m'', g', j1, j2, j3, j4⟩ | ⟨j1, _⟩
      swap
      · rw [hm'] at j1; cases j1
      rw [hm'] at j1; cases j1
      have hgg : ∀ e, S.IsLabel e → g' e = f e := by
        obtain ⟨i, i1, i2, i3, i4, i5⟩ := hq
        obtain ⟨i', i1', i2', i3', i4', i5'⟩ := j2
        rw [i1] at i1'; cases i1'
        intro e he
        exact ((i4.2 e (g' e)).1 ((i4'.2 e (g' e)).2 ⟨he, rfl⟩)).2
      have hlen := ((hmem c).1 hc).length_eq
      apply List.ext_getElem (by rw [List.length_map, hlen])
      intro n n1 n2
      rw [List.length_map] at n2
      rw [List.getElem_map, ← hgg _ (hsl _ (List.getElem_mem n2))]
      symm
      apply j4.extends_map
      rw [List.mem_iff_getElem]
      exact ⟨n, by simp; omega, by simp⟩)
    exact ⟨l₁, m, l₂, k1, hmf, k2⟩

end Triangulation
end Curver
