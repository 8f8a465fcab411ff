import Verif.Proofs.TwistCount

namespace Curver
open Triangulation
namespace Triangulation
variable {T : Triangulation} {a b e : Int} {X : List Int}

theorem Loop.range_iff (h : Loop T a b e X) {y : Int} : h.fan.Range b y ↔ y ∈ a :: X := by
  obtain ⟨X', hX⟩ := h.sweep.first h.valid.comp h.glues h.ne_nil
  have hn := h.nodup
  rw [hX] at hn
  have hn' := (List.nodup_cons.1 hn).1
  have hm : ∀ x, x ∈ fold e X ↔ x ∈ X ∧ x ≠ e ∧ x ≠ inv e := by
    intro x
    unfold fold
    rw [List.mem_filter, hX, List.tail_cons]
    simp only [ne_eq, decide_not, Bool.not_eq_eq_eq_not, Bool.not_true, decide_eq_false_iff_not, List.mem_cons]
    constructor
    · rintro ⟨h1, h2⟩; exact ⟨.inr h1, h2, fun k => hn' (k ▸ h1)⟩
    · rintro ⟨h1 | h1, h2, h3⟩
      · exact absurd h1 h3
      · exact ⟨h1, h2⟩
  have B := h.fan.base
  have hib : inv b ∈ fold e X ↔ e ∈ X := by
    rw [hm, h.e_mem_iff]
    exact ⟨fun k => k.1, fun k => ⟨k, B.left_inv_b.ne, B.left_inv_b.ni⟩⟩
  unfold Fan.Range
  rw [hib, List.mem_cons]
  constructor
  · rintro (h1 | h1 | ⟨x, hx, rfl⟩ | ⟨rfl, h1⟩)
    · exact .inl h1
    · exact .inr (h1 ▸ h.b_mem)
    · refine .inr ?_
      unfold hat; split
      · exact h.inv_e_mem
      · exact ((hm x).1 hx).1
    · exact .inr h1
  · rintro (h1 | h1)
    · exact .inl h1
    · by_cases h2 : y = b
      · exact .inr (.inl h2)
      by_cases h3 : y = e
      · exact .inr (.inr (.inr ⟨h3, h3 ▸ h1⟩))
      by_cases h4 : y = inv e
      · exact .inr (.inr (.inl ⟨b, h.fan.b_mem, by rw [Base.hat_b, h4]⟩))
      · exact .inr (.inr (.inl ⟨y, (hm y).2 ⟨h1, h3, h4⟩, (Base.hat_of_ne h2).symm⟩))

/-- the edges of the sweep between the first and the last, other than `e` -/
theorem Loop.mem_hat (h : Loop T a b e X) {y : Int} : (∃ x ∈ fold e X, y = hat b e x) ↔ y ∈ X.dropLast ∧ y ≠ e := by
  have hr := h.range_iff (y := y)
  have B := h.fan.base
  rw [h.mem_dropLast]
  constructor
  · rintro ⟨x, hx, rfl⟩
    have hne := B.hat_ne (h.fan.left x hx).1
    have : hat b e x ∈ a :: X := h.range_iff.1 (.inr (.inr (.inl ⟨x, hx, rfl⟩)))
    rcases List.mem_cons.1 this with k | k
    · exact absurd k hne.1
    · exact ⟨⟨k, hne.2.1⟩, hne.2.2⟩
  · rintro ⟨⟨h1, h2⟩, h3⟩
    rcases hr.2 (by simp [h1]) with k | k | k | k
    · exact absurd (k ▸ h1) h.a_notin
    · exact absurd k h2
    · exact k
    · exact absurd k.1 h3

section
variable {R : Type} [CommRing R] [LinearOrder R] [IsStrictOrderedRing R]

theorem WRun.at_a {K : List Int} (F : Fan T a b e K) {d : Int} {rest : List Int} {U U'' : Int → R} (h : WRun T a b e d rest U U'') : F.At d rest → U'' a = U a := by
  induction h with
  | nil d U => intro _; rfl
  | cons d d' p rest U U' U'' h hr ih =>
    intro hA
    rw [ih hA.next]
    exact (h.values F.base (F.left d hA.mem).1 (F.left d' hA.next.mem).2).1

variable [Halvable R]

/-- the bijection of laminations given by a twist -/
structure Loop.Action (T : Triangulation) (a b e : Int) (X : List Int) (σ : Equiv.Perm (LamOn R T)) : Prop where
  noArcs : ∀ L, (σ L).1.NoArcs ↔ L.1.NoArcs
  cls : ∀ L, (σ L).1.cls = L.1.cls
  run : ∀ L : LamOn R T, L.1.NoArcs → WRun T a b e b (fold e X) (T.wts L.1) (T.wts (σ L).1)

/-- twice the weight of the corner to the left of the edge -/
noncomputable def cor (L : LamOn R T) (x : Int) : R := T.lw2 (T.wts L.1) x

theorem cor_eq (hT : T.Complete) (L : LamOn R T) {x y z : Int} (h : T.Glues x y z) : T.cor L x = L.1.w x + L.1.w z - L.1.w y := by
  have hl := hT.label_of_glues h
  unfold cor
  rw [hT.lw2_eq h, wts_eq hl.1, wts_eq hl.2.1, wts_eq hl.2.2]

theorem cor_nonneg (hT : T.Complete) {L : LamOn R T} (hL : L.1.NoArcs) {x : Int} (hx : T.IsLabel x) : 0 ≤ T.cor L x := by
  obtain ⟨y, z, hg⟩ := hT.exists_glues hx
  rw [cor_eq hT L hg]
  have := (Lam.noArcs_iff.1 hL).2 y z x (by rw [L.2.2]; exact hg.rot)
  linarith [this.2]

/-- `M` is `L` with `t` copies of the curve added -/
def Shifts (X : List Int) (L : LamOn R T) (t : R) (M : LamOn R T) : Prop :=
  M.1.cls = L.1.cls ∧ ∀ x, T.IsLabel x → M.1.w x = L.1.w x + t * (cn X x : Int)

omit [IsStrictOrderedRing R] in
theorem LamOn.ext' {L M : LamOn R T} (hc : M.1.cls = L.1.cls) (hw : ∀ x, T.IsLabel x → M.1.w x = L.1.w x) : M = L := by
  apply Subtype.ext
  refine Lam.ext_w (M.2.2.trans L.2.2.symm) hc M.2.1.1.2 L.2.1.1.2 ?_
  intro x hx
  exact hw x (by rwa [M.2.2] at hx)

omit [IsStrictOrderedRing R] in
theorem Shifts.unique {L M M' : LamOn R T} {t : R} (h : Shifts X L t M) (h' : Shifts X L t M') : M = M' :=
  LamOn.ext' (h.1.trans h'.1.symm) (fun x hx => by rw [h.2 x hx, h'.2 x hx])

omit [IsStrictOrderedRing R] in
theorem Shifts.trans {L M N : LamOn R T} {t u : R} (h : Shifts X L t M) (h' : Shifts X M u N) : Shifts X L (t + u) N :=
  ⟨h'.1.trans h.1, fun x hx => by rw [h'.2 x hx, h.2 x hx]; ring⟩

omit [IsStrictOrderedRing R] in
theorem Shifts.symm {L M : LamOn R T} {t : R} (h : Shifts X L t M) : Shifts X M (-t) L :=
  ⟨h.1.symm, fun x hx => by rw [h.2 x hx]; ring⟩

omit [IsStrictOrderedRing R] in
theorem Shifts.zero (L : LamOn R T) : Shifts X L 0 L := ⟨rfl, fun x _ => by ring⟩

theorem Shifts.cor (h : Loop T a b e X) {L M : LamOn R T} {t : R} (hs : Shifts X L t M) {x y z : Int} (hg : T.Glues x y z) :
    T.cor M x = T.cor L x + t * ((cn X x + cn X z - cn X y : Int) : R) := by
  have hc := h.valid.comp
  have hl := hc.label_of_glues hg
  rw [cor_eq hc M hg, cor_eq hc L hg, hs.2 x hl.1, hs.2 y hl.2.1, hs.2 z hl.2.2]
  push_cast; ring

variable {σ : Equiv.Perm (LamOn R T)} {L M : LamOn R T} {t μ : R}

namespace Loop

theorem shift_a (h : Loop T a b e X) (hs : Shifts X L t M) : T.cor M a = T.cor L a := by
  rw [hs.cor h h.glues, h.cn_a, h.cn_b, h.cn_e]; simp

theorem shift_b (h : Loop T a b e X) (hs : Shifts X L t M) : T.cor M b = T.cor L b := by
  rw [hs.cor h h.glues.rot, h.cn_a, h.cn_b, h.cn_e]; simp

theorem shift_wa (h : Loop T a b e X) (hs : Shifts X L t M) : M.1.w a = L.1.w a := by
  rw [hs.2 a h.sweep.label, h.cn_a]; simp

theorem shift_e (h : Loop T a b e X) (hs : Shifts X L t M) : T.cor M e = T.cor L e + 2 * t * (1 + X.count e) := by
  rw [hs.cor h h.glues.rot.rot, h.cn_a, h.cn_b, h.cn_e]; push_cast; ring

theorem shift_other (h : Loop T a b e X) (hs : Shifts X L t M) {x : Int} (hx : T.IsLabel x) (hn : x ≠ a ∧ x ≠ b ∧ x ≠ e) :
    T.cor M x = T.cor L x + 2 * t * X.count x := by
  obtain ⟨y, z, hg⟩ := h.valid.comp.exists_glues hx
  rw [hs.cor h hg, h.corner_other hg hn]; push_cast; ring

theorem shift_mem (h : Loop T a b e X) (hs : Shifts X L t M) {x : Int} (hx : x ∈ X.dropLast) (hn : x ≠ e) :
    T.cor M x = T.cor L x + 2 * t := by
  obtain ⟨h1, h2⟩ := h.mem_dropLast.1 hx
  rw [h.shift_other hs (h.sweep.labels h.valid.comp x h1) ⟨fun k => h.a_notin (k ▸ h1), h2, hn⟩, List.count_eq_one_of_mem h.nodup h1]
  push_cast; ring

/-- at least -/
theorem shift_ge (h : Loop T a b e X) (hs : Shifts X L t M) (ht : 0 ≤ t) {x : Int} (hx : x ∈ X.dropLast) : T.cor L x + 2 * t ≤ T.cor M x := by
  by_cases hn : x = e
  · subst hn
    rw [h.shift_e hs, List.count_eq_one_of_mem h.nodup (h.mem_dropLast.1 hx).1]
    push_cast; linarith
  · rw [h.shift_mem hs hx hn]

theorem cor_ab (h : Loop T a b e X) (L : LamOn R T) : T.cor L a + T.cor L b = 2 * L.1.w a ∧ T.cor L b = L.1.w b + L.1.w a - L.1.w e := by
  rw [cor_eq h.valid.comp L h.glues, cor_eq h.valid.comp L h.glues.rot]
  constructor
  · ring
  · ring

theorem wts_symm (L : LamOn R T) {x : Int} (hx : T.IsLabel x) : T.wts L.1 (inv x) = T.wts L.1 x := by
  rw [wts_eq hx, wts_eq (isLabel_inv.2 hx), Lam.w_inv]

/-- one twist, when all turns shift by the same amount -/
theorem shift_one (h : Loop T a b e X) (hσ : Loop.Action T a b e X σ) (hL : L.1.NoArcs) (ht : T.cor L b = L.1.w a + t)
    (hd : ∀ x ∈ X.dropLast, x ≠ e → L.1.w a - t ≤ T.cor L x) : Shifts X L t (σ L) := by
  have F := h.fan
  have B := F.base
  have hl := B.labels
  have hr := hσ.run L hL
  have hb : T.wts L.1 b = T.wts L.1 e + t := by
    rw [wts_eq hl.2.1, wts_eq hl.2.2]
    have := (h.cor_ab L).2
    linarith
  obtain ⟨h1, h2, h3⟩ := hr.shift t (Fan.At.start F) hb (by
    intro x hx
    rw [wts_eq hl.1]
    have hm : x ∈ fold e X := F.rotated.mem_iff.1 hx
    obtain ⟨k1, k2⟩ := h.mem_hat.1 ⟨x, hm, rfl⟩
    exact hd _ k1 k2)
  have main : ∀ y, T.Left a e y → (σ L).1.w (hat b e y) = L.1.w (hat b e y) + t * (cn X (hat b e y) : Int) := by
    intro y hy
    have := h1 y hy
    have lh := B.hat_label hy
    rw [wts_eq lh, wts_eq lh, F.rotated.count_eq] at this
    rw [this, h.count_fold hy]
    push_cast; rfl
  refine ⟨hσ.cls L, ?_⟩
  intro x hx
  by_cases k1 : x = a
  · subst k1
    rw [wts_eq hx, wts_eq hx] at h3
    rw [h3, h.cn_a]; simp
  by_cases k2 : x = b
  · subst k2
    have := main (inv x) B.left_inv_b
    rw [Base.hat_of_ne (inv_ne x), Lam.w_inv, Lam.w_inv, cn_inv] at this
    exact this
  by_cases k3 : x = e
  · subst k3
    have := main b B.left_b
    rw [Base.hat_b, Lam.w_inv, Lam.w_inv, cn_inv] at this
    exact this
  · obtain ⟨y, hy, rfl⟩ := B.exists_hat hx ⟨k1, k2, k3⟩
    exact main y hy

/-- `μ` is the least corner weight along the sweep -/
def IsMin (a : Int) (X : List Int) (L : LamOn R T) (μ : R) : Prop := (∀ y ∈ a :: X, μ ≤ T.cor L y) ∧ ∃ y ∈ a :: X, T.cor L y = μ

theorem exists_min (a : Int) (X : List Int) (L : LamOn R T) : ∃ μ, IsMin a X L μ := by
  have : ∀ (l : List R), l ≠ [] → ∃ m ∈ l, ∀ x ∈ l, m ≤ x := by
    intro l hl
    induction l with
    | nil => exact absurd rfl hl
    | cons x l ih =>
      by_cases h : l = []
      · subst h; exact ⟨x, by simp, by simp⟩
      · obtain ⟨m, h1, h2⟩ := ih h
        rcases le_total x m with k | k
        · refine ⟨x, by simp, ?_⟩
          intro y hy
          rcases List.mem_cons.1 hy with rfl | hy
          · exact le_rfl
          · exact k.trans (h2 y hy)
        · refine ⟨m, by simp [h1], ?_⟩
          intro y hy
          rcases List.mem_cons.1 hy with rfl | hy
          · exact k
          · exact h2 y hy
  obtain ⟨m, h1, h2⟩ := this ((a :: X).map (T.cor L)) (by simp)
  obtain ⟨y, hy, rfl⟩ := List.mem_map.1 h1
  exact ⟨_, fun z hz => h2 _ (List.mem_map_of_mem hz), y, hy, rfl⟩

omit [IsStrictOrderedRing R] in
theorem IsMin.unique {μ' : R} (h : IsMin a X L μ) (h' : IsMin a X L μ') : μ = μ' := by
  obtain ⟨y, hy, k⟩ := h.2
  obtain ⟨y', hy', k'⟩ := h'.2
  exact le_antisymm (k' ▸ h.1 y' hy') (k ▸ h'.1 y hy)

theorem min_step (h : Loop T a b e X) (hσ : Loop.Action T a b e X σ) (hL : L.1.NoArcs) (hm : IsMin a X L μ) : IsMin a X (σ L) μ := by
  have F := h.fan
  have hr := hσ.run L hL
  have h1 : ∀ y ∈ a :: X, μ ≤ T.cor (σ L) y := fun y hy =>
    hr.ge (Fan.At.start h.fan) (μ := μ) (fun z hz => hm.1 z (h.range_iff.1 hz)) y (h.range_iff.2 hy)
  refine ⟨h1, ?_⟩
  obtain ⟨y, hy, k⟩ := hm.2
  have hat : h.fan.Low b (T.wts L.1) μ ∨ T.lw2 (T.wts L.1) b ≤ μ := by
    by_cases hb : y = b
    · exact .inr (hb ▸ k.le)
    · exact .inl ⟨y, h.range_iff.2 hy, hb, k.le⟩
  rcases hr.attained (Fan.At.start h.fan) hat with ⟨z, hz, _, hl⟩ | hl
  · exact ⟨z, h.range_iff.1 hz, le_antisymm hl (h1 z (h.range_iff.1 hz))⟩
  · exact ⟨b, by simp [h.b_mem], le_antisymm hl (h1 b (by simp [h.b_mem]))⟩

theorem wa_step (h : Loop T a b e X) (hσ : Loop.Action T a b e X σ) (hL : L.1.NoArcs) : (σ L).1.w a = L.1.w a := by
  have := (hσ.run L hL).at_a h.fan (Fan.At.start h.fan)
  rwa [wts_eq h.sweep.label, wts_eq h.sweep.label] at this

/-- after one twist the least corner is the one at `a` -/
theorem low_step (h : Loop T a b e X) (hσ : Loop.Action T a b e X σ) (hL : L.1.NoArcs) (hm : IsMin a X L μ) (hlow : ∃ y ∈ a :: X, y ≠ b ∧ T.cor L y = μ) : T.cor (σ L) a = μ := by
  have hr := hσ.run L hL
  obtain ⟨y, hy, hb, k⟩ := hlow
  have hA : h.fan.Ahead b (fold e X) (T.wts L.1) μ := by
    rcases h.range_iff.2 hy with k1 | k1 | ⟨x, hx, k1⟩ | ⟨k1, k2⟩
    · exact .inl (k1 ▸ k.le)
    · exact absurd k1 hb
    · exact .inr (.inl ⟨x, h.fan.rotated.mem_iff.2 hx, k1 ▸ k.le⟩)
    · exact .inr (.inr ⟨k2, k1 ▸ k.le⟩)
  exact le_antisymm (hr.ahead (Fan.At.start h.fan) hA) ((h.min_step hσ hL hm).1 a (by simp))

theorem dip_step (h : Loop T a b e X) (hσ : Loop.Action T a b e X σ) (hL : L.1.NoArcs) (hm : IsMin a X L μ) (hb : T.cor L b = μ)
    (hd : ∃ x ∈ X.dropLast, x ≠ e ∧ T.cor L x < T.cor L a) : ∃ y ∈ a :: X, y ≠ b ∧ T.cor (σ L) y = μ := by
  have hr := hσ.run L hL
  obtain ⟨x, hx, hxe, k⟩ := hd
  obtain ⟨x', hx', rfl⟩ := h.mem_hat.2 ⟨hx, hxe⟩
  obtain ⟨y, hy, k1, k2⟩ := hr.dip (Fan.At.start h.fan) hb.le ⟨x', h.fan.rotated.mem_iff.2 hx', k⟩
  have hy' := h.range_iff.1 hy
  exact ⟨y, hy', k1, le_antisymm k2 ((h.min_step hσ hL hm).1 y hy')⟩

end Loop
end
end Triangulation
end Curver
