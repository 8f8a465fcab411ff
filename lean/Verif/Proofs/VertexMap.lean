import Verif.Proofs.FlipRoom
import Verif.Proofs.Peripheral
import Verif.Proofs.Encoding

namespace Curver
open Triangulation
variable {R : Type} [CommRing R] [LinearOrder R] [IsStrictOrderedRing R] [Halvable R]

namespace Lam
variable {L M N : Lam R} {m : Int → R}

/-- there is room for `m` curves around each vertex -/
structure Fits (L : Lam R) (m : Int → R) : Prop where
  const : ∀ e f, L.tri.IsLabel e → L.tri.SV e f → m e = m f
  room : ∀ a b c, L.tri.Glues a b c → TriRoom (max (L.w a) 0) (max (L.w b) 0) (max (L.w c) 0) (m a) (m b) (m c)

/-- `N` is `L` without `m` curves around each vertex -/
structure Removes (N L : Lam R) (m : Int → R) : Prop where
  tri : N.tri = L.tri
  length : N.geometric.length = L.geometric.length
  w : ∀ e, L.tri.IsLabel e → N.w e = L.w e - (m e + m (inv e))

theorem fits_iff (hL : L.Consistent) : L.Fits m ↔ (∀ e, L.tri.IsLabel e → 0 ≤ m e) ∧ (∀ e f, L.tri.IsLabel e → L.tri.SV e f → m e = m f) ∧
    (∀ e x, L.tri.IsLabel e → L.leftWeight e = .ok x → m e ≤ max x 0) := by
  have hc := hL.1.1.comp
  have key : ∀ a b c, L.tri.Glues a b c → ∃ x y z, L.leftWeight a = .ok y ∧ L.leftWeight b = .ok z ∧ L.leftWeight c = .ok x ∧
      TriDual (max (L.w a) 0) (max (L.w b) 0) (max (L.w c) 0) x y z := by
    intro a b c hg
    have la := hc.label_of_glues hg
    obtain ⟨x, hx⟩ := hL.2 a la.1
    obtain ⟨y, hy⟩ := hL.2 b la.2.1
    obtain ⟨z, hz⟩ := hL.2 c la.2.2
    refine ⟨x, y, z, ?_, ?_, ?_, (duals_iff hL.1 hg).1 ⟨hx, hy, hz⟩⟩
    · rw [leftWeight_eq hL.1 hg, hy]
    · rw [leftWeight_eq hL.1 hg.rot, hz]
    · rw [leftWeight_eq hL.1 hg.rot.rot, hx]
  constructor
  · rintro ⟨h1, h2⟩
    refine ⟨?_, h1, ?_⟩
    · intro e he
      obtain ⟨b, c, hg⟩ := hc.exists_glues he
      exact (h2 e b c hg).p0
    · intro e x he hx
      obtain ⟨b, c, hg⟩ := hc.exists_glues he
      obtain ⟨x', y, z, k1, k2, k3, k4⟩ := key e b c hg
      rw [hx] at k1; cases k1
      exact ((triRoom_iff k4).1 (h2 e b c hg)).2.1
  · rintro ⟨h1, h2, h3⟩
    refine ⟨h2, ?_⟩
    intro a b c hg
    have la := hc.label_of_glues hg
    obtain ⟨x, y, z, k1, k2, k3, k4⟩ := key a b c hg
    exact (triRoom_iff k4).2 ⟨⟨h1 a la.1, h1 b la.2.1, h1 c la.2.2⟩, h3 a y la.1 k1, h3 b z la.2.1 k2, h3 c x la.2.2 k3⟩

theorem IsMult.fits (hL : L.Consistent) (hm : L.IsMult m) : L.Fits m := (fits_iff hL).2 ⟨hm.nonneg, hm.const, hm.le⟩

/-- the multiplicities are the largest that fit -/
theorem IsMult.of_largest (hL : L.Consistent) (hm : L.Fits m) (h : ∀ n, L.Fits n → ∀ e, L.tri.IsLabel e → n e ≤ m e) : L.IsMult m := by
  have h1 := (fits_iff hL).1 hm
  have hmu := isMult_mu hL
  have h2 := h _ (hmu.fits hL)
  refine ⟨h1.1, h1.2.1, h1.2.2, ?_⟩
  intro e he
  obtain ⟨f, x, k1, k2, k3⟩ := hmu.attained e he
  refine ⟨f, x, k1, k2, le_antisymm ?_ (k3 ▸ h2 e he)⟩
  rw [h1.2.1 e f he k1]
  exact h1.2.2 f x (hL.1.1.comp.sv_label he k1) k2

theorem IsMult.largest (hL : L.Consistent) (hm : L.IsMult m) {n : Int → R} (hn : L.Fits n) {e : Int} (he : L.tri.IsLabel e) : n e ≤ m e := by
  obtain ⟨f, x, k1, k2, k3⟩ := hm.attained e he
  rw [k3, hn.const e f he k1]
  exact ((fits_iff hL).1 hn).2.2 f x (hL.1.1.comp.sv_label he k1) k2

theorem tail_inv (hc : L.tri.Complete) (h : ∀ e f, L.tri.IsLabel e → L.tri.SV e f → m e = m f) {a b c : Int} (hg : L.tri.Glues a b c) :
    m (Curver.inv a) = m b := by
  have h' : L.tri.SV b (Curver.inv a) := hc.sv_glues (b := c) (by rw [inv_inv]; exact hg.rot)
  exact (h b _ (hc.label_of_glues hg).2.1 h').symm

theorem Removes.wellFormed (hL : L.WellFormed) (h : N.Removes L m) : N.WellFormed := ⟨by rw [h.tri]; exact hL.1, by rw [h.length, h.tri]; exact hL.2⟩

/-- positive parts -/
theorem Removes.max_w (hL : L.WellFormed) (hm : L.Fits m) (h : N.Removes L m) {a b c : Int} (hg : L.tri.Glues a b c) :
    max (N.w a) 0 = max (L.w a) 0 - m a - m b := by
  have la := hL.1.comp.label_of_glues hg
  rw [h.w a la.1, tail_inv hL.1.comp hm.const hg]
  obtain ⟨p0, q0, r0, h1, -⟩ := hm.room a b c hg
  rcases le_total (L.w a) 0 with h | h
  · rw [max_eq_right h] at h1 ⊢
    have q1 : m a = 0 := by linarith
    have q2 : m b = 0 := by linarith
    rw [q1, q2]; simp [h]
  · rw [max_eq_left h] at h1 ⊢
    rw [max_eq_left (by linarith)]; ring

theorem Removes.consistent (hL : L.Consistent) (hm : L.Fits m) (h : N.Removes L m) : N.Consistent := by
  have hc := hL.1.1.comp
  have hN := h.wellFormed hL.1
  refine ⟨hN, ?_⟩
  intro e he
  rw [h.tri] at he
  obtain ⟨b, c, hg⟩ := hc.exists_glues he
  have la := hc.label_of_glues hg
  obtain ⟨x, hx⟩ := hL.2 e la.1
  obtain ⟨y, hy⟩ := hL.2 b la.2.1
  obtain ⟨z, hz⟩ := hL.2 c la.2.2
  have hd := (duals_iff hL.1 hg).1 ⟨hx, hy, hz⟩
  have k := (triRoom_iff hd).1 (hm.room e b c hg)
  have := hd.sub k.1.1 k.1.2.1 k.1.2.2 k.2.1 k.2.2.1 k.2.2.2
  rw [← h.max_w hL.1 hm hg, ← h.max_w hL.1 hm hg.rot, ← h.max_w hL.1 hm hg.rot.rot] at this
  exact ⟨_, ((duals_iff hN (show N.tri.Glues e b c by rw [h.tri]; exact hg)).2 this).1⟩

theorem exists_removes (hL : L.WellFormed) (m : Int → R) : ∃ N : Lam R, N.Removes L m := by
  refine ⟨⟨L.tri, (List.range L.tri.zeta).map (fun (i : Nat) => L.w (i : Int) - (m (i : Int) + m (Curver.inv (i : Int)))), L.cls⟩, rfl, ?_, ?_⟩
  · simp [hL.2]
  · intro e he
    have hi := idx_lt he
    unfold Lam.w
    dsimp only
    rw [List.getElem?_map, List.getElem?_range hi]
    simp only [Option.map_some, Option.getD_some]
    rw [Int.toNat_of_nonneg (norm_nonneg e)]
    have hn : norm (norm e) = norm e := norm_of_nonneg (norm_nonneg e)
    rw [hn]
    congr 1
    rcases lt_or_ge e 0 with h | h
    · rw [norm_of_neg h, inv_inv, add_comm]
    · rw [norm_of_nonneg h]

end Lam

/-- edges with corresponding tails -/
structure VCorr (S T : Triangulation) (C : Int → Int → Prop) : Prop where
  lab : ∀ x y, C x y → S.IsLabel x ∧ T.IsLabel y
  total : ∀ x, S.IsLabel x → ∃ y, C x y
  surj : ∀ y, T.IsLabel y → ∃ x, C x y
  sv : ∀ x y x' y', C x y → C x' y' → (S.SV x x' ↔ T.SV y y')

theorem VCorr.push {α : Type} [Nonempty α] {S T : Triangulation} {C : Int → Int → Prop} (h : VCorr S T C) (hT : T.Complete) {m : Int → α}
    (hm : ∀ e f, S.IsLabel e → S.SV e f → m e = m f) :
    ∃ m' : Int → α, (∀ x y, C x y → m' y = m x) ∧ ∀ e f, T.IsLabel e → T.SV e f → m' e = m' f := by
  classical
  have : ∀ y, ∃ v, ∀ x, C x y → v = m x := by
    intro y
    by_cases hy : T.IsLabel y
    · obtain ⟨x, hx⟩ := h.surj y hy
      refine ⟨m x, fun x' hx' => hm x x' (h.lab x y hx).1 ((h.sv x y x' y hx hx').2 (hT.sv_refl hy))⟩
    · exact ⟨Classical.arbitrary α, fun x hx => absurd (h.lab x y hx).2 hy⟩
  choose m' hm' using this
  refine ⟨m', fun x y hxy => hm' y x hxy, ?_⟩
  intro e f he hef
  obtain ⟨x, hx⟩ := h.surj e he
  obtain ⟨x', hx'⟩ := h.surj f (hT.sv_label he hef)
  rw [hm' e x hx, hm' f x' hx']
  exact hm x x' (h.lab _ _ hx).1 ((h.sv _ _ _ _ hx hx').2 hef)

theorem VCorr.comp {S T U : Triangulation} {C D : Int → Int → Prop} (h : VCorr S T C) (h' : VCorr T U D)  :
    VCorr S U (fun x z => ∃ y, C x y ∧ D y z) where
  lab := by rintro x z ⟨y, h1, h2⟩; exact ⟨(h.lab _ _ h1).1, (h'.lab _ _ h2).2⟩
  total := by
    intro x hx
    obtain ⟨y, hy⟩ := h.total x hx
    obtain ⟨z, hz⟩ := h'.total y (h.lab _ _ hy).2
    exact ⟨z, y, hy, hz⟩
  surj := by
    intro z hz
    obtain ⟨y, hy⟩ := h'.surj z hz
    obtain ⟨x, hx⟩ := h.surj y (h'.lab _ _ hy).1
    exact ⟨x, y, hx, hy⟩
  sv := by
    rintro x z x' z' ⟨y, h1, h2⟩ ⟨y', h1', h2'⟩
    rw [h.sv _ _ _ _ h1 h1', h'.sv _ _ _ _ h2 h2']

theorem VCorr.symm {S T : Triangulation} {C : Int → Int → Prop} (h : VCorr S T C) : VCorr T S (fun y x => C x y) where
  lab := fun y x h' => (h.lab x y h').symm
  total := h.surj
  surj := h.total
  sv := fun y x y' x' h1 h2 => (h.sv x y x' y' h1 h2).symm

/-- the map `a` moves the curves around the vertices as `C` says -/
structure Carries (S T : Triangulation) (a : Lam R → Py (Lam R)) (C : Int → Int → Prop) : Prop where
  fits : ∀ (L L' : Lam R) (m m' : Int → R), L.Consistent → L.tri = S → a L = .ok L' → L.Fits m → (∀ x y, C x y → m' y = m x) →
    (∀ e f, T.IsLabel e → T.SV e f → m' e = m' f) →
    L'.Fits m' ∧ ∀ N : Lam R, N.Removes L m → ∃ N', a N = .ok N' ∧ N'.Removes L' m'
  zero : ∀ L L' : Lam R, L.Consistent → L.tri = S → a L = .ok L' → (∀ e, S.IsLabel e → L.w e = 0) → ∀ e, T.IsLabel e → L'.w e = 0

/-! ## multiflips -/

namespace Triangulation.IsMultiflip
variable {S T : Triangulation} {es : List Int}

theorem sv_iff : ∀ (es : List Int) (S T : Triangulation), S.Valid → S.DisjointSupport es → S.IsMultiflip es T → ∀ x y, S.IsLabel x → x ∉ sides es → y ∉ sides es →
    (S.SV x y ↔ T.SV x y) := by
  intro es
  induction es with
  | nil =>
    intro S T hS hd h x y hx _ _
    have hn : S.IsMultiflip [] S := ⟨hS, rfl, fun _ _ _ h _ => h, by simp⟩
    rw [hn.unique hS.comp (by simp) h]
  | cons e es ih =>
    intro S T hS hd h x y hx nx ny
    have hf := hd.flippable (e := e) (by simp)
    obtain ⟨S₁, h1, -⟩ := hS.encodeFlip_eq hf
    have hdt := (h1.disjoint_tail hS hd).1
    obtain ⟨T', -, h2⟩ := h1.valid.multiflipTarget_ok hdt
    rw [h.unique hS.comp hd.1 (h1.cons hS hd h2)]
    obtain ⟨ε, a, b, c, d, D⟩ := hf.flipData hS h1
    rw [show sides (e :: es) = e :: inv e :: sides es from rfl] at nx ny
    simp only [List.mem_cons, not_or] at nx ny
    rw [← D.sv hx ⟨nx.1, nx.2.1⟩ ⟨ny.1, ny.2.1⟩]
    exact ih S₁ T' h1.valid hdt h2 x y (h1.isLabel_iff.2 hx) nx.2.2 ny.2.2

/-- every vertex is the tail of an edge that is not flipped -/
theorem off (hS : S.Valid) (hd : S.DisjointSupport es) {x : Int} (hx : S.IsLabel x) : ∃ z, z ∉ sides es ∧ S.SV x z := by
  by_cases h : x ∈ sides es
  · obtain ⟨b, c, hg⟩ := hS.comp.exists_glues hx
    refine ⟨inv c, ?_, hS.comp.sv_glues (by rw [inv_inv]; exact hg)⟩
    rw [inv_mem_sides]
    exact (((hS.comp.disjoint_iff' hd.1).1 hd).2 x h b c hg).2
  · exact ⟨x, h, hS.comp.sv_refl hx⟩

/-- corresponding tails -/
def corr (S : Triangulation) (es : List Int) (T : Triangulation) (x y : Int) : Prop := S.IsLabel x ∧ ∃ z, z ∉ sides es ∧ S.SV x z ∧ T.SV z y

theorem vcorr (hS : S.Valid) (hd : S.DisjointSupport es) (h : S.IsMultiflip es T) : VCorr S T (corr S es T) where
  lab := by
    rintro x y ⟨hx, z, -, h1, h2⟩
    exact ⟨hx, h.valid.comp.sv_label (h.isLabel_iff.2 (hS.comp.sv_label hx h1)) h2⟩
  total := by
    intro x hx
    obtain ⟨z, h1, h2⟩ := off hS hd hx
    exact ⟨z, hx, z, h1, h2, h.valid.comp.sv_refl (h.isLabel_iff.2 (hS.comp.sv_label hx h2))⟩
  surj := by
    intro y hy
    have hd' := h.disjoint hS hd
    obtain ⟨z, h1, h2⟩ := off h.valid hd' hy
    rw [mem_sides_map_inv] at h1
    have hz := h.isLabel_iff.1 (h.valid.comp.sv_label hy h2)
    exact ⟨z, hz, z, h1, hS.comp.sv_refl hz, h.valid.comp.sv_symm hy h2⟩
  sv := by
    rintro x y x' y' ⟨hx, z, n1, h1, h2⟩ ⟨hx', z', n1', h1', h2'⟩
    have hc := hS.comp
    have hc' := h.valid.comp
    have lz := hc.sv_label hx h1
    have lz' := hc.sv_label hx' h1'
    have mz := h.isLabel_iff.2 lz
    have mz' := h.isLabel_iff.2 lz'
    have e1 : S.SV x x' ↔ S.SV z z' := by
      constructor
      · intro k; exact hc.sv_trans lz (hc.sv_symm hx h1) (hc.sv_trans hx k h1')
      · intro k; exact hc.sv_trans hx h1 (hc.sv_trans lz k (hc.sv_symm hx' h1'))
    have e2 : T.SV y y' ↔ T.SV z z' := by
      have ly := hc'.sv_label mz h2
      have ly' := hc'.sv_label mz' h2'
      constructor
      · intro k; exact hc'.sv_trans mz h2 (hc'.sv_trans ly k (hc'.sv_symm mz' h2'))
      · intro k; exact hc'.sv_trans ly (hc'.sv_symm mz h2) (hc'.sv_trans mz k h2')
    rw [e1, e2]
    exact sv_iff es S T hS hd h z z' lz n1 n1'


theorem carries (hS : S.Valid) (hd : S.DisjointSupport es) (h : S.IsMultiflip es T) {a : Lam R → Py (Lam R)}
    (ha : ∀ L L' : Lam R, L.WellFormed → L.tri = S → (a L = .ok L' ↔ L'.tri = T ∧ Lam.FlipsTo es L L')) : Carries S T a (corr S es T) where
  fits := by
    rintro L L' m m' hL rfl hLL hm hp hc'
    obtain ⟨rfl, F⟩ := (ha L L' hL.1 rfl).1 hLL
    have hc := hS.comp
    have hT := h.valid.comp
    have hds := ((hc.disjoint_iff' hd.1).1 hd).2
    have same : ∀ x, L.tri.IsLabel x → x ∉ sides es → m' x = m x := fun x hx nx =>
      hp x x ⟨hx, x, nx, hc.sv_refl hx, hT.sv_refl (h.isLabel_iff.2 hx)⟩
    -- the squares
    have square : ∀ e ∈ es, ∃ ε a b c d, (ε = e ∨ ε = inv e) ∧ L.tri.Glues e a b ∧ L.tri.Glues (inv e) c d ∧ L'.tri.Glues ε d a ∧ L'.tri.Glues (inv ε) b c ∧
        (a ∉ sides es ∧ b ∉ sides es ∧ c ∉ sides es ∧ d ∉ sides es) ∧
        FlipCase (max (L.w a) 0) (max (L.w b) 0) (max (L.w c) 0) (max (L.w d) 0) (L.w e) (L'.w e) ∧
        TriRoom (max (L.w e) 0) (max (L.w a) 0) (max (L.w b) 0) (m c) (m a) (m b) ∧
        TriRoom (max (L.w e) 0) (max (L.w c) 0) (max (L.w d) 0) (m a) (m c) (m d) ∧
        m e = m c ∧ m (inv e) = m a ∧ m' ε = m b ∧ m' (inv ε) = m d := by
      intro e he
      have hle := hd.1 e he
      have s1 : e ∈ sides es := mem_sides.2 (.inl he)
      obtain ⟨a, b, g1⟩ := hc.exists_glues hle
      obtain ⟨c, d, g2⟩ := hc.exists_glues (isLabel_inv.2 hle)
      have l1 := hc.label_of_glues g1
      have l2 := hc.label_of_glues g2
      have n1 := hds e s1 a b g1
      have n2 := hds (inv e) (inv_mem_sides.2 s1) c d g2
      have e1 : m (inv e) = m a := Lam.tail_inv hc hm.const g1
      have e2 : m e = m c := by have := Lam.tail_inv hc hm.const g2; rwa [inv_inv] at this
      have r1 := hm.room e a b g1
      have r2 := hm.room (inv e) c d g2
      rw [Lam.w_inv, e1] at r2
      rw [e2] at r1
      have fc := (flipWeight_ok_iff (le_max_right _ _) (le_max_right _ _) (le_max_right _ _) (le_max_right _ _)).1 (F.new e he a b c d g1 g2)
      have : ∃ ε, (ε = e ∨ ε = inv e) ∧ L'.tri.Glues ε d a ∧ L'.tri.Glues (inv ε) b c := by
        have hn := h.new e he a b c d g1 g2
        rcases lt_or_ge e 0 with h0 | h0
        · exact ⟨inv e, .inr rfl, (hn.2 h0).1, by rw [inv_inv]; exact (hn.2 h0).2⟩
        · exact ⟨e, .inl rfl, hn.1 h0⟩
      obtain ⟨ε, h0, t1, t2⟩ := this
      refine ⟨ε, a, b, c, d, h0, g1, g2, t1, t2, ⟨n1.1, n1.2, n2.1, n2.2⟩, fc, r1, r2, e2, e1, ?_, ?_⟩
      · have := Lam.tail_inv hT hc' t2
        rw [inv_inv] at this
        rw [this, same b l1.2.2 n1.2]
      · rw [Lam.tail_inv hT hc' t1, same d l2.2.2 n2.2]
    refine ⟨⟨hc', ?_⟩, ?_⟩
    · have key : ∀ u v w, L'.tri.Glues u v w → u ∈ sides es → TriRoom (max (L'.w u) 0) (max (L'.w v) 0) (max (L'.w w) 0) (m' u) (m' v) (m' w) := by
        intro u v w hg hu
        have : ∃ e ∈ es, u = e ∨ u = inv e := by
          rcases mem_sides.1 hu with k | k
          · exact ⟨u, k, .inl rfl⟩
          · exact ⟨inv u, k, .inr (inv_inv u).symm⟩
        obtain ⟨e, he, hue⟩ := this
        obtain ⟨ε, a, b, c, d, k0, k1, k2, k3, k4, ⟨n1, n2, n3, n4⟩, k5, k6, k7, k8, k9, k10, k11⟩ := square e he
        have l1 := hc.label_of_glues k1
        have l2 := hc.label_of_glues k2
        have hue' : u = ε ∨ u = inv ε := by
          rcases k0 with rfl | rfl
          · exact hue
          · rw [inv_inv]; exact hue.symm
        have hw : L'.w u = L'.w e := by
          rcases hue with rfl | rfl
          · rfl
          · rw [Lam.w_inv]
        rcases hue' with rfl | rfl
        · obtain ⟨rfl, rfl⟩ := hT.glues_unique hg k3
          rw [hw, F.kept' l2.2.2 n4, F.kept' l1.2.1 n1, k10, same _ l2.2.2 n4, same _ l1.2.1 n1]
          exact FlipCase.room1 (le_max_right _ _) (le_max_right _ _) (le_max_right _ _) (le_max_right _ _) k5 k6 k7
        · obtain ⟨rfl, rfl⟩ := hT.glues_unique hg k4
          rw [hw, F.kept' l1.2.2 n2, F.kept' l2.2.1 n3, k11, same _ l1.2.2 n2, same _ l2.2.1 n3]
          exact FlipCase.room2 (le_max_right _ _) (le_max_right _ _) (le_max_right _ _) (le_max_right _ _) k5 k6 k7
      intro x y z hg
      by_cases hx : x ∈ sides es
      · exact key x y z hg hx
      by_cases hy : y ∈ sides es
      · exact (key y z x hg.rot hy).rot.rot
      by_cases hz : z ∈ sides es
      · exact (key z x y hg.rot.rot hz).rot
      have hg' := (h.kept_iff hc hd hx hy hz).1 hg
      have l := hc.label_of_glues hg'
      rw [F.kept' l.1 hx, F.kept' l.2.1 hy, F.kept' l.2.2 hz, same _ l.1 hx, same _ l.2.1 hy, same _ l.2.2 hz]
      exact hm.room x y z hg'
    · intro N hN
      have hNc := hN.consistent hL hm
      obtain ⟨N', hN1, hN2⟩ := hNc.flipsTo (es := es) (by rw [hN.tri]; exact hd) L'.tri
      refine ⟨N', (ha N N' hNc.1 hN.tri).2 ⟨hN1, hN2⟩, hN1, by rw [hN2.length, hN.length, F.length], ?_⟩
      have main : ∀ e ∈ es, N'.w e = L'.w e - (m' e + m' (inv e)) := by
        intro e he
        obtain ⟨ε, a, b, c, d, k0, k1, k2, k3, k4, ⟨n1, n2, n3, n4⟩, k5, k6, k7, k8, k9, k10, k11⟩ := square e he
        have hsum : m' e + m' (inv e) = m b + m d := by
          rcases k0 with rfl | rfl
          · rw [k10, k11]
          · rw [inv_inv] at k11; rw [k10, k11, add_comm]
        have l1 := hc.label_of_glues k1
        have f1 := hN2.new e he a b c d (by rw [hN.tri]; exact k1) (by rw [hN.tri]; exact k2)
        rw [flipWeight_ok_iff (le_max_right _ _) (le_max_right _ _) (le_max_right _ _) (le_max_right _ _)] at f1
        have f2 := FlipCase.remove k5 k6 k7
        have wa := hN.max_w hL.1 hm k1.rot
        have wb := hN.max_w hL.1 hm k1.rot.rot
        have wc := hN.max_w hL.1 hm k2.rot
        have wd := hN.max_w hL.1 hm k2.rot.rot
        rw [k8] at wb
        rw [k9] at wd
        have we : N.w e = L.w e - m c - m a := by rw [hN.w e l1.1, k8, k9]; ring
        rw [← wa, ← wb, ← wc, ← wd, ← we] at f2
        have := f1.unique (le_max_right _ _) (le_max_right _ _) (le_max_right _ _) (le_max_right _ _) f2
        rw [this, hsum]; ring
      intro u hu
      have hu' := h.isLabel_iff.1 hu
      by_cases hs : u ∈ sides es
      · rcases mem_sides.1 hs with k | k
        · exact main u k
        · have := main _ k
          rw [inv_inv, Lam.w_inv, Lam.w_inv] at this
          rw [this]; ring
      · rw [hN2.kept' (by rw [hN.tri]; exact hu') hs, hN.w u hu', F.kept' hu' hs, same u hu' hs, same _ (isLabel_inv.2 hu') (by rwa [inv_mem_sides])]
  zero := by
    rintro L L' hL rfl hLL hz
    obtain ⟨rfl, F⟩ := (ha L L' hL.1 rfl).1 hLL
    have hc := hS.comp
    have key : ∀ e ∈ es, L'.w e = 0 := by
      intro e he
      have hle := hd.1 e he
      obtain ⟨a, b, g1⟩ := hc.exists_glues hle
      obtain ⟨c, d, g2⟩ := hc.exists_glues (isLabel_inv.2 hle)
      have l1 := hc.label_of_glues g1
      have l2 := hc.label_of_glues g2
      have fc := (flipWeight_ok_iff (le_max_right _ _) (le_max_right _ _) (le_max_right _ _) (le_max_right _ _)).1 (F.new e he a b c d g1 g2)
      rw [hz _ l1.1, hz _ l1.2.1, hz _ l1.2.2, hz _ l2.2.1, hz _ l2.2.2, max_self] at fc
      refine fc.unique le_rfl le_rfl le_rfl le_rfl ?_
      have := FlipCase.links (R := R) (p := 0) (q := 0) (r := 0) (s := 0) le_rfl le_rfl le_rfl le_rfl
      simpa using this
    intro e he
    have he' := h.isLabel_iff.1 he
    by_cases hs : e ∈ sides es
    · rcases mem_sides.1 hs with k | k
      · exact key e k
      · rw [← Lam.w_inv]; exact key _ k
    · rw [F.kept' he' hs, hz e he']

end Triangulation.IsMultiflip

/-! ## isometries -/

namespace Triangulation.IsIsometry
variable {S T : Triangulation} {f : Int → Int}

theorem sv (hS : S.Complete) (hT : T.Complete) (h : S.IsIsometry T f) {x y : Int} (hx : S.IsLabel x) (hxy : S.SV x y) : T.SV (f x) (f y) := by
  refine hS.sv_induct hx hxy (fun y => T.SV (f x) (f y)) (hT.sv_refl (h.maps x hx)) ?_
  intro z hz hP
  refine hT.sv_trans (h.maps x hx) hP ?_
  obtain ⟨b, c, hg⟩ := hS.exists_glues hz
  have h2 := ((hS.glues_iff hz).1 hg).2
  have : S.spin z = inv c := by unfold Triangulation.spin; rw [← h2]
  rw [this, h.inverts c (hS.label_of_glues hg).2.2]
  exact hT.sv_glues (by rw [inv_inv]; exact h.glues _ _ _ hg)

theorem sv_iff (hS : S.Complete) (hT : T.Complete) (h : S.IsIsometry T f) {x y : Int} (hx : S.IsLabel x) (hy : S.IsLabel y) : S.SV x y ↔ T.SV (f x) (f y) := by
  obtain ⟨g, hg, h1, h2⟩ := h.exists_inverse hS hT
  refine ⟨h.sv hS hT hx, fun k => ?_⟩
  have := hg.sv hT hS (h.maps x hx) k
  rwa [h1 x hx, h1 y hy] at this

def corr (S : Triangulation) (f : Int → Int) (x y : Int) : Prop := S.IsLabel x ∧ y = f x

theorem vcorr (hS : S.Complete) (hT : T.Complete) (h : S.IsIsometry T f) : VCorr S T (corr S f) where
  lab := by rintro x y ⟨hx, rfl⟩; exact ⟨hx, h.maps x hx⟩
  total := fun x hx => ⟨f x, hx, rfl⟩
  surj := fun y hy => by obtain ⟨x, hx, rfl⟩ := h.surj hy; exact ⟨x, hx, rfl⟩
  sv := by rintro x y x' y' ⟨hx, rfl⟩ ⟨hx', rfl⟩; exact h.sv_iff hS hT hx hx'

theorem carries (hS : S.Valid) (hT : T.Valid) (h : S.IsIsometry T f) {a : Lam R → Py (Lam R)}
    (ha : ∀ L L' : Lam R, L.WellFormed → L.tri = S → (a L = .ok L' ↔ L'.tri = T ∧ L.MapsTo f L'))
    (ha' : ∀ L : Lam R, L.WellFormed → L.tri = S → ∃ L', a L = .ok L') : Carries S T a (corr S f) where
  fits := by
    rintro L L' m m' hL rfl hLL hm hp hc'
    obtain ⟨rfl, F⟩ := (ha L L' hL.1 rfl).1 hLL
    refine ⟨⟨hc', ?_⟩, ?_⟩
    · intro x y z hg
      obtain ⟨g, hgi, h1, h2⟩ := h.exists_inverse hS.comp hT.comp
      have hg' := hgi.glues _ _ _ hg
      have l := hT.comp.label_of_glues hg
      have l' := hS.comp.label_of_glues hg'
      have := hm.room _ _ _ hg'
      rw [← F.2.2 _ l'.1, ← F.2.2 _ l'.2.1, ← F.2.2 _ l'.2.2, ← hp (g x) _ ⟨l'.1, rfl⟩, ← hp (g y) _ ⟨l'.2.1, rfl⟩, ← hp (g z) _ ⟨l'.2.2, rfl⟩,
        h2 x l.1, h2 y l.2.1, h2 z l.2.2] at this
      exact this
    · intro N hN
      have hw := hN.wellFormed hL.1
      obtain ⟨N', hN'⟩ := ha' N hw hN.tri
      refine ⟨N', hN', ?_⟩
      obtain ⟨k1, k2⟩ := (ha N N' hw hN.tri).1 hN'
      refine ⟨k1, by rw [k2.2.1, hN.length, F.2.1], ?_⟩
      intro e he
      obtain ⟨x, hx, rfl⟩ := h.surj he
      rw [k2.2.2 x (by rw [hN.tri]; exact hx), hN.w x hx, F.2.2 x hx, hp x _ ⟨hx, rfl⟩, ← h.inverts x hx, hp (inv x) _ ⟨isLabel_inv.2 hx, rfl⟩]
  zero := by
    rintro L L' hL rfl hLL hz
    obtain ⟨rfl, F⟩ := (ha L L' hL.1 rfl).1 hLL
    intro e he
    obtain ⟨x, hx, rfl⟩ := h.surj he
    rw [F.2.2 x hx, hz x hx]

end Triangulation.IsIsometry

/-! ## moves and paths -/

/-- corresponding tails for a move -/
theorem LMove.Legal.carries {m : LMove} (h : m.Legal) : ∃ C, VCorr m.move.source m.move.target C ∧
    ∀ (R : Type) [CommRing R] [LinearOrder R] [IsStrictOrderedRing R] [Halvable R], Carries (R := R) m.move.source m.move.target m.move.applyLam C := by
  cases h.shape with
  | flip S T e hS he hm =>
    have hd := disjoint_singleton.2 he
    refine ⟨_, hm.vcorr hS hd, fun R _ _ _ _ => hm.carries hS hd ?_⟩
    rintro L L' hL rfl
    exact ef_applyLam_iff hL he
  | multiflip S T es hS he hm =>
    refine ⟨_, hm.vcorr hS he, fun R _ _ _ _ => hm.carries hS he ?_⟩
    rintro L L' hL rfl
    exact mf_applyLam_iff hL he
  | isometry S T f g i i' hS hT hf hg hi hi' hgf hfg =>
    simp only [Move.source, Move.target, hi.source, hi.target]
    refine ⟨_, hf.vcorr hS.comp hT.comp, fun R _ _ _ _ => hf.carries hS hT (fun L L' hL ht => hi.applyLam_iff hf hL ht) ?_⟩
    intro L hL ht
    obtain ⟨L', h1, _⟩ := hi.applyLam hf hL ht
    exact ⟨L', h1⟩

theorem Path.carries {S T : Triangulation} {ms : List LMove} (h : Path S ms T) : ∃ C, VCorr S T C ∧
    ∀ (R : Type) [CommRing R] [LinearOrder R] [IsStrictOrderedRing R] [Halvable R], Carries (R := R) S T (Curver.performLam ms) C := by
  induction h with
  | nil T hT =>
    refine ⟨fun x y => T.IsLabel x ∧ y = x, ⟨?_, ?_, ?_, ?_⟩, fun R _ _ _ _ => ⟨?_, ?_⟩⟩
    · rintro x y ⟨h, rfl⟩; exact ⟨h, h⟩
    · intro x hx; exact ⟨x, hx, rfl⟩
    · intro x hx; exact ⟨x, hx, rfl⟩
    · rintro x y x' y' ⟨_, rfl⟩ ⟨_, rfl⟩; exact Iff.rfl
    · rintro L L' m m' hL rfl hLL hm hp hc'
      cases hLL
      have hp' : ∀ x, L.tri.IsLabel x → m' x = m x := fun x hx => hp x x ⟨hx, rfl⟩
      refine ⟨⟨hc', ?_⟩, ?_⟩
      · intro a b c hg
        have l := hL.1.1.comp.label_of_glues hg
        rw [hp' a l.1, hp' b l.2.1, hp' c l.2.2]
        exact hm.room a b c hg
      · intro N hN
        refine ⟨N, rfl, hN.tri, hN.length, ?_⟩
        intro e he
        rw [hN.w e he, hp' e he, hp' _ (isLabel_inv.2 he)]
    · rintro L L' hL rfl hLL hz
      cases hLL; exact hz
  | cons m ms T hm hs ih =>
    obtain ⟨C, h1, h2⟩ := hm.carries
    obtain ⟨D, h3, h4⟩ := ih
    refine ⟨_, h1.comp h3, fun R _ _ _ _ => ⟨?_, ?_⟩⟩
    · intro L L' n n' hL ht hLL hn hp hc'
      obtain ⟨L₁, e1, e2⟩ := py_bind_eq_ok.1 (show (do let L₁ ← m.move.applyLam L; Curver.performLam ms L₁) = .ok L' from hLL)
      obtain ⟨L₂, t1, t2, t3, -⟩ := hm.applyLam_total hL ht
      rw [e1] at t1; cases t1
      obtain ⟨n₁, p1, p2⟩ := h1.push (α := R) (hm.valid.2.1).comp (m := n) (fun e f he => hn.const e f (by rw [ht]; exact he) |> fun k => by rw [ht] at k; exact k)
      obtain ⟨f1, f2⟩ := (h2 R).fits L L₁ n n₁ hL ht e1 hn p1 p2
      obtain ⟨g1, g2⟩ := (h4 R).fits L₁ L' n₁ n' t3 t2 e2 f1 (by
        intro y z hyz
        obtain ⟨x, hx⟩ := h1.surj y (h3.lab _ _ hyz).1
        rw [hp x z ⟨y, hx, hyz⟩, p1 x y hx]) hc'
      refine ⟨g1, ?_⟩
      intro N hN
      obtain ⟨N₁, a1, a2⟩ := f2 N hN
      obtain ⟨N', b1, b2⟩ := g2 N₁ a2
      exact ⟨N', by simp only [Curver.performLam, a1, py_bind_ok, b1], b2⟩
    · intro L L' hL ht hLL hz
      obtain ⟨L₁, e1, e2⟩ := py_bind_eq_ok.1 (show (do let L₁ ← m.move.applyLam L; Curver.performLam ms L₁) = .ok L' from hLL)
      obtain ⟨L₂, t1, t2, t3, -⟩ := hm.applyLam_total hL ht
      rw [e1] at t1; cases t1
      exact (h4 R).zero L₁ L' t3 t2 e2 ((h2 R).zero L L₁ hL ht e1 hz)
end Curver
