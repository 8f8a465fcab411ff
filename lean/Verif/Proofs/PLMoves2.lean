import Verif.Proofs.PLMoves

namespace Curver
open Triangulation

namespace Mat
variable {R : Type} [CommRing R]

theorem dot_zipWith {n : Nat} (f : Int → Int → Int) (g : R → R → R) (hf : ∀ a b : Int, ∀ x : R, ((f a b : Int) : R) * x = g (a * x) (b * x))
    (hg : ∀ a b c d : R, g a b + g c d = g (a + c) (b + d)) (h0 : g 0 0 = 0)
    {r s : List Int} {x : List R} (hr : r.length = n) (hs : s.length = n) (hx : x.length = n) : dot (List.zipWith f r s) x = g (dot r x) (dot s x) := by
  induction n generalizing r s x with
  | zero =>
    rw [List.length_eq_zero_iff] at hr hs hx
    subst hr; subst hs; subst hx; simp [dot, h0]
  | succ n ih =>
    match r, s, x, hr, hs, hx with
    | a :: r, b :: s, c :: x, hr, hs, hx =>
      have := ih (r := r) (s := s) (x := x) (by simpa using hr) (by simpa using hs) (by simpa using hx)
      simp only [dot] at this
      simp only [dot, List.zipWith_cons_cons, List.sum_cons]
      rw [this, ← hg, hf]

theorem dot_add {n : Nat} {r s : List Int} {x : List R} (hr : r.length = n) (hs : s.length = n) (hx : x.length = n) :
    dot (List.zipWith (fun x y : Int => x + y) r s) x = dot r x + dot s x :=
  dot_zipWith _ (· + ·) (by intros; push_cast; ring) (by intros; ring) (by simp) hr hs hx

theorem dot_sub {n : Nat} {r s : List Int} {x : List R} (hr : r.length = n) (hs : s.length = n) (hx : x.length = n) :
    dot (List.zipWith (fun x y : Int => x - y) r s) x = dot r x - dot s x :=
  dot_zipWith _ (· - ·) (by intros; push_cast; ring) (by intros; ring) (by simp) hr hs hx

theorem dot_smul {k : Int} {r : List Int} {x : List R} : dot (r.map (k * ·)) x = k * dot r x := by
  induction r generalizing x with
  | nil => simp [dot]
  | cons a r ih =>
    match x with
    | [] => simp [dot]
    | c :: x =>
      have := ih (x := x)
      simp only [dot] at this
      simp only [dot, List.map_cons, List.zipWith_cons_cons, List.sum_cons, this]
      push_cast; ring

theorem length_V (n x : Nat) : (V n x).length = n := by simp [V]

theorem dot_V {n i : Nat} (hi : i < n) {x : List R} (hx : x.length = n) : dot (V n i) x = x.getD i 0 := by
  rw [dot_eq (length_V n i) hx, Finset.sum_eq_single i]
  · simp [V, List.getD, hi]
  · intro j hj hne
    have : j < n := Finset.mem_range.1 hj
    simp [V, List.getD, this, hne]
  · intro h; exact absurd (Finset.mem_range.2 hi) h

theorem dot_replicate (n : Nat) (x : List R) : dot (List.replicate n 0) x = 0 := dot_of_zero (fun _ ha => (List.mem_replicate.1 ha).2) x

theorem shape_E {n : Nat} (hn : 0 < n) (x y : Nat) : (E n x y).HasShape n n := by
  refine ⟨by simp [E], hn, ?_⟩
  intro row hr
  simp only [E, List.mem_map] at hr
  obtain ⟨j, _, rfl⟩ := hr
  split <;> simp [V]

theorem row_E {n x y j : Nat} (hj : j < n) : (E n x y).getD j [] = if j = y then V n x else List.replicate n 0 := by
  simp [E, List.getD, hj]

theorem shape_identity {n : Nat} (hn : 0 < n) : (identity n).HasShape n n := by
  refine ⟨by simp [identity], hn, ?_⟩
  intro row hr
  simp only [identity, List.mem_map] at hr
  obtain ⟨j, _, rfl⟩ := hr
  simp [V]

theorem shape_zip {A B : Mat} {n : Nat} (f : Int → Int → Int) (hA : A.HasShape n n) (hB : B.HasShape n n) :
    HasShape (List.zipWith (List.zipWith f) A B) n n := by
  refine ⟨by simp [hA.1, hB.1], hA.2.1, ?_⟩
  intro row hr
  obtain ⟨i, hi, rfl⟩ := List.mem_iff_getElem.1 hr
  simp only [List.length_zipWith] at hi
  rw [List.getElem_zipWith, List.length_zipWith, hA.2.2 _ (List.getElem_mem _), hB.2.2 _ (List.getElem_mem _), min_self]

theorem row_zip {A B : Mat} {n : Nat} (f : Int → Int → Int) (hA : A.HasShape n n) (hB : B.HasShape n n) {i : Nat} (hi : i < n) :
    (List.zipWith (List.zipWith f) A B : Mat).getD i [] = List.zipWith f (A.getD i []) (B.getD i []) := by
  have h1 : i < A.length := by rw [hA.1]; exact hi
  have h2 : i < B.length := by rw [hB.1]; exact hi
  simp [List.getD, h1, h2]

theorem shape_smul {A : Mat} {n : Nat} (k : Int) (hA : A.HasShape n n) : (A.smul k).HasShape n n := by
  refine ⟨by simp [smul, hA.1], hA.2.1, ?_⟩
  intro row hr
  simp only [smul, List.mem_map] at hr
  obtain ⟨r, h, rfl⟩ := hr
  simp [hA.2.2 _ h]

theorem row_smul {A : Mat} {n : Nat} (k : Int) (hA : A.HasShape n n) {i : Nat} (hi : i < n) :
    (A.smul k).getD i [] = (A.getD i []).map (k * ·) := by
  have h1 : i < A.length := by rw [hA.1]; exact hi
  simp [smul, List.getD, h1]

/-- what one flipped edge adds to the matrix -/
theorem flipMat {A : Mat} {n p q e : Nat} (hA : A.HasShape n n) (hp : p < n) (hq : q < n) (he : e < n) :
    (((A.add (E n p e)).add (E n q e)).sub ((E n e e).smul 2)).HasShape n n ∧
    ∀ (R : Type) [CommRing R] (x : List R), x.length = n → ∀ i < n,
      dot ((((A.add (E n p e)).add (E n q e)).sub ((E n e e).smul 2)).getD i []) x =
        dot (A.getD i []) x + if i = e then x.getD p 0 + x.getD q 0 - (x.getD e 0 + x.getD e 0) else 0 := by
  have hn := hA.2.1
  have s1 := shape_zip (· + ·) hA (shape_E hn p e)
  have s2 := shape_zip (· + ·) s1 (shape_E hn q e)
  have s3 := shape_smul 2 (shape_E hn e e)
  refine ⟨shape_zip (· - ·) s2 s3, ?_⟩
  intro R _ x hx i hi
  have r1 := row_zip (· + ·) hA (shape_E hn p e) hi
  have r2 := row_zip (· + ·) s1 (shape_E hn q e) hi
  have r3 := row_zip (· - ·) s2 s3 hi
  unfold sub add
  rw [r3, dot_sub (s2.row hi) (s3.row hi) hx, r2, dot_add (s1.row hi) ((shape_E hn q e).row hi) hx, r1,
    dot_add (hA.row hi) ((shape_E hn p e).row hi) hx, row_smul 2 (shape_E hn e e) hi, dot_smul, row_E hi, row_E hi, row_E hi]
  by_cases h : i = e
  · simp only [h, if_true]
    rw [dot_V hp hx, dot_V hq hx, dot_V he hx]; push_cast; ring
  · simp only [h, if_false]
    rw [dot_replicate]; push_cast; ring

end Mat

/-- index of an edge -/
abbrev ix (e : Int) : Nat := (norm e).toNat

section
variable {R : Type} [CommRing R]

/-- the entry of a vector at an edge -/
def vat (x : List R) (e : Int) : R := x.getD (ix e) 0

theorem Lam.w_eq_vat [LinearOrder R] [Halvable R] (L : Lam R) (e : Int) : L.w e = vat L.geometric e := by
  simp [Lam.w, vat, List.getD]

/-- sum of two opposite sides of the square -/
def plSum (T : Triangulation) (b : Bool) (e : Int) (x : List R) : R :=
  if b then vat x (T.sq e).a + vat x (T.sq e).c else vat x (T.sq e).b + vat x (T.sq e).d

end

/-- which two sides -/
def plBit (T : Triangulation) (c : Lam Int) (e : Int) : Bool :=
  decide (max (c.w (T.sq e).b) 0 + max (c.w (T.sq e).d) 0 ≤ max (c.w (T.sq e).a) 0 + max (c.w (T.sq e).c) 0)

theorem plStep_eq {T : Triangulation} (hT : T.Valid) {c : Lam Int} (hc : c.WellFormed) (ht : c.tri = T) {e : Int} (he : T.IsLabel e) {A C : Mat}
    (hA : A.HasShape T.zeta T.zeta) : ∃ A' row, plStep T.zeta c (T.sq e) (A, C) = .ok (A', C ++ [row]) ∧ A'.HasShape T.zeta T.zeta ∧ row.length = T.zeta ∧
      ∀ (R : Type) [CommRing R] (x : List R), x.length = T.zeta → (∀ i < T.zeta, Mat.dot (A'.getD i []) x = Mat.dot (A.getD i []) x +
        if i = ix e then plSum T (plBit T c e) e x - (vat x e + vat x e) else 0) ∧
        Mat.dot row x = plSum T (plBit T c e) e x - plSum T (!plBit T c e) e x := by
  subst ht
  have hcm := hc.1.comp
  have he' := isLabel_inv.2 he
  have la := hcm.isLabel_nxt he
  have lb := hcm.isLabel_nxt la
  have lc := hcm.isLabel_nxt he'
  have ld := hcm.isLabel_nxt lc
  have ia := idx_lt la; have ib := idx_lt lb; have ic := idx_lt lc; have id := idx_lt ld; have ie := idx_lt he
  have key : ∀ {r s t u : Int}, c.tri.IsLabel r → c.tri.IsLabel s → c.tri.IsLabel t → c.tri.IsLabel u →
      (List.zipWith (fun x y : Int => x - y) (List.zipWith (fun x y : Int => x - y) (List.zipWith (fun x y : Int => x + y)
        (Mat.V c.tri.zeta (ix r)) (Mat.V c.tri.zeta (ix s))) (Mat.V c.tri.zeta (ix t))) (Mat.V c.tri.zeta (ix u))).length = c.tri.zeta ∧
      ∀ (R : Type) [CommRing R] (x : List R), x.length = c.tri.zeta → Mat.dot (List.zipWith (fun x y : Int => x - y) (List.zipWith (fun x y : Int => x - y)
        (List.zipWith (fun x y : Int => x + y) (Mat.V c.tri.zeta (ix r)) (Mat.V c.tri.zeta (ix s))) (Mat.V c.tri.zeta (ix t))) (Mat.V c.tri.zeta (ix u))) x =
        vat x r + vat x s - (vat x t + vat x u) := by
    intro r s t u hr hs ht hu
    refine ⟨by simp [Mat.V], ?_⟩
    intro R _ x hx
    rw [Mat.dot_sub (n := c.tri.zeta) (by simp [Mat.V]) (by simp [Mat.V]) hx, Mat.dot_sub (n := c.tri.zeta) (by simp [Mat.V]) (by simp [Mat.V]) hx,
      Mat.dot_add (n := c.tri.zeta) (by simp [Mat.V]) (by simp [Mat.V]) hx, Mat.dot_V (idx_lt hr) hx, Mat.dot_V (idx_lt hs) hx, Mat.dot_V (idx_lt ht) hx,
      Mat.dot_V (idx_lt hu) hx]
    simp only [vat, ix]; ring
  unfold plStep
  simp only [Triangulation.sq, Lam.wt0_eq hc.2 la, Lam.wt0_eq hc.2 lb, Lam.wt0_eq hc.2 lc, Lam.wt0_eq hc.2 ld, Lam.wt0_eq hc.2 he, py_bind_ok, py_pure]
  split
  · rename_i hcond
    have hbit : plBit c.tri c e = true := by
      have hc' : max (c.w (c.tri.nxt e)) 0 + max (c.w (c.tri.nxt (inv e))) 0 - max (c.w (c.tri.nxt (c.tri.nxt e))) 0 - max (c.w (c.tri.nxt (c.tri.nxt (inv e)))) 0 ≥ 0 := hcond
      unfold plBit Triangulation.sq
      apply decide_eq_true
      linarith
    have := key la lc lb ld
    have m := Mat.flipMat hA ia ic ie
    refine ⟨_, _, rfl, m.1, this.1, ?_⟩
    intro R _ x hx
    rw [hbit]
    exact ⟨fun i hi => m.2 R x hx i hi, this.2 R x hx⟩
  · rename_i hcond
    have hbit : plBit c.tri c e = false := by
      have hc' : ¬ (max (c.w (c.tri.nxt e)) 0 + max (c.w (c.tri.nxt (inv e))) 0 - max (c.w (c.tri.nxt (c.tri.nxt e))) 0 - max (c.w (c.tri.nxt (c.tri.nxt (inv e)))) 0 ≥ 0) := hcond
      unfold plBit Triangulation.sq
      apply decide_eq_false
      linarith
    have := key lb ld la lc
    have m := Mat.flipMat hA ib id ie
    refine ⟨_, _, rfl, m.1, this.1, ?_⟩
    intro R _ x hx
    rw [hbit]
    exact ⟨fun i hi => m.2 R x hx i hi, this.2 R x hx⟩

theorem plFold_eq {T : Triangulation} (hT : T.Valid) {c : Lam Int} (hc : c.WellFormed) (ht : c.tri = T) (sq' : Int → Py Square) : ∀ (es : List Int)
    (_ : ∀ e ∈ es, T.IsLabel e) (_ : ∀ e ∈ es, sq' e = .ok (T.sq e)) (A C : Mat) (_ : A.HasShape T.zeta T.zeta) (_ : ∀ row ∈ C, row.length = T.zeta),
    ∃ A' C', es.foldlM (fun st edge => do
        let s ← sq' edge
        plStep T.zeta c s st) (A, C) = .ok (A', C') ∧ A'.HasShape T.zeta T.zeta ∧ (∀ row ∈ C', row.length = T.zeta) ∧ C'.length = C.length + es.length ∧
      ∀ (R : Type) [CommRing R] (x : List R), x.length = T.zeta → (∀ i < T.zeta, Mat.dot (A'.getD i []) x = Mat.dot (A.getD i []) x +
        (es.map (fun e => if i = ix e then plSum T (plBit T c e) e x - (vat x e + vat x e) else 0)).sum) ∧
        C'.image x = C.image x ++ es.map (fun e => plSum T (plBit T c e) e x - plSum T (!plBit T c e) e x) := by
  intro es
  induction es with
  | nil => intro _ _ A C hA hC; exact ⟨A, C, rfl, hA, hC, rfl, fun R _ x hx => ⟨fun i hi => by simp, by simp⟩⟩
  | cons e es ih =>
    intro hl hs A C hA hC
    obtain ⟨A1, row, h1, h2, h3, h4⟩ := plStep_eq hT hc ht (hl e (by simp)) (C := C) hA
    obtain ⟨A', C', k1, k2, k3, k4, k5⟩ := ih (fun f hf => hl f (by simp [hf])) (fun f hf => hs f (by simp [hf])) A1 (C ++ [row]) h2 (by
      intro r hr
      rw [List.mem_append, List.mem_singleton] at hr
      rcases hr with hr | rfl
      · exact hC _ hr
      · exact h3)
    refine ⟨A', C', ?_, k2, k3, by rw [k4]; simp; omega, ?_⟩
    · rw [List.foldlM_cons, hs e (by simp), py_bind_ok, h1, py_bind_ok]; exact k1
    · intro R _ x hx
      obtain ⟨p1, p2⟩ := h4 R x hx
      obtain ⟨q1, q2⟩ := k5 R x hx
      refine ⟨fun i hi => ?_, ?_⟩
      · rw [q1 i hi, p1 i hi, List.map_cons, List.sum_cons]; ring
      · rw [q2, Mat.image_append, List.map_cons, List.append_assoc]
        congr 1
        simp only [Mat.image_eq, List.map_cons, List.map_nil, p2, List.singleton_append]

theorem sum_map_unique {R : Type} [CommRing R] : ∀ {es : List Int} (_ : (es.map ix).Nodup) (g : Int → R) (i : Nat),
    (∀ e ∈ es, i = ix e → (es.map (fun e => if i = ix e then g e else 0)).sum = g e) ∧
    ((∀ e ∈ es, i ≠ ix e) → (es.map (fun e => if i = ix e then g e else 0)).sum = 0) := by
  intro es
  induction es with
  | nil => intro _ g i; simp
  | cons f es ih =>
    intro hn g i
    rw [List.map_cons, List.nodup_cons] at hn
    obtain ⟨h1, h2⟩ := ih hn.2 g i
    constructor
    · intro e he hi
      rw [List.mem_cons] at he
      rw [List.map_cons, List.sum_cons]
      rcases he with rfl | he
      · rw [if_pos hi, h2, add_zero]
        intro f hf h; exact hn.1 (List.mem_map.2 ⟨f, hf, by rw [← h, hi]⟩)
      · rw [h1 e he hi, if_neg, zero_add]
        intro h; exact hn.1 (List.mem_map.2 ⟨e, he, by rw [← hi, h]⟩)
    · intro h
      rw [List.map_cons, List.sum_cons, if_neg (h f (by simp)), zero_add]
      exact h2 (fun e he => h e (by simp [he]))

/-- what the partial linear functions of the moves do: `F` describes a move on the laminations without arcs that lie in its domain -/
structure PLF.Describes (F : PLF) (n : Nat) (S T : Triangulation) (act : ∀ (R : Type) [CommRing R] [LinearOrder R] [Halvable R], Lam R → Py (Lam R)) : Prop where
  onto : F.Onto n
  apply : ∀ (R : Type) [CommRing R] [LinearOrder R] [IsStrictOrderedRing R] [Halvable R] (L : Lam R), L.NoArcs → L.tri = S → F.Domain L.geometric →
    ∃ L', act R L = .ok L' ∧ L'.tri = T ∧ L'.NoArcs ∧ F.action.image L.geometric = L'.geometric

theorem multiflip_describes {S T : Triangulation} {es : List Int} (hS : S.Valid) (he : S.DisjointSupport es) (hm : S.IsMultiflip es T) (hne : es ≠ [])
    {c : Lam Int} (hc : c.NoArcs) (ht : c.tri = S) (sq' : Int → Py Square) (hsq : ∀ e ∈ es, sq' e = .ok (S.sq e)) :
    ∃ A C, es.foldlM (fun st edge => do
        let s ← sq' edge
        plStep S.zeta c s st) (Mat.identity S.zeta, []) = .ok (A, C) ∧
      (PLF.create A C).Describes S.zeta S T (fun _ _ _ _ L => (mf S T es).applyLam L) ∧ (PLF.create A C).Domain c.geometric := by
  have hn : 0 < S.zeta := by
    match es, hne with
    | e :: es, _ => have := idx_lt (he.1 e (by simp)); omega
  obtain ⟨A, C, h1, h2, h3, h4, h5⟩ := plFold_eq hS hc.1 ht sq' es he.1 hsq (Mat.identity S.zeta) [] (Mat.shape_identity hn) (by simp)
  have hcm := hS.comp
  have hnd : (es.map ix).Nodup := sides_nodup_iff.1 (he.sides_nodup hcm)
  have hdis := ((hcm.disjoint_iff' he.1).1 he).2
  -- entries of the image
  have ent : ∀ (R : Type) [CommRing R] (x : List R), x.length = S.zeta → (∀ i < S.zeta, (∀ e ∈ es, i ≠ ix e) → (A.image x).getD i 0 = x.getD i 0) ∧
      ∀ e ∈ es, vat (A.image x) e = plSum S (plBit S c e) e x - vat x e := by
    intro R _ x hx
    have hid : ∀ i < S.zeta, Mat.dot ((Mat.identity S.zeta).getD i []) x = x.getD i 0 := by
      intro i hi
      rw [show (Mat.identity S.zeta).getD i [] = Mat.V S.zeta i by simp [Mat.identity, List.getD, hi], Mat.dot_V hi hx]
    constructor
    · intro i hi hne
      rw [Mat.image_getD, (h5 R x hx).1 i hi, hid i hi, (sum_map_unique hnd _ i).2 hne, add_zero]
    · intro e hee
      have hi := idx_lt (he.1 e hee)
      unfold vat
      rw [Mat.image_getD, (h5 R x hx).1 _ hi, hid _ hi, (sum_map_unique hnd _ (ix e)).1 e hee rfl]
      unfold vat; ring
  -- the sides of the squares are not flipped
  have side : ∀ e ∈ es, ∀ u ∈ [(S.sq e).a, (S.sq e).b, (S.sq e).c, (S.sq e).d], S.IsLabel u ∧ ∀ f ∈ es, ix u ≠ ix f := by
    intro e hee u hu
    have hle := he.1 e hee
    have g1 := hcm.glues_nxt hle
    have g2 := hcm.glues_nxt (isLabel_inv.2 hle)
    have s1 : e ∈ sides es := mem_sides.2 (.inl hee)
    have s2 : inv e ∈ sides es := inv_mem_sides.2 s1
    have l1 := hcm.label_of_glues g1
    have l2 := hcm.label_of_glues g2
    have k1 := hdis _ s1 _ _ g1
    have k2 := hdis _ s2 _ _ g2
    have fin : ∀ v, S.IsLabel v → v ∉ sides es → S.IsLabel v ∧ ∀ f ∈ es, ix v ≠ ix f := by
      intro v hv hs
      refine ⟨hv, fun f hf h => hs ?_⟩
      rcases idx_eq_iff.1 h with rfl | rfl
      · exact mem_sides.2 (.inl hf)
      · exact inv_mem_sides.2 (mem_sides.2 (.inl hf))
    simp only [Triangulation.sq, List.mem_cons, List.not_mem_nil, or_false] at hu
    rcases hu with rfl | rfl | rfl | rfl
    · exact fin _ l1.2.1 k1.1
    · exact fin _ l1.2.2 k1.2
    · exact fin _ l2.2.1 k2.1
    · exact fin _ l2.2.2 k2.2
  have hside : ∀ (R : Type) [CommRing R] (x : List R), x.length = S.zeta → ∀ e ∈ es, ∀ u ∈ [(S.sq e).a, (S.sq e).b, (S.sq e).c, (S.sq e).d],
      vat (A.image x) u = vat x u := by
    intro R _ x hx e hee u hu
    obtain ⟨k1, k2⟩ := side e hee u hu
    exact (ent R x hx).1 _ (idx_lt k1) k2
  have hsum : ∀ (R : Type) [CommRing R] (x : List R), x.length = S.zeta → ∀ e ∈ es, ∀ b, plSum S b e (A.image x) = plSum S b e x := by
    intro R _ x hx e hee b
    have := hside R x hx e hee
    unfold plSum
    rw [this _ (by simp), this _ (by simp), this _ (by simp), this _ (by simp)]
  have hon : ∀ y : List Int, y.length = S.zeta → ∃ x : List Int, x.length = S.zeta ∧ A.image x = y := by
    intro y hy
    have hl : (A.image y).length = S.zeta := by rw [Mat.length_image, h2.1]
    refine ⟨A.image y, hl, ?_⟩
    apply List.ext_getElem (by rw [Mat.length_image, h2.1, hy])
    intro i hi1 hi2
    have hi : i < S.zeta := by omega
    have : (A.image (A.image y)).getD i 0 = y.getD i 0 := by
      by_cases hf : ∀ e ∈ es, i ≠ ix e
      · rw [(ent _ _ hl).1 i hi hf, (ent _ _ hy).1 i hi hf]
      · push Not at hf
        obtain ⟨e, hee, rfl⟩ := hf
        have q1 := (ent _ _ hl).2 e hee
        have q2 := (ent _ _ hy).2 e hee
        rw [hsum _ _ hy e hee, q2] at q1
        unfold vat at q1
        rw [q1]; ring
    simpa [List.getD, hi1, hi2] using this
  have hCne : C.HasShape C.length S.zeta := by
    refine ⟨rfl, ?_, h3⟩
    rw [h4]
    match es, hne with
    | e :: es, _ => simp
  have hdom : ∀ (R : Type) [CommRing R] [LinearOrder R] [IsStrictOrderedRing R] (x : List R), x.length = S.zeta →
      ((PLF.create A C).Domain x ↔ ∀ e ∈ es, plSum S (!plBit S c e) e x ≤ plSum S (plBit S c e) e x) := by
    intro R _ _ _ x hx
    unfold PLF.Domain PLF.create
    simp only
    rw [Mat.keepRows_nonneg, (h5 R x hx).2]
    simp [Mat.image, sub_nonneg]
  refine ⟨A, C, h1, ⟨⟨⟨?_, hCne.keepRows⟩, ?_⟩, ?_⟩, ?_⟩
  · simp only [PLF.create, PLF.keepRows_of_onto h2 hon]; exact h2
  · simp only [PLF.create, PLF.keepRows_of_onto h2 hon]; exact hon
  · intro R _ _ _ _ L hL hLt hD
    subst hLt
    obtain ⟨hLc, hLT⟩ := Lam.noArcs_iff.1 hL
    obtain ⟨L', rfl, hf⟩ := hLc.flipsTo he T
    refine ⟨L', (mf_applyLam_iff hLc.1 he).2 ⟨rfl, hf⟩, rfl, Lam.noArcs_iff.2 ⟨hf.consistent hLc he hm, hf.taut hLc.1 hLT he hm⟩, ?_⟩
    simp only [PLF.create, PLF.keepRows_of_onto h2 hon]
    have hlen : L.geometric.length = L.tri.zeta := hLc.1.2
    rw [hdom R _ hlen] at hD
    apply List.ext_getElem (by rw [Mat.length_image, h2.1, hf.length, hlen])
    intro i hi1 hi2
    have hi : i < L.tri.zeta := by rw [hf.length] at hi2; omega
    have key : (A.image L.geometric).getD i 0 = L'.geometric.getD i 0 := by
      by_cases hfl : ∀ e ∈ es, i ≠ ix e
      · rw [(ent _ _ hlen).1 i hi hfl]
        have hkl := hf.kept i (by unfold IsLabel; omega) (by
          intro e hee
          have := hfl e hee
          constructor
          · rintro rfl; exact this (by simp [ix, norm_of_nonneg])
          · intro h
            apply this
            have : ix (i : Int) = ix e := idx_eq_iff.2 (.inr h)
            rw [← this]; simp [ix, norm_of_nonneg])
        rw [Lam.w_eq_vat, Lam.w_eq_vat] at hkl
        unfold vat ix at hkl
        rw [norm_of_nonneg (by omega)] at hkl
        simpa using hkl.symm
      · push Not at hfl
        obtain ⟨e, hee, rfl⟩ := hfl
        have hle := he.1 e hee
        have g1 := hcm.glues_nxt hle
        have g2 := hcm.glues_nxt (isLabel_inv.2 hle)
        have n2 := hLT.flipWeight g1 g2 (hf.new e hee _ _ _ _ g1 g2)
        have q := (ent _ _ hlen).2 e hee
        change vat (A.image L.geometric) e = vat L'.geometric e
        rw [q, ← Lam.w_eq_vat L' e, n2, ← Lam.w_eq_vat]
        congr 1
        have := hD e hee
        simp only [plSum, Triangulation.sq, ← Lam.w_eq_vat] at this ⊢
        cases hb : plBit L.tri c e <;> simp only [hb, Bool.not_true, Bool.not_false, if_true, if_false, Bool.false_eq_true] at this ⊢
        · rw [max_eq_right this]
        · rw [max_eq_left this]
    simpa [List.getD, hi1, hi2] using key
  · subst ht
    rw [hdom Int _ hc.1.2]
    intro e hee
    have hle := he.1 e hee
    have g1 := hcm.glues_nxt hle
    have g2 := hcm.glues_nxt (isLabel_inv.2 hle)
    have hT := (Lam.noArcs_iff.1 hc).2
    have e2 := (hT _ _ _ g1.rot).1; have e3 := (hT _ _ _ g1.rot.rot).1
    have f2 := (hT _ _ _ g2.rot).1; have f3 := (hT _ _ _ g2.rot.rot).1
    cases hb : plBit c.tri c e
    · simp only [plBit, decide_eq_false_iff_not, Triangulation.sq, max_eq_left e2, max_eq_left e3, max_eq_left f2, max_eq_left f3] at hb
      simp only [plSum, Triangulation.sq, ← Lam.w_eq_vat, Bool.not_false, if_true, if_false, Bool.false_eq_true]
      linarith
    · simp only [plBit, decide_eq_true_eq, Triangulation.sq, max_eq_left e2, max_eq_left e3, max_eq_left f2, max_eq_left f3] at hb
      simp only [plSum, Triangulation.sq, ← Lam.w_eq_vat, Bool.not_true, if_true, if_false, Bool.false_eq_true]
      linarith

end Curver
