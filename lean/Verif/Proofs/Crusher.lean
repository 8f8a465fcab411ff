import Verif.Proofs.CrushUnionUse
import Verif.Model.MultiCrush
import Verif.Proofs.Separating

/-!
# What crushes do, in general
-/

namespace Curver
open Triangulation

namespace Lam
variable {S L L1 L2 M N N1 N2 K K1 K2 A B : Lam Int} {D D' E Xs Ys : List (Lam Int)} {P : Lam Int → Py LamClass} {f g f' g' : CrushEnc}

theorem Unions.join (h : L.Unions (Xs ++ [N])) (hL : L.Consistent) (hN : N.Unions Ys) : L.Unions (Xs ++ Ys) := by
  induction Xs generalizing L with
  | nil =>
    cases h with
    | cons h1 h2 =>
      cases h2 with
      | nil hb =>
        have s : Same N L := by
          refine same_of_w h1.wf.1 hL.1 h1.wf.2.2.1 (fun x hx => ?_)
          rw [h1.wf.2.2.1] at hx
          have := h1.sum hL.1 hx
          have := hb x (by rw [h1.wf.2.2.2]; exact hx)
          omega
        exact hN.same s
  | cons X Xs ih =>
    cases h with
    | cons h1 h2 => exact .cons h1 (ih h2 (h1.consistent hL).2)

theorem blank_self (hL : L.WellFormed) (h : L.Blank) : L.IsUnion L L := by
  refine ⟨fun _ _ => true, ⟨fun _ _ _ _ => rfl, fun _ _ _ _ _ _ _ _ => rfl⟩, ⟨hL, rfl, fun x hx => ?_⟩, ⟨hL, rfl, fun x hx => ?_⟩⟩ <;> rw [h x hx] <;> rfl

theorem IsUnion.blank_of_self (hL : L.WellFormed) (h : L.IsUnion L L) : L.Blank := by
  intro x hx
  have := h.sum hL hx
  omega

/-- only one part of a connected lamination is there -/
theorem Connected.of_union (h : L.Connected) (hL : L.WellFormed) (hu : L.IsUnion A B) : (A.Blank ∧ Same L B) ∨ (B.Blank ∧ Same L A) := by
  have w := hu.wf
  rcases h.2 A B hu with q | q
  · refine .inl ⟨q, same_of_w hL w.2.1 w.2.2.2.symm (fun x hx => ?_)⟩
    have := hu.sum hL hx
    have := q x (by rw [w.2.2.1]; exact hx)
    omega
  · refine .inr ⟨q, same_of_w hL w.1 w.2.2.1.symm (fun x hx => ?_)⟩
    have := hu.sum hL hx
    have := q x (by rw [w.2.2.2]; exact hx)
    omega

theorem Connected.of_unions (h : L.Connected) (hL : L.Consistent) (hu : L.Unions (Xs ++ [N])) (hX : ∀ X ∈ Xs, X.Connected) : (Xs = [] ∧ Same L N) ∨ ∃ X ∈ Xs, Same L X := by
  cases Xs with
  | nil =>
    cases hu with
    | cons h1 h2 =>
      cases h2 with
      | nil hb =>
        rcases h.of_union hL.1 h1 with q | q
        · exact absurd (q.2.symm.blank hb) h.1
        · exact .inl ⟨rfl, q.2⟩
  | cons X Xs =>
    cases hu with
    | cons h1 h2 =>
      rcases h.of_union hL.1 h1 with q | q
      · exact absurd q.1 (hX X (by simp)).1
      · exact .inr ⟨X, by simp, q.2⟩

theorem Same.consistent (h : Same L K) (hL : L.Consistent) : K.Consistent := by
  rw [consistent_iff] at hL ⊢
  refine ⟨h.wf hL.1, ?_⟩
  rw [← h.1]
  intro x y z hg
  rw [← h.w, ← h.w, ← h.w]
  exact hL.2 x y z hg

/-- What `f` and its inverse `g` do if `f` crushes along the curves `D`. -/
structure Crusher (P : Lam Int → Py LamClass) (D : List (Lam Int)) (f g : CrushEnc) : Prop where
  curves : ∀ d ∈ D, d.NoArcs ∧ d.Connected ∧ ¬ d.Peripheral ∧ d.tri = f.source
  apart : D.Pairwise (fun d e => d.DisjointFrom e ∧ ¬ Same d e)
  valid : f.source.Valid ∧ f.target.Valid
  zeta : f.target.zeta = f.source.zeta
  verts : ∃ n, f.source.numVertices = .ok n ∧ f.target.numVertices = .ok (n + 2 * D.length)
  inverse : f.inverse = .ok g
  back : g.source = f.target ∧ g.target = f.source
  apply : ∀ L : Lam Int, L.Consistent → L.tri = f.source → (∀ d ∈ D, L.DisjointFrom d) → ∃ K, f.applyLam P L = .ok K ∧ K.tri = f.target ∧ K.Consistent ∧ (L.NoArcs → K.NoArcs)
  union : ∀ S L1 L2 K K1 K2 : Lam Int, S.Consistent → S.tri = f.source → (∀ d ∈ D, S.DisjointFrom d) → S.IsUnion L1 L2 → f.applyLam P S = .ok K → f.applyLam P L1 = .ok K1 → f.applyLam P L2 = .ok K2 → K.IsUnion K1 K2
  lift : ∀ N : Lam Int, N.NoArcs → N.tri = f.target → ∃ M, g.applyLam P N = .ok M ∧ M.tri = f.source ∧ M.NoArcs ∧ ∀ d ∈ D, M.DisjointFrom d
  lift_union : ∀ N N1 N2 M M1 M2 : Lam Int, N.NoArcs → N.tri = f.target → N.IsUnion N1 N2 → g.applyLam P N = .ok M → g.applyLam P N1 = .ok M1 → g.applyLam P N2 = .ok M2 → M.IsUnion M1 M2
  lift_apply : ∀ L K M : Lam Int, L.NoArcs → L.tri = f.source → (∀ d ∈ D, L.DisjointFrom d) → f.applyLam P L = .ok K → g.applyLam P K = .ok M →
    ∃ Ds, (∀ d ∈ Ds, d ∈ D) ∧ L.Unions (Ds ++ [M]) ∧ ∀ d ∈ D, ¬ ∃ Y, M.IsUnion d Y
  apply_lift : ∀ N M K : Lam Int, N.NoArcs → N.tri = f.target → g.applyLam P N = .ok M → f.applyLam P M = .ok K →
    ∃ Ps, N.Unions (Ps ++ [K]) ∧ ∀ p ∈ Ps, p.Connected ∧ ∃ M, g.applyLam P p = .ok M ∧ ∃ d ∈ D, Same M d
  links : ∀ p M : Lam Int, p.NoArcs → p.Peripheral → p.Connected → p.tri = f.target → g.applyLam P p = .ok M → M.Peripheral ∨ ∃ d ∈ D, Same M d

namespace Crusher

theorem disj_part (_ : Crusher P D f g) (hd : ∀ d ∈ D, S.DisjointFrom d) (hu : S.IsUnion L1 L2) : (∀ d ∈ D, L1.DisjointFrom d) ∧ ∀ d ∈ D, L2.DisjointFrom d :=
  ⟨fun d hd' => ((hd d hd').part hu).1, fun d hd' => ((hd d hd').part hu).2⟩

/-- all at once -/
theorem union_ok (h : Crusher P D f g) (hS : S.Consistent) (ht : S.tri = f.source) (hd : ∀ d ∈ D, S.DisjointFrom d) (hu : S.IsUnion L1 L2) (ha : f.applyLam P S = .ok K) :
    ∃ K1 K2, f.applyLam P L1 = .ok K1 ∧ f.applyLam P L2 = .ok K2 ∧ K.IsUnion K1 K2 := by
  have dp := h.disj_part hd hu
  have w := hu.wf
  have C := hu.consistent hS
  obtain ⟨K1, k1, -⟩ := h.apply L1 C.1 (w.2.2.1.trans ht) dp.1
  obtain ⟨K2, k2, -⟩ := h.apply L2 C.2 (w.2.2.2.trans ht) dp.2
  exact ⟨K1, K2, k1, k2, h.union S L1 L2 K K1 K2 hS ht hd hu ha k1 k2⟩

theorem lift_ok (h : Crusher P D f g) (hN : N.NoArcs) (ht : N.tri = f.target) (hu : N.IsUnion N1 N2) (ha : g.applyLam P N = .ok M) :
    ∃ M1 M2, g.applyLam P N1 = .ok M1 ∧ g.applyLam P N2 = .ok M2 ∧ M.IsUnion M1 M2 := by
  have w := hu.wf
  have C := hu.noArcs2 hN
  obtain ⟨K1, k1, -⟩ := h.lift N1 C.1 (w.2.2.1.trans ht)
  obtain ⟨K2, k2, -⟩ := h.lift N2 C.2 (w.2.2.2.trans ht)
  exact ⟨K1, K2, k1, k2, h.lift_union N N1 N2 M K1 K2 hN ht hu ha k1 k2⟩

theorem apply_wf (h : Crusher P D f g) (hS : S.Consistent) (ht : S.tri = f.source) (hd : ∀ d ∈ D, S.DisjointFrom d) (ha : f.applyLam P S = .ok K) : K.Consistent ∧ K.tri = f.target ∧ (S.NoArcs → K.NoArcs) := by
  obtain ⟨K', k1, k2, k3, k4⟩ := h.apply S hS ht hd
  rw [ha] at k1
  injection k1 with k1
  subst k1
  exact ⟨k3, k2, k4⟩

theorem lift_wf (h : Crusher P D f g) (hN : N.NoArcs) (ht : N.tri = f.target) (ha : g.applyLam P N = .ok M) : M.NoArcs ∧ M.tri = f.source ∧ ∀ d ∈ D, M.DisjointFrom d := by
  obtain ⟨K', k1, k2, k3, k4⟩ := h.lift N hN ht
  rw [ha] at k1
  injection k1 with k1
  subst k1
  exact ⟨k3, k2, k4⟩

theorem apply_blank (h : Crusher P D f g) (hS : S.Consistent) (ht : S.tri = f.source) (hd : ∀ d ∈ D, S.DisjointFrom d) (ha : f.applyLam P S = .ok K) (hb : S.Blank) : K.Blank :=
  (h.union S S S K K K hS ht hd (blank_self hS.1 hb) ha ha ha).blank_of_self (h.apply_wf hS ht hd ha).1.1

theorem lift_blank (h : Crusher P D f g) (hN : N.NoArcs) (ht : N.tri = f.target) (ha : g.applyLam P N = .ok M) (hb : N.Blank) : M.Blank :=
  (h.lift_union N N N M M M hN ht (blank_self hN.1 hb) ha ha ha).blank_of_self (h.lift_wf hN ht ha).1.1

theorem same_union (hL : L.WellFormed) (s : Same L K) : ∃ Z, L.IsUnion K Z ∧ Z.Blank := by
  have := (unions_self hL)
  cases this with
  | cons h1 h2 =>
    cases h2 with
    | nil hb => exact ⟨_, h1.same h1.wf.1 h1.wf.2.1 .refl s .refl, hb⟩

theorem apply_same (h : Crusher P D f g) (hS : S.Consistent) (ht : S.tri = f.source) (hd : ∀ d ∈ D, S.DisjointFrom d) (s : Same S L) (ha : f.applyLam P S = .ok K) : ∃ K', f.applyLam P L = .ok K' ∧ Same K K' := by
  obtain ⟨Z, z1, z2⟩ := same_union hS.1 s
  obtain ⟨K1, K2, k1, k2, k3⟩ := h.union_ok hS ht hd z1 ha
  have b := h.apply_blank (z1.consistent hS).2 (z1.wf.2.2.2.trans ht) (h.disj_part hd z1).2 k2 z2
  have w := h.apply_wf hS ht hd ha
  refine ⟨K1, k1, same_of_w w.1.1 k3.wf.1 k3.wf.2.2.1.symm (fun x hx => ?_)⟩
  have := k3.sum w.1.1 hx
  have := b x (by rw [k3.wf.2.2.2]; exact hx)
  omega

theorem lift_same (h : Crusher P D f g) (hN : N.NoArcs) (ht : N.tri = f.target) (s : Same N L) (ha : g.applyLam P N = .ok M) : ∃ M', g.applyLam P L = .ok M' ∧ Same M M' := by
  obtain ⟨Z, z1, z2⟩ := same_union hN.1 s
  obtain ⟨K1, K2, k1, k2, k3⟩ := h.lift_ok hN ht z1 ha
  have b := h.lift_blank (z1.noArcs2 hN).2 (z1.wf.2.2.2.trans ht) k2 z2
  have w := h.lift_wf hN ht ha
  refine ⟨K1, k1, same_of_w w.1.1 k3.wf.1 k3.wf.2.2.1.symm (fun x hx => ?_)⟩
  have := k3.sum w.1.1 hx
  have := b x (by rw [k3.wf.2.2.2]; exact hx)
  omega

theorem apply_unions (h : Crusher P D f g) : ∀ {Xs : List (Lam Int)} {S K : Lam Int}, S.Consistent → S.tri = f.source → (∀ d ∈ D, S.DisjointFrom d) → S.Unions Xs → f.applyLam P S = .ok K →
    ∃ Ys, List.Forall₂ (fun X Y => f.applyLam P X = .ok Y) Xs Ys ∧ K.Unions Ys
  | [], S, K, hS, ht, hd, hu, ha => by
    cases hu with
    | nil hb => exact ⟨[], .nil, .nil (h.apply_blank hS ht hd ha hb)⟩
  | X :: Xs, S, K, hS, ht, hd, hu, ha => by
    cases hu with
    | cons h1 h2 =>
      obtain ⟨K1, K2, k1, k2, k3⟩ := h.union_ok hS ht hd h1 ha
      obtain ⟨Ys, y1, y2⟩ := h.apply_unions (h1.consistent hS).2 (h1.wf.2.2.2.trans ht) (h.disj_part hd h1).2 h2 k2
      exact ⟨K1 :: Ys, .cons k1 y1, .cons k3 y2⟩

theorem lift_unions (h : Crusher P D f g) : ∀ {Xs : List (Lam Int)} {N M : Lam Int}, N.NoArcs → N.tri = f.target → N.Unions Xs → g.applyLam P N = .ok M →
    ∃ Ys, List.Forall₂ (fun X Y => g.applyLam P X = .ok Y) Xs Ys ∧ M.Unions Ys
  | [], N, M, hN, ht, hu, ha => by
    cases hu with
    | nil hb => exact ⟨[], .nil, .nil (h.lift_blank hN ht ha hb)⟩
  | X :: Xs, N, M, hN, ht, hu, ha => by
    cases hu with
    | cons h1 h2 =>
      obtain ⟨K1, K2, k1, k2, k3⟩ := h.lift_ok hN ht h1 ha
      obtain ⟨Ys, y1, y2⟩ := h.lift_unions (h1.noArcs2 hN).2 (h1.wf.2.2.2.trans ht) h2 k2
      exact ⟨K1 :: Ys, .cons k1 y1, .cons k3 y2⟩

/-- disjoint laminations stay disjoint -/
theorem disjoint (h : Crusher P D f g) (h1 : ∀ d ∈ D, L1.DisjointFrom d) (h2 : ∀ d ∈ D, L2.DisjointFrom d) (ht : L1.tri = f.source) (hd : L1.DisjointFrom L2) (ha : f.applyLam P L1 = .ok K1) (hb : f.applyLam P L2 = .ok K2) : K1.DisjointFrom K2 := by
  obtain ⟨S, s1, s2⟩ := hd
  have ht' : S.tri = f.source := s2.wf.2.2.1.symm.trans ht
  have hS : ∀ d ∈ D, S.DisjointFrom d := fun d hd => (DisjointFrom.union s1 s2 (h1 d hd).symm (h2 d hd).symm).symm
  obtain ⟨K, k1, -, k2, -⟩ := h.apply S s1 ht' hS
  exact ⟨K, k2, h.union S L1 L2 K K1 K2 s1 ht' hS s2 k1 ha hb⟩

theorem lift_disjoint (h : Crusher P D f g) (h1 : N1.NoArcs) (h2 : N2.NoArcs) (ht : N1.tri = f.target) (hd : N1.DisjointFrom N2) (ha : g.applyLam P N1 = .ok K1) (hb : g.applyLam P N2 = .ok K2) : K1.DisjointFrom K2 := by
  obtain ⟨S, s1, s2⟩ := hd
  have ht' : S.tri = f.target := s2.wf.2.2.1.symm.trans ht
  have hS : S.NoArcs := by
    refine noArcs_of_lf s1 (fun x hx => ?_) (fun x hx => ?_)
    · have := h1.nonneg (x := x) (by rw [s2.wf.2.2.1]; exact hx)
      have := h2.nonneg (x := x) (by rw [s2.wf.2.2.2]; exact hx)
      have := s2.sum s1.1 hx
      omega
    · have := h1.lf_nonneg (x := x) (by rw [s2.wf.2.2.1]; exact hx)
      have := h2.lf_nonneg (x := x) (by rw [s2.wf.2.2.2]; exact hx)
      have := s2.lf s1 hx
      omega
  obtain ⟨K, k1, k2, k3, -⟩ := h.lift S hS ht'
  exact ⟨K, (noArcs_iff.1 k3).1, h.lift_union S N1 N2 K K1 K2 hS ht' s2 k1 ha hb⟩

/-- a lift is blank only if there is nothing to lift -/
theorem blank_of_lift (h : Crusher P D f g) (hN : N.NoArcs) (ht : N.tri = f.target) (ha : g.applyLam P N = .ok M) (hb : M.Blank) : N.Blank := by
  obtain ⟨m1, m2, m3⟩ := h.lift_wf hN ht ha
  have mc := (noArcs_iff.1 m1).1
  obtain ⟨K, k1, k2, k3, -⟩ := h.apply M mc m2 m3
  obtain ⟨Ps, p1, p2⟩ := h.apply_lift N M K hN ht ha k1
  have kb := h.apply_blank mc m2 m3 k1 hb
  have hNc := (noArcs_iff.1 hN).1
  cases Ps with
  | nil =>
    cases p1 with
    | cons u1 u2 =>
      cases u2 with
      | nil b =>
        intro x hx
        have := u1.sum hNc.1 hx
        have := kb x (by rw [u1.wf.2.2.1]; exact hx)
        have := b x (by rw [u1.wf.2.2.2]; exact hx)
        omega
  | cons p Ps =>
    exfalso
    obtain ⟨-, M', q1, d, q2, q3⟩ := p2 p (by simp)
    cases p1 with
    | cons u1 u2 =>
      obtain ⟨M1, M2, r1, r2, r3⟩ := h.lift_ok hN ht u1 ha
      rw [q1] at r1
      injection r1 with r1
      subst r1
      have hd := h.curves d q2
      refine hd.2.1.1 (q3.blank (fun x hx => ?_))
      rw [r3.wf.2.2.1] at hx
      have a1 := r3.sum m1.1 hx
      have a2 := hb x hx
      have a3 := (r3.noArcs2 m1).1.nonneg (x := x) (by rw [r3.wf.2.2.1]; exact hx)
      have a4 := (r3.noArcs2 m1).2.nonneg (x := x) (by rw [r3.wf.2.2.2]; exact hx)
      omega

/-- the image of a connected lamination other than the curves -/
theorem image (h : Crusher P D f g) (hL : L.NoArcs) (hc : L.Connected) (ht : L.tri = f.source) (hd : ∀ d ∈ D, L.DisjointFrom d) (hn : ∀ d ∈ D, ¬ Same d L) (ha : f.applyLam P L = .ok K) :
    K.Connected ∧ ∃ M, g.applyLam P K = .ok M ∧ Same M L := by
  have hLc := (noArcs_iff.1 hL).1
  obtain ⟨k1, k2, k3⟩ := h.apply_wf hLc ht hd ha
  have hK := k3 hL
  obtain ⟨M, m1, m2, m3, m4⟩ := h.lift K hK k2
  obtain ⟨Ds, d1, d2, d3⟩ := h.lift_apply L K M hL ht hd ha m1
  have s : Same L M := by
    rcases hc.of_unions hLc d2 (fun d hd => (h.curves d (d1 d hd)).2.1) with q | ⟨d, q1, q2⟩
    · exact q.2
    · exact absurd q2.symm (hn d (d1 d q1))
  refine ⟨⟨fun q => hc.1 (s.symm.blank (h.lift_blank hK k2 m1 q)), fun A B hu => ?_⟩, M, m1, s.symm⟩
  obtain ⟨M1, M2, r1, r2, r3⟩ := h.lift_ok hK k2 hu m1
  have hA := hu.noArcs2 hK
  rcases (hc.same s).2 M1 M2 r3 with q | q
  · exact .inl (h.blank_of_lift hA.1 (hu.wf.2.2.1.trans k2) r1 q)
  · exact .inr (h.blank_of_lift hA.2 (hu.wf.2.2.2.trans k2) r2 q)

theorem image_essential (h : Crusher P D f g) (hL : L.NoArcs) (hc : L.Connected) (ht : L.tri = f.source) (hd : ∀ d ∈ D, L.DisjointFrom d) (hn : ∀ d ∈ D, ¬ Same d L) (ha : f.applyLam P L = .ok K) (hp : ¬ L.Peripheral) : ¬ K.Peripheral := by
  intro q
  have hLc := (noArcs_iff.1 hL).1
  obtain ⟨k1, k2, k3⟩ := h.apply_wf hLc ht hd ha
  obtain ⟨i1, M, i2, i3⟩ := h.image hL hc ht hd hn ha
  rcases h.links K M (k3 hL) q i1 k2 i2 with r | ⟨d, r1, r2⟩
  · exact hp (r.same i3)
  · exact hn d r1 (r2.symm.trans i3)

/-- a lift of a connected lamination is connected -/
theorem lift_connected (h : Crusher P D f g) (hN : N.NoArcs) (hc : N.Connected) (ht : N.tri = f.target) (ha : g.applyLam P N = .ok M) : M.Connected := by
  obtain ⟨m1, m2, m3⟩ := h.lift_wf hN ht ha
  have mc := (noArcs_iff.1 m1).1
  obtain ⟨K, k1, k2, k3, k4⟩ := h.apply M mc m2 m3
  obtain ⟨Ps, p1, p2⟩ := h.apply_lift N M K hN ht ha k1
  rcases hc.of_unions (noArcs_iff.1 hN).1 p1 (fun p hp => (p2 p hp).1) with ⟨-, s⟩ | ⟨p, q1, q2⟩
  · refine ⟨fun q => hc.1 (h.blank_of_lift hN ht ha q), ?_⟩
    have key : ∀ {A B : Lam Int}, M.IsUnion A B → ∀ KA, f.applyLam P A = .ok KA → KA.Blank → A.Blank := by
      intro A B hu KA hA hb
      obtain ⟨K1, K2, e1, e2, e3⟩ := h.union_ok mc m2 m3 hu k1
      rw [hA] at e1
      injection e1 with e1
      subst e1
      have nB := (hu.noArcs2 m1).2
      have nA := (hu.noArcs2 m1).1
      have tB := hu.wf.2.2.2.trans m2
      have dB := (h.disj_part m3 hu).2
      have cB := (noArcs_iff.1 nB).1
      obtain ⟨x1, x2, x3⟩ := h.apply_wf cB tB dB e2
      have sK : Same N K2 := by
        refine s.trans (same_of_w k3.1 e3.wf.2.1 e3.wf.2.2.2.symm (fun x hx => ?_))
        have := e3.sum k3.1 hx
        have := hb x (by rw [e3.wf.2.2.1]; exact hx)
        omega
      obtain ⟨M', z1, z2⟩ := h.lift_same hN ht sK ha
      obtain ⟨Ds, d1, d2, -⟩ := h.lift_apply B K2 M' nB tB dB e2 z1
      obtain ⟨Q, hQ⟩ := d2.pull cB (X := M') (by simp)
      intro x hx
      rw [hu.wf.2.2.1] at hx
      have a1 := hu.sum m1.1 hx
      have a2 := hQ.sum cB.1 (x := x) (by rw [hu.wf.2.2.2]; exact hx)
      have a3 := z2.w x
      have a4 := nA.nonneg (x := x) (by rw [hu.wf.2.2.1]; exact hx)
      have a5 := (hQ.noArcs2 nB).2.nonneg (x := x) (by rw [hQ.wf.2.2.2, hu.wf.2.2.2]; exact hx)
      omega
    intro A B hu
    obtain ⟨K1, K2, e1, e2, e3⟩ := h.union_ok mc m2 m3 hu k1
    rcases (hc.same s).2 K1 K2 e3 with q | q
    · exact .inl (key hu K1 e1 q)
    · exact .inr (key hu.symm K2 e2 q)
  · obtain ⟨-, M', r1, d, r2, r3⟩ := p2 p q1
    obtain ⟨M'', z1, z2⟩ := h.lift_same hN ht q2 ha
    rw [r1] at z1
    injection z1 with z1
    subst z1
    exact (h.curves d r2).2.1.same (z2.trans r3).symm

end Crusher
end Lam
end Curver
