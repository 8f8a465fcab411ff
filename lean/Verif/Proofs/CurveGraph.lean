import Verif.Model.CurveGraph
import Verif.Proofs.BoundaryClass
import Verif.Props.ExploreBall

/-!
# The candidates of `tight_paths`
-/

namespace Curver
open Triangulation

/-- an element of the list whose round leads to `Q` -/
theorem foldlM_hits {α β : Type _} {f : β → α → Py β} {Q : β → Prop} {y : α} : ∀ {l : List α} {s r : β}, y ∈ l → (∀ s a s', a ∈ l → f s a = .ok s' → Q s → Q s') → (∀ s s', f s y = .ok s' → Q s') →
    l.foldlM f s = .ok r → Q r
  | x :: l, s, r, hy, keep, hit, h => by
    rw [List.foldlM_cons, py_bind_eq_ok] at h
    obtain ⟨d, h1, h2⟩ := h
    rcases List.mem_cons.1 hy with rfl | hy
    · exact foldlM_inv Q (hit s d h1) (fun b x c hx q hb => keep b x c (by simp [hx]) hb q) h2
    · exact foldlM_hits hy (fun s a s' ha => keep s a s' (by simp [ha])) hit h2

namespace Lam
variable {P : Lam Int → Py LamClass} {dflt : Int → Int → Bool} {fuel : Nat} {a b c L M K N X Y S B : Lam Int} {f g : CrushEnc} {T : Triangulation}

theorem liftMove_class {m : CrushMove} (hv : m.source.Valid) (h : m.liftLam P L = .ok K) : K.tri = m.source ∧ K.Consistent ∧ (TellsClass P → K.Describes K.cls) := by
  unfold CrushMove.liftLam CrushMove.linear at h
  simp only [py_bind_eq_ok] at h
  obtain ⟨_, -, _, -, h⟩ := h
  split_ifs at h
  obtain ⟨h1, h2, h3⟩ := lamination_ok h
  unfold lamination at h
  rw [py_bind_eq_ok] at h
  obtain ⟨_, -, h⟩ := h
  rw [if_pos rfl] at h
  exact ⟨h2, promote_class ⟨hv, h1⟩ h⟩

/-- one part of a crush or of its inverse -/
theorem part_class {p : CrushPart} (hs : p.Sound) (hP : TellsClass P) (hL : L.Consistent) (hd : L.Describes L.cls) (h : p.applyLam P L = .ok K) : K.Consistent ∧ K.Describes K.cls := by
  cases p with
  | enc e =>
    have hs : e.Legal := hs
    have h : e.applyLam L = .ok K := h
    exact ⟨hL.enc hs h, (C68_mapping e hs L K hL hd h).2⟩
  | crush m =>
    have h : m.applyLam P L = .ok K := h
    obtain ⟨t1, t2⟩ := crushMove_target h
    obtain ⟨c1, c2⟩ := crushMove_class ⟨by rw [t1]; exact hs.2, by rw [t1, t2]⟩ h
    exact ⟨c1, c2 hP⟩
  | lift m =>
    obtain ⟨-, c1, c2⟩ := liftMove_class hs.1 h
    exact ⟨c1, c2 hP⟩

theorem parts_class {ps : List CrushPart} (hs : ∀ p ∈ ps, p.Sound) (hP : TellsClass P) (hL : L.Consistent) (hd : L.Describes L.cls) (h : ps.foldlM (fun L p => p.applyLam P L) L = .ok K) : K.Consistent ∧ K.Describes K.cls :=
  foldlM_inv (fun K => K.Consistent ∧ K.Describes K.cls) ⟨hL, hd⟩ (fun b x c hx q hc => part_class (hs x hx) hP q.1 q.2 hc) h

theorem inverse_sound (hs : ∀ p ∈ f.parts, p.Sound) (h : f.inverse = .ok g) : ∀ p ∈ g.parts, p.Sound := by
  unfold CrushEnc.inverse at h
  rw [py_bind_eq_ok] at h
  obtain ⟨ps, h1, h2⟩ := h
  injection h2 with h2
  subst h2
  intro p hp
  obtain ⟨q, q1, q2⟩ := mapM_mem_right h1 hp
  have hq := hs q (List.mem_reverse.1 q1)
  cases q with
  | enc e =>
    have hq : e.Legal := hq
    have q2 : (do let k ← e.inverse; return CrushPart.enc k : Py CrushPart) = .ok p := q2
    rw [Enc.inverse_eq hq, py_bind_ok] at q2
    injection q2 with q2
    subst q2
    exact hq.inv'
  | crush m =>
    have q2 : (.ok (CrushPart.lift m) : Py CrushPart) = .ok p := q2
    injection q2 with q2
    subst q2
    exact hq
  | lift m =>
    have q2 : (.ok (CrushPart.crush m) : Py CrushPart) = .ok p := q2
    injection q2 with q2
    subst q2
    exact hq

/-- lifts are of the right class -/
theorem CrushesTo.lift_class (h : CrushesTo P c f) (hg : f.inverse = .ok g) (hP : TellsClass P) (hN : N.Consistent) (hd : N.Describes N.cls) (ha : g.applyLam P N = .ok M) : M.Consistent ∧ M.Describes M.cls := by
  unfold CrushEnc.applyLam at ha
  split_ifs at ha
  exact parts_class (inverse_sound h.1.1 hg) hP hN hd ha

/-- what `boundary_union` returns is of the right class -/
theorem boundaryUnion_class (hP : ∀ L, ∃ k, P L = .ok k) (hT : TellsClass P) (hc : c.NoArcs) (hd : c.Describes c.cls) (hL : L.Consistent) (hLd : L.Describes L.cls) (h : c.boundaryUnion P dflt fuel L = .ok B) : B.Describes B.cls := by
  obtain ⟨f, g, K, m, i1, i2, i3, i4, i5, k2, k3, m1, m2⟩ := boundaryUnion_parts P dflt fuel c hc hd hP hT L hL hLd h
  exact ((crushOf_spec hP hc hd i1).lift_class i2 hT (noArcs_iff.1 m2).1 (boundary_class hT k2 k3 i4) i5).2

/-- what crosses none of the parts -/
theorem Unions.far {D : List (Lam Int)} (h : S.Unions D) (hS : S.Consistent) (hX : X.Consistent) (ht : X.tri = S.tri) (hD : ∀ Y ∈ D, X.DisjointFrom Y) : X.DisjointFrom S := by
  induction h with
  | nil hb => exact (hb.disjoint hS.1 hX ht.symm).symm
  | cons u1 u2 ih => exact .union hS u1 (hD _ (by simp)) (ih (u1.consistent hS).2 (ht.trans u1.wf.2.2.2.symm) (fun Y hY => hD Y (by simp [hY])))

/-- among the submultiarcs of a triangulation there is one whose boundary is empty: the union of all edges -/
theorem empty_boundary {cs : List (Lam Int × Int)} {subs : List (Lam Int)} (hK : K.Consistent) (hc : K.ClassRight) (ht : K.IsTriangulation) (hz : 0 < K.tri.zeta) (h1 : K.componentsAll P dflt fuel = .ok cs) (h2 : K.sublaminations P dflt fuel = .ok subs) :
    ∃ s ∈ subs, ∀ B, s.boundary P dflt fuel = .ok B → B.Blank := by
  have H := componentsAll_spec hK hc h1
  have hne : cs ≠ [] := by
    rintro rfl
    obtain ⟨D, d1, d2, -, d3⟩ := ht
    have : K.Blank := by
      have := H.union
      cases this with
      | nil hb => exact hb
    have := (d1.blank_iff hK (fun Y hY => (d2 Y hY).1)).1 this
    subst this
    simp only [List.length_nil] at d3
    omega
  obtain ⟨p1, p2⟩ := C72_sublaminations P dflt fuel K hK hc cs h1 subs h2
  obtain ⟨s, s1, s2⟩ := p2 cs (List.Sublist.refl _) hne
  obtain ⟨⟨N, hN⟩, s3, -⟩ := p1 s s1
  obtain ⟨cS, cN⟩ := hN.consistent hK
  refine ⟨s, s1, fun B hB => ?_⟩
  obtain ⟨b1, b2, b3, -⟩ := C80_lamination P dflt fuel s cS s3 B hB
  have cB := (noArcs_iff.1 b2).1
  have tS : s.tri = K.tri := hN.wf.2.2.1
  refine C79_triangulation K hK ht B b2 (H.union.far hK cB (b1.trans tS) (fun Y hY => ?_))
  obtain ⟨q, hq, e⟩ := List.mem_flatMap.1 hY
  rw [List.eq_of_mem_replicate e]
  obtain ⟨M, hM⟩ := s2.pull cS (List.mem_map.2 ⟨q, hq, rfl⟩)
  exact b3.left hM

/-- the members of a ball are of class `MultiArc` -/
theorem ball_class {radius : Nat} {r : List (Lam Int)} (h : L.exploreBall P dflt fuel radius = .ok r) : ∀ K ∈ r, K.cls = .multiarc := by
  obtain ⟨-, s, g, gs, -, -, a3⟩ := exploreBall_ok h
  refine foldlM_inv (fun r => ∀ K ∈ r, K.cls = .multiarc) (by simp) (fun acc x acc' _ q hx => ?_) a3
  simp only [py_bind_eq_ok] at hx
  obtain ⟨ci, -, ei, -, A, hA, B, hB, hx⟩ := hx
  injection hx with hx
  subst hx
  intro K hK
  unfold addTo at hK
  split_ifs at hK
  · exact q K hK
  · rcases List.mem_append.1 hK with hK | hK
    · exact q K hK
    · rw [List.mem_singleton.1 hK]
      have e1 := Enc.applyLam_cls hA (N := x.target.asLamination) rfl rfl
      rw [hA] at e1
      injection e1 with e1
      have e2 := Enc.applyLam_cls hB (N := A) rfl rfl
      rw [hB] at e2
      injection e2 with e2
      rw [e2]
      dsimp only
      rw [e1]
      rfl

theorem mem_addTo {s : List (Lam Int)} (h : K ∈ addTo s L) : K ∈ s ∨ K = L := by
  unfold addTo at h
  split_ifs at h
  · exact .inl h
  · simpa using h

theorem addTo_sub {s : List (Lam Int)} (h : K ∈ s) : K ∈ addTo s L := by
  unfold addTo
  split_ifs
  · exact h
  · simp [h]

theorem addTo_has (s : List (Lam Int)) : ∃ K ∈ addTo s L, Same K L := by
  unfold addTo
  split_ifs with h
  · obtain ⟨K, k1, k2⟩ := List.any_eq_true.1 h
    exact ⟨K, k1, eqv_same.1 k2⟩
  · exact ⟨L, by simp, .refl⟩

/-- `A_1` contains the empty lamination, and all its members are of the right class -/
theorem secondEntries_spec {length : Nat} {A : List (Lam Int)} (hP : ∀ L, ∃ k, P L = .ok k) (hT : TellsClass P) (ha : a.NoArcs) (hd : a.Describes a.cls) (hb : b.Consistent) (hbd : b.Describes b.cls) (hz : 0 < a.tri.zeta)
    (h : CurveGraph.secondEntries P dflt fuel T a b length = .ok A) : (∀ x ∈ A, x.Consistent ∧ x.Describes x.cls) ∧ ∃ x ∈ A, x.Blank := by
  unfold CurveGraph.secondEntries at h
  simp only [py_bind_eq_ok] at h
  obtain ⟨f, h1, g, h2, b', h3, ball, h4, h5⟩ := h
  have H := crushOf_spec hP ha hd h1
  obtain ⟨k1, k2, k3⟩ := C97_crush P dflt fuel a ha hd hP b f h1 hT hb hbd b' h3
  obtain ⟨t1, t2, -⟩ := C94_triangulations P dflt fuel b' k2 _ ball h4
  have cl := ball_class h4
  have right : ∀ K ∈ ball, K.ClassRight := fun K hK => by
    constructor <;> intro q <;> rw [cl K hK] at q <;> cases q
  have zt : f.target.zeta = a.tri.zeta := by
    obtain ⟨-, s, E, g', C, -⟩ := H
    rw [C.zeta, s]
  -- a submultiarc of the ball
  have one : ∀ K ∈ ball, ∀ subs, K.sublaminations P dflt fuel = .ok subs → ∀ s ∈ subs, s.Consistent ∧ ∀ m', s.boundary P dflt fuel = .ok m' → m'.NoArcs ∧ m'.tri = f.target ∧ m'.Describes m'.cls := by
    intro K hK subs hs s hs'
    obtain ⟨u1, u2, u3⟩ := t1 K hK
    obtain ⟨cs, c1⟩ : ∃ cs, K.componentsAll P dflt fuel = .ok cs := by
      unfold sublaminations at hs
      rw [py_bind_eq_ok] at hs
      obtain ⟨cs, c1, -⟩ := hs
      exact ⟨cs, c1⟩
    have HC := componentsAll_spec u1 (right K hK) c1
    obtain ⟨⟨N, hN⟩, s3, ds, d1, d2, d3⟩ := (C72_sublaminations P dflt fuel K u1 (right K hK) cs c1 subs hs).1 s hs'
    have cS := (hN.consistent u1).1
    have nb : ¬ s.Blank := fun q => by
      have := (d3.blank_iff cS (fun Y hY => by
        obtain ⟨p, p1, rfl⟩ := List.mem_map.1 hY
        exact HC.connected p (d1.subset p1))).1 q
      exact d2 (List.map_eq_nil_iff.1 this)
    refine ⟨cS, fun m' hm => ?_⟩
    obtain ⟨b1, b2, -⟩ := C80_lamination P dflt fuel s cS s3 m' hm
    exact ⟨b2, by rw [b1, hN.wf.2.2.1, u2, k1], boundary_class hT cS s3 hm⟩
  have step : ∀ K ∈ ball, ∀ subs, K.sublaminations P dflt fuel = .ok subs → ∀ s ∈ subs, ∀ m' m, s.boundary P dflt fuel = .ok m' → g.applyLam P m' = .ok m → m.Consistent ∧ m.Describes m.cls ∧ (m'.Blank → m.Blank) := by
    intro K hK subs hs s hs' m' m h1 h2'
    obtain ⟨n1, n2, n3⟩ := (one K hK subs hs s hs').2 m' h1
    obtain ⟨c1, c2⟩ := H.lift_class h2 hT (noArcs_iff.1 n1).1 n3 h2'
    exact ⟨c1, c2, fun q => H.lift_blank ha h2 n1 n2 q h2'⟩
  constructor
  · refine foldlM_inv (fun A : List (Lam Int) => ∀ x ∈ A, x.Consistent ∧ x.Describes x.cls) (by simp) (fun acc K acc' hK q hx => ?_) h5
    rw [py_bind_eq_ok] at hx
    obtain ⟨subs, x1, x2⟩ := hx
    refine foldlM_inv (fun A : List (Lam Int) => ∀ x ∈ A, x.Consistent ∧ x.Describes x.cls) q (fun acc s acc' hs q hy => ?_) x2
    simp only [py_bind_eq_ok] at hy
    obtain ⟨m', y1, m, y2, y3⟩ := hy
    injection y3 with y3
    subst y3
    intro z hz
    rcases mem_addTo hz with hz | rfl
    · exact q z hz
    · obtain ⟨r1, r2, -⟩ := step K hK subs x1 s hs m' z y1 y2
      exact ⟨r1, r2⟩
  · obtain ⟨K, hK⟩ := List.exists_mem_of_ne_nil _ t2
    have keep : ∀ (A : List (Lam Int)) (K : Lam Int) (A' : List (Lam Int)), (do
        let subs ← K.sublaminations P dflt fuel
        subs.foldlM (fun s submultiarc => do
          let m' ← submultiarc.boundary P dflt fuel
          let m ← g.applyLam P m'
          return addTo s m) A : Py (List (Lam Int))) = .ok A' → (∃ x ∈ A, x.Blank) → ∃ x ∈ A', x.Blank := by
      intro A K A' hx q
      rw [py_bind_eq_ok] at hx
      obtain ⟨subs, x1, x2⟩ := hx
      refine foldlM_inv (fun A : List (Lam Int) => ∃ x ∈ A, x.Blank) q (fun acc s acc' hs q hy => ?_) x2
      simp only [py_bind_eq_ok] at hy
      obtain ⟨m', y1, m, y2, y3⟩ := hy
      injection y3 with y3
      subst y3
      obtain ⟨x, q1, q2⟩ := q
      exact ⟨x, addTo_sub q1, q2⟩
    refine foldlM_hits (Q := fun A : List (Lam Int) => ∃ x ∈ A, x.Blank) hK (fun A K A' _ hx q => keep A K A' hx q) (fun A A' hx => ?_) h5
    rw [py_bind_eq_ok] at hx
    obtain ⟨subs, x1, x2⟩ := hx
    obtain ⟨u1, u2, u3⟩ := t1 K hK
    obtain ⟨cs, c1⟩ : ∃ cs, K.componentsAll P dflt fuel = .ok cs := by
      unfold sublaminations at x1
      rw [py_bind_eq_ok] at x1
      obtain ⟨cs, c1, -⟩ := x1
      exact ⟨cs, c1⟩
    obtain ⟨s, s1, s2⟩ := empty_boundary u1 (right K hK) u3 (by rw [u2, k1, zt]; exact hz) c1 x1
    refine foldlM_hits (Q := fun A : List (Lam Int) => ∃ x ∈ A, x.Blank) s1 (fun A s A' _ hy q => ?_) (fun A A' hy => ?_) x2
    · simp only [py_bind_eq_ok] at hy
      obtain ⟨m', y1, m, y2, y3⟩ := hy
      injection y3 with y3
      subst y3
      obtain ⟨x, q1, q2⟩ := q
      exact ⟨x, addTo_sub q1, q2⟩
    · simp only [py_bind_eq_ok] at hy
      obtain ⟨m', y1, m, y2, y3⟩ := hy
      injection y3 with y3
      subst y3
      obtain ⟨z, z1, z2⟩ := addTo_has (L := m) A
      exact ⟨z, z1, z2.symm.blank ((step K hK subs x1 s s1 m' m y1 y2).2.2 (s2 m' y1))⟩

end Lam
end Curver
