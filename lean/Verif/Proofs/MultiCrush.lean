import Verif.Proofs.CrusherBase
import Verif.Spec.BoundaryUnion
import Verif.Props.LamClass

/-!
# `MultiCurve.crush`
-/

namespace Curver
open Triangulation

namespace Lam
variable {S L M N K p c s A B X Y : Lam Int} {D E : List (Lam Int)} {P : Lam Int → Py LamClass} {f g : CrushEnc} {h : Enc}

theorem HasPart.consistent (h : L.HasPart X) (hL : L.Consistent) : X.Consistent ∧ X.tri = L.tri := by
  obtain ⟨-, N, hN⟩ := h
  exact ⟨(hN.consistent hL).1, hN.wf.2.2.1⟩

theorem HasPart.noArcs (h : L.HasPart X) (hL : L.NoArcs) : X.NoArcs := by
  obtain ⟨-, N, hN⟩ := h
  exact hN.noArcs hL

/-- different components do not cross -/
theorem HasPart.disjoint (hX : L.HasPart X) (hY : L.HasPart Y) (hL : L.Consistent) (hn : ¬ Same X Y) : X.DisjointFrom Y := by
  obtain ⟨cX, N, hN⟩ := hX
  have hNc := (hN.consistent hL).2
  obtain ⟨D, d1, d2⟩ := exists_unions hNc
  obtain ⟨Z, z1, z2⟩ := (Unions.hasPart_iff hL (.cons hN d1) (by
    intro W hW
    rcases List.mem_cons.1 hW with rfl | hW
    · exact cX
    · exact d2 W hW)).1 hY
  rcases List.mem_cons.1 z1 with rfl | z1
  · exact absurd z2 hn
  · obtain ⟨Q, hQ⟩ := d1.pull hNc z1
    obtain ⟨W, w1, w2⟩ := hN.assoc hL hQ
    exact DisjointFrom.same ⟨W, (w1.consistent hL).1, w2⟩ .refl z2

/-- the mappings are legal, and the surfaces of crushes and lifts are surfaces -/
def _root_.Curver.CrushPart.Sound : CrushPart → Prop
  | .enc h => h.Legal
  | .crush m => m.source.Valid ∧ m.target.Valid
  | .lift m => m.source.Valid ∧ m.target.Valid

/-- it leads to laminations whenever it returns -/
def Tidy (P : Lam Int → Py LamClass) (f : CrushEnc) : Prop := (∀ p ∈ f.parts, p.Sound) ∧
  ∀ L K : Lam Int, L.WellFormed → f.applyLam P L = .ok K → K.WellFormed ∧ K.tri = f.target ∧ (L.Consistent → K.Consistent ∧ (TellsClass P → L.Describes L.cls → K.Describes K.cls))

theorem CrushEnc.apply_tri {K L : Lam Int} (h : f.applyLam P L = .ok K) : L.tri = f.source := by
  unfold CrushEnc.applyLam at h
  rw [Triangulation.eq_decide] at h
  by_contra q
  have q' : ¬ f.source = L.tri := fun e => q e.symm
  simp [q'] at h

theorem CrushEnc.split_mul {f' k : CrushEnc} {K L : Lam Int} (hm : f'.mul f = .ok k) (hf : Tidy P f) (hL : L.WellFormed) (h : k.applyLam P L = .ok K) : ∃ K1, f.applyLam P L = .ok K1 ∧ f'.applyLam P K1 = .ok K := by
  have ht := CrushEnc.apply_tri h
  obtain ⟨K1, k1⟩ : ∃ K1, f.applyLam P L = .ok K1 := by
    obtain ⟨m1, rfl⟩ := CrushEnc.mul_ok hm
    unfold CrushEnc.applyLam at h ⊢
    dsimp only at h ht
    rw [Triangulation.eq_decide, ht] at h ⊢
    simp only [decide_true, Bool.not_true, Bool.false_eq_true, if_false, List.foldlM_append, py_bind_eq_ok] at h ⊢
    obtain ⟨K1, k1, -⟩ := h
    exact ⟨K1, k1⟩
  refine ⟨K1, k1, ?_⟩
  rw [← CrushEnc.applyLam_mul hm k1 (hf.2 L K1 hL k1).2.1]
  exact h

theorem Tidy.mul {f' k : CrushEnc} (h1 : Tidy P f) (h2 : Tidy P f') (hm : f'.mul f = .ok k) : Tidy P k := by
  refine ⟨fun p hp => ?_, fun L K hL h => ?_⟩
  · rw [(CrushEnc.mul_ok hm).2] at hp
    rcases List.mem_append.1 hp with hp | hp
    · exact h1.1 p hp
    · exact h2.1 p hp
  obtain ⟨K1, k1, k2⟩ := CrushEnc.split_mul hm h1 hL h
  obtain ⟨w1, w2, w3⟩ := h1.2 L K1 hL k1
  rw [(CrushEnc.mul_ok hm).2]
  obtain ⟨u1, u2, u3⟩ := h2.2 K1 K w1 k2
  exact ⟨u1, u2, fun c => ⟨(u3 (w3 c).1).1, fun hP d => (u3 (w3 c).1).2 hP ((w3 c).2 hP d)⟩⟩

theorem ofEnc_tidy (hh : h.Legal) : Tidy P (.ofEnc h) := by
  refine ⟨fun p hp => by rw [List.mem_singleton.1 hp]; exact hh, fun L K hL hk => ?_⟩
  rw [ofEnc_apply (CrushEnc.apply_tri hk)] at hk
  obtain ⟨w1, w2, -⟩ := hh.undo hL hk
  exact ⟨w1, w2, fun c => ⟨c.enc hh hk, fun _ d => (C68_mapping h hh L K c d hk).2⟩⟩

theorem promote_class {L' : Lam Int} (hL : L.WellFormed) (h : L.promote P = .ok L') : L'.Consistent ∧ (TellsClass P → L'.Describes L'.cls) := by
  obtain ⟨p1, p2⟩ := promote_ok h
  unfold promote at h
  rw [py_bind_eq_ok] at h
  obtain ⟨b, h1, h⟩ := h
  have hb := isIntegral_int h1
  subst hb
  have hC : L.Consistent := by
    unfold isIntegral at h1
    split_ifs at h1
    · rw [pyAllM_ok_iff] at h1
      refine ⟨hL, fun e he => ?_⟩
      have := h1 e (mem_labels.2 he)
      rw [py_bind_eq_ok] at this
      obtain ⟨w, h2, -⟩ := this
      exact ⟨w, h2⟩
    · injection h1 with h1
      cases h1
  have hC' := Same.consistent (K := L') ⟨p1.symm, p2.symm⟩ hC
  rw [if_pos rfl, py_bind_eq_ok] at h
  obtain ⟨c, h2, h⟩ := h
  injection h with h
  subst h
  have hI : (⟨L.tri, L.geometric, .integral⟩ : Lam Int).Consistent := Same.consistent (L := L) ⟨rfl, rfl⟩ hC
  exact ⟨hC', fun hP => Describes.same (L := ⟨L.tri, L.geometric, .integral⟩) (M := ⟨L.tri, L.geometric, c⟩) hI ⟨rfl, rfl⟩ (hP _ c hI h2)⟩

theorem crushMove_class {m : CrushMove} {K : Lam Int} (hK : K.WellFormed) (h : m.applyLam P L = .ok K) : K.Consistent ∧ (TellsClass P → K.Describes K.cls) := by
  unfold CrushMove.applyLam at h
  simp only [py_bind_eq_ok] at h
  obtain ⟨_, -, _, -, _, -, _, -, _, -, _, -, _, -, _, -, _, -, _, -, _, -, _, -, _, -, _, -, _, -, _, -, h⟩ := h
  obtain ⟨h1, h2, h3⟩ := lamination_ok h
  unfold lamination at h
  rw [py_bind_eq_ok] at h
  obtain ⟨_, -, h⟩ := h
  rw [if_pos rfl] at h
  exact promote_class ⟨by rw [← h2]; exact hK.1, h1⟩ h

theorem crush_tidy {dflt : Int → Int → Bool} {fuel : Nat} (hc : c.NoArcs) (hp : ¬ c.Peripheral) (hf : c.crush P dflt fuel = .ok f) : Tidy P f := by
  obtain ⟨g1, g2, m, s, a, b, e, X, H⟩ := crush_spec hc hp hf
  refine ⟨fun p hp => ?_, fun L K hL hk => ?_⟩
  · rw [H.eq] at hp
    simp only [List.mem_cons, List.not_mem_nil, or_false] at hp
    rcases hp with rfl | rfl | rfl
    · exact H.legal1
    · exact ⟨by rw [H.crush.source, ← H.target1]; exact H.legal1.path.valid_target, H.crush.target.valid⟩
    · exact H.legal2
  have ht := CrushEnc.apply_tri hk
  unfold CrushEnc.applyLam at hk
  rw [Triangulation.eq_decide, ht] at hk
  simp only [decide_true, Bool.not_true, Bool.false_eq_true, if_false] at hk
  rw [H.eq] at hk
  simp only [List.foldlM_cons, List.foldlM_nil, CrushPart.applyLam, py_bind_eq_ok] at hk
  obtain ⟨L1, k1, L2, k2, L3, k3, k4⟩ := hk
  injection k4 with k4
  subst k4
  obtain ⟨t1, t2⟩ := crushMove_target k2
  obtain ⟨w1, w2, -⟩ := H.legal2.undo (L := L2) ⟨by rw [t1]; exact H.crush.target.valid, by rw [t1, t2]⟩ k3
  obtain ⟨c1, c2⟩ := crushMove_class ⟨by rw [t1]; exact H.crush.target.valid, by rw [t1, t2]⟩ k2
  exact ⟨w1, by rw [H.eq]; exact w2, fun _ => ⟨c1.enc H.legal2 k3, fun hP _ => (C68_mapping g2 H.legal2 L2 L3 c1 (c2 hP) k3).2⟩⟩

/-- one round of the loop -/
theorem crushStep_spec {dflt : Int → Int → Bool} {fuel : Nat} {f' : CrushEnc} (hP : ∀ L, ∃ k, P L = .ok k) (h : Crusher P D f g) (hc : c.NoArcs) (hcc : c.Connected) (ht : c.tri = f.source) (ha : (D ++ [c]).Pairwise (fun d e => d.DisjointFrom e ∧ ¬ Same d e))
    (hf : crushStep P dflt fuel f c = .ok f') (hT : Tidy P f) : f'.source = f.source ∧ Tidy P f' ∧ ((c.Peripheral ∧ f' = f) ∨ ¬ c.Peripheral ∧ ∃ g', Crusher P (D ++ [c]) f' g') := by
  unfold crushStep at hf
  obtain ⟨b, b1, b2⟩ := isPeripheral_spec P (noArcs_iff.1 hc).1
  rw [b1, py_bind_ok] at hf
  cases b with
  | true =>
    injection hf with hf
    exact ⟨by rw [← hf], by rw [← hf]; exact hT, .inl ⟨b2.1 rfl, hf.symm⟩⟩
  | false =>
    have hp : ¬ c.Peripheral := fun q => by simpa using b2.2 q
    rw [if_neg (by simp)] at hf
    simp only [py_bind_eq_ok] at hf
    obtain ⟨K, k1, hf⟩ := hf
    split_ifs at hf
    simp only [py_bind_eq_ok] at hf
    obtain ⟨f2, k2, hm⟩ := hf
    obtain ⟨-, -, pd⟩ := List.pairwise_append.1 ha
    have dd : ∀ d ∈ D, c.DisjointFrom d := fun d hd => (pd d hd c (by simp)).1.symm
    have dn : ∀ d ∈ D, ¬ Same d c := fun d hd => (pd d hd c (by simp)).2
    obtain ⟨w1, w2, w3⟩ := h.apply_wf (noArcs_iff.1 hc).1 ht dd k1
    obtain ⟨i1, -⟩ := h.image hc hcc ht dd dn k1
    have i2 := h.image_essential hc hcc ht dd dn k1 hp
    obtain ⟨g2, h2⟩ := crush_crusher (w3 hc) i1 i2 hP k2
    obtain ⟨k, -, hk⟩ := h.comp h2 hm (E := [c]) (.cons k1 .nil) (fun d hd => by rw [List.mem_singleton.1 hd]; exact ⟨hc, hcc, hp, ht⟩) ha
    exact ⟨by rw [(CrushEnc.mul_ok hm).2], hT.mul (crush_tidy (w3 hc) i2 k2) hm, .inr ⟨hp, k, hk⟩⟩

theorem crushFold_spec {dflt : Int → Int → Bool} {fuel : Nat} (hP : ∀ L, ∃ k, P L = .ok k) : ∀ {cs : List (Lam Int × Int)} {D : List (Lam Int)} {f g f' : CrushEnc}, Crusher P D f g → Tidy P f → (∀ p ∈ cs, p.1.NoArcs ∧ p.1.Connected ∧ p.1.tri = f.source) →
    (D ++ cs.map Prod.fst).Pairwise (fun d e => d.DisjointFrom e ∧ ¬ Same d e) → cs.foldlM (fun f p => crushStep P dflt fuel f p.1) f = .ok f' →
    ∃ E g', Crusher P (D ++ E) f' g' ∧ f'.source = f.source ∧ Tidy P f' ∧ (∀ d, d ∈ E ↔ d ∈ cs.map Prod.fst ∧ ¬ d.Peripheral)
  | [], D, f, g, f', h, hT, _, _, hf => by
    injection hf with hf
    subst hf
    exact ⟨[], g, by simpa using h, rfl, hT, by simp⟩
  | p :: cs, D, f, g, f', h, hT, hc, ha, hf => by
    rw [List.foldlM_cons, py_bind_eq_ok] at hf
    obtain ⟨f1, h1, hf⟩ := hf
    have ha' : (D ++ p.1 :: cs.map Prod.fst).Pairwise (fun d e => d.DisjointFrom e ∧ ¬ Same d e) := ha
    have sub1 : (D ++ [p.1]).Sublist (D ++ p.1 :: cs.map Prod.fst) := List.Sublist.append (List.Sublist.refl _) (by simp)
    have sub2 : (D ++ cs.map Prod.fst).Sublist (D ++ p.1 :: cs.map Prod.fst) := List.Sublist.append (List.Sublist.refl _) (by simp)
    obtain ⟨c1, c2, c3⟩ := hc p (by simp)
    obtain ⟨s1, sT, s2⟩ := crushStep_spec hP h c1 c2 c3 (ha'.sublist sub1) h1 hT
    have hc' : ∀ q ∈ cs, q.1.NoArcs ∧ q.1.Connected ∧ q.1.tri = f1.source := fun q hq => by rw [s1]; exact hc q (by simp [hq])
    rcases s2 with ⟨q, e⟩ | ⟨q, g1, e⟩
    · rw [← e] at h
      obtain ⟨E, g', r1, r2, rT, r3⟩ := crushFold_spec hP h sT hc' (ha'.sublist sub2) hf
      refine ⟨E, g', r1, r2.trans s1, rT, fun d => ?_⟩
      rw [r3, List.map_cons, List.mem_cons]
      constructor
      · exact fun x => ⟨.inr x.1, x.2⟩
      · rintro ⟨rfl | x, y⟩
        · exact absurd q y
        · exact ⟨x, y⟩
    · obtain ⟨E, g', r1, r2, rT, r3⟩ := crushFold_spec hP e sT hc' (by simpa using ha') hf
      refine ⟨p.1 :: E, g', by simpa using r1, r2.trans s1, rT, fun d => ?_⟩
      rw [List.mem_cons, r3, List.map_cons, List.mem_cons]
      constructor
      · rintro (rfl | x)
        · exact ⟨.inl rfl, q⟩
        · exact ⟨.inr x.1, x.2⟩
      · rintro ⟨rfl | x, y⟩
        · exact .inl rfl
        · exact .inr ⟨x, y⟩

theorem HasPart.same (h : L.HasPart X) (e : Same L K) : K.HasPart X := by
  obtain ⟨hX, N, hN⟩ := h
  exact ⟨hX, N, hN.same hN.wf.1 hN.wf.2.1 e .refl .refl⟩

theorem HasPart.same' (h : L.HasPart X) (e : Same X Y) : L.HasPart Y := by
  obtain ⟨hX, N, hN⟩ := h
  exact ⟨hX.same e, N, hN.same hN.wf.1 hN.wf.2.1 .refl e .refl⟩

theorem Crusher.congr_list {D' : List (Lam Int)} (h : Crusher P D f g) (e : D = D') : Crusher P D' f g := e ▸ h

/-- the map that `crush` returns -/
theorem crushAll_full {dflt : Int → Int → Bool} {fuel : Nat} (hP : ∀ L, ∃ k, P L = .ok k) (hc : c.NoArcs) (hf : c.crushAll P dflt fuel = .ok f) :
    Tidy P f ∧ f.source = c.tri ∧ ∃ E g, Crusher P E f g ∧ ∀ X, c.EssentialPart X ↔ ∃ Y ∈ E, Same Y X := by
  unfold crushAll crushAllWith at hf
  simp only [py_bind_eq_ok] at hf
  obtain ⟨⟨s, conj⟩, h1, i, h2, cs, h3, f1, h4, all, h5, image, h6, ⟨u, post⟩, h7, f2, h8, h9⟩ := hf
  dsimp only at h2 h3 h4 h6 h8 h9
  obtain ⟨s1, -, -⟩ := shortenAll_spec hc.1 h1
  have hs := s1.noArcs hc
  have hsc := (noArcs_iff.1 hs).1
  have hcc := (noArcs_iff.1 hc).1
  have comps := componentsAll_spec hsc (C68_shorten P dflt dflt fuel c hc.1 s conj h1).1.right h3
  obtain ⟨i', i1, i2, -, i3, i4, -⟩ := C14_identity s.tri hs.1.1
  rw [h2] at i1
  injection i1 with i1
  subst i1
  have parts : ∀ X, s.HasPart X ↔ ∃ p ∈ cs, Same p.1 X := fun X => comps.hasPart_iff hsc
  have isPart : ∀ p ∈ cs, s.HasPart p.1 := fun p hp => (parts _).2 ⟨p, hp, .refl⟩
  -- the loop
  have pw : (cs.map Prod.fst).Pairwise (fun d e => d.DisjointFrom e ∧ ¬ Same d e) := by
    rw [List.pairwise_map]
    refine comps.apart.imp_of_mem (fun {p q} hp hq e => ?_)
    have ns : ¬ Same p.1 q.1 := fun x => by
      rw [eqv_spec.2 x] at e
      exact absurd e (by simp)
    exact ⟨(isPart p hp).disjoint (isPart q hq) hsc ns, ns⟩
  obtain ⟨E, g1, r1, r2, rT, r3⟩ := crushFold_spec hP (ofEnc_crusher (P := P) i2) (ofEnc_tidy i2) (fun p hp => ⟨(isPart p hp).noArcs hs, (isPart p hp).1, ((isPart p hp).consistent hsc).2.trans i3.symm⟩) (by simpa using pw) h4
  rw [List.nil_append] at r1
  have sf1 : f1.source = s.tri := r2.trans i3
  -- the last shortening
  have wa : all.WellFormed := (s1.legal.undo hc.1.1.asLamination_consistent.1 h5).1
  have hpost : post.Legal := (shortenAll_spec (rT.2 all image wa h6).1 h7).1.legal
  obtain ⟨g2, -, r4⟩ := r1.comp (ofEnc_crusher (P := P) hpost) h8 (E := []) .nil (by simp) (by simpa using r1.apart)
  rw [List.append_nil] at r4
  have sf2 : f2.source = s.tri := by rw [(CrushEnc.mul_ok h8).2]; exact sf1
  refine ⟨(ofEnc_tidy s1.legal).mul (rT.mul (ofEnc_tidy hpost) h8) h9, ?_⟩
  -- the conjugator
  obtain ⟨K, k1, k2⟩ := s1.acts
  have hi := s1.legal.inv'
  have toC : ∀ e ∈ E, ∃ d, conj.applyLam d = .ok e ∧ c.HasPart d := by
    intro e he
    obtain ⟨p, p1, rfl⟩ := List.mem_map.1 ((r3 e).1 he).1
    have hK : K.HasPart p.1 := (isPart p p1).same (Same.symm k2)
    obtain ⟨d, d1, d2⟩ := hK.enc (hcc.enc s1.legal k1) hi (s1.legal.undo hc.1 k1).2.2.2
    exact ⟨d, (s1.legal.undo' ((isPart p p1).consistent hsc).1.1 d1).2.2.2, d2⟩
  obtain ⟨E0, e1, e2⟩ := forall₂_choose (l := E) (R := fun e d => conj.applyLam d = .ok e) (Q := fun d => c.HasPart d) (fun e he => by
    obtain ⟨d, d1, d2⟩ := toC e he
    exact ⟨d, d2, d1⟩)
  have e3 : List.Forall₂ (fun d e => conj.applyLam d = .ok e) E0 E := e1.flip
  have curves : ∀ d ∈ E0, d.NoArcs ∧ d.Connected ∧ ¬ d.Peripheral ∧ d.tri = c.tri := by
    intro d hd
    have q := e2 d hd
    obtain ⟨e, x1, x2⟩ := forall₂_mem_left e3 d hd
    refine ⟨q.noArcs hc, q.1, fun y => ?_, (q.consistent hcc).2⟩
    exact ((r3 e).1 x1).2 (y.enc (q.noArcs hc) s1.legal x2)
  have apart : E0.Pairwise (fun d e => d.DisjointFrom e ∧ ¬ Same d e) := by
    have key : ∀ {l0 l : List (Lam Int)}, List.Forall₂ (fun d e => conj.applyLam d = .ok e) l0 l → (∀ d ∈ l0, c.HasPart d) → l.Pairwise (fun d e => d.DisjointFrom e ∧ ¬ Same d e) → l0.Pairwise (fun d e => d.DisjointFrom e ∧ ¬ Same d e) := by
      intro l0 l hl
      induction hl with
      | nil => exact fun _ _ => .nil
      | cons a1 a2 ih =>
        intro b1 b2
        obtain ⟨b3, b4⟩ := List.pairwise_cons.1 b2
        refine .cons (fun d hd => ?_) (ih (fun d hd => b1 d (by simp [hd])) b4)
        obtain ⟨e, x1, x2⟩ := forall₂_mem_left a2 d hd
        have ns : ¬ Same _ d := fun q => by
          have := Enc.applyLam_cls x2 q.1 q.2
          rw [a1] at this
          injection this with this
          exact (b3 e x1).2 ⟨by rw [this], by rw [this]⟩
        exact ⟨(b1 _ (by simp)).disjoint (b1 d (by simp [hd])) hcc ns, ns⟩
    exact key e3 e2 r1.apart
  have e4 : List.Forall₂ (fun d e => (CrushEnc.ofEnc conj).applyLam P d = .ok e) E0 E := by
    refine List.Forall₂.imp (fun d e q => ?_) ((List.forall₂_and_left _ _).2 ⟨fun d hd => (curves d hd).2.2.2, e3⟩)
    rw [ofEnc_apply (q.1.trans s1.source.symm)]
    exact q.2
  obtain ⟨k, -, r5⟩ := (ofEnc_crusher (P := P) s1.legal).comp r4 h9 e4 (fun d hd => by
    obtain ⟨x1, x2, x3, x4⟩ := curves d hd
    exact ⟨x1, x2, x3, x4.trans s1.source.symm⟩) (by simpa using apart)
  rw [List.nil_append] at r5
  refine ⟨by rw [(CrushEnc.mul_ok h9).2]; exact s1.source, E0, k, r5, fun X => ⟨?_, ?_⟩⟩
  · rintro ⟨x1, x2⟩
    obtain ⟨X', y1, y2⟩ := x1.enc hcc s1.legal k1
    have y3 := y2.same k2
    obtain ⟨p, p1, p2⟩ := (parts X').1 y3
    have np : ¬ p.1.Peripheral := fun q => by
      refine x2 ((q.same p2).enc (y3.noArcs hs) hi (s1.legal.undo (x1.consistent hcc).1.1 y1).2.2.2)
    have mE := (r3 p.1).2 ⟨List.mem_map.2 ⟨p, p1, rfl⟩, np⟩
    obtain ⟨d, d1, d2⟩ := forall₂_mem_right e3 p.1 mE
    refine ⟨d, d1, ?_⟩
    have b1 := (s1.legal.undo ((e2 d d1).consistent hcc).1.1 d2).2.2.2
    have b2 := (s1.legal.undo (x1.consistent hcc).1.1 y1).2.2.2
    have := Enc.applyLam_cls b1 p2.symm.1 p2.symm.2
    rw [b2] at this
    injection this with this
    exact ⟨(curves d d1).2.2.2.trans (x1.consistent hcc).2.symm, by rw [this]⟩
  · rintro ⟨Y, y1, y2⟩
    exact ⟨(e2 Y y1).same' y2, fun q => (curves Y y1).2.2.1 (q.same y2.symm)⟩

theorem crushAll_spec {dflt : Int → Int → Bool} {fuel : Nat} (hP : ∀ L, ∃ k, P L = .ok k) (hc : c.NoArcs) (hf : c.crushAll P dflt fuel = .ok f) :
    f.source = c.tri ∧ ∃ E g, Crusher P E f g ∧ ∀ X, c.EssentialPart X ↔ ∃ Y ∈ E, Same Y X := (crushAll_full hP hc hf).2

end Lam
end Curver
