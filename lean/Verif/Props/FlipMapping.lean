import Verif.Model.FlipMapping
import Verif.Proofs.AllEncodings
import Verif.Proofs.Spares
import Verif.Spec.Package
import Verif.Props.PL
import Verif.Props.MappingEq

/-!
# C101: `flip_mapping`
-/

namespace Curver
open Triangulation EncItem

/-- The move is an `EdgeFlip` or an `Isometry`. -/
def LMove.Elementary (m : LMove) : Prop := (∃ f, m.move = .flip f) ∨ ∃ f, m.move = .isometry f

/-- The move is a `MultiEdgeFlip` of no edges. -/
def LMove.EmptyMultiflip (m : LMove) : Prop := ∃ f, m.move = .multiflip f ∧ f.edges = []

theorem flips_of_oneByOne : ∀ {es : List Int} {T : Triangulation} {ms : List LMove}, T.Valid → flipOneByOne T es = .ok ms → AllEnc.Flips T es ms (endOf T ms) ∧ ∀ m ∈ ms, m.Elementary := by
  intro es
  induction es with
  | nil =>
    intro T ms hT h
    unfold flipOneByOne at h
    injection h with h
    subst h
    exact ⟨(AllEnc.flips_nil hT).2 ⟨rfl, rfl⟩, by simp⟩
  | cons e es ih =>
    intro T ms hT h
    unfold flipOneByOne at h
    simp only [py_bind_eq_ok] at h
    obtain ⟨m, h1, ns, h2, h3⟩ := h
    injection h3 with h3
    subst h3
    have hm : m.Legal := .flip T e m hT h1
    obtain ⟨k1, k2⟩ := ih hm.valid.2.1 h2
    refine ⟨(AllEnc.flips_cons hT).2 ⟨m, ns, h1, rfl, k1⟩, ?_⟩
    intro x hx
    rcases List.mem_cons.1 hx with rfl | hx
    · obtain ⟨T', -, -, rfl⟩ := hT.encodeFlip_ok_iff.1 h1
      exact .inl ⟨_, rfl⟩
    · exact k2 x hx

/-- What the mapping `k` made from the move `m` has to be. -/
structure LMove.FlippedTo (m : LMove) (k : Enc) : Prop where
  made : m.flipMapping = .ok k
  legal : k.Legal
  source : k.source = m.move.source
  target : k.target = m.move.target
  elementary : ∀ x ∈ k.sequence, x.Elementary
  lam : ∀ (R : Type) [CommRing R] [LinearOrder R] [IsStrictOrderedRing R] [Halvable R] (L : Lam R), L.Consistent → L.tri = m.move.source → performLam k.performed L = m.move.applyLam L
  hom : ∀ x : Hom, x.WellFormed → x.tri = m.move.source → performHom k.performed x = m.move.applyHom x

set_option maxHeartbeats 1000000 in
theorem LMove.Legal.flippedTo {m : LMove} (h : m.Legal) (hne : ¬ m.EmptyMultiflip) : ∃ k, m.FlippedTo k := by
  have simple : m.Elementary → m.flipMapping = m.encode → ∃ k, m.FlippedTo k := by
    intro he hm
    refine ⟨_, hm.trans h.encode, ?_, rfl, rfl, ?_, ?_, ?_⟩
    · refine ⟨by simp, Path.single h, ?_⟩
      intro q
      by_contra hn
      have hn' : ¬ m.move.source = m.move.target := hn
      simp [hn'] at q
    · intro x hx
      rw [List.mem_singleton.1 hx]
      exact he
    · intro R _ _ _ _ L hL ht
      obtain ⟨L', h1, -⟩ := h.applyLam_total hL ht
      show performLam [m] L = _
      simp only [performLam, h1]
      rfl
    · intro x hx ht
      show performHom [m] x = _
      simp only [performHom]
      cases m.move.applyHom x <;> rfl
  cases h.shape with
  | flip S T e hS hf hm => exact simple (.inl ⟨_, rfl⟩) rfl
  | isometry S T f g i i' hS hT hf hg hi hi' hgf hfg => exact simple (.inr ⟨_, rfl⟩) rfl
  | multiflip S T es hS he hm =>
    have hes : es ≠ [] := fun q => hne ⟨_, rfl, q⟩
    obtain ⟨T', t1, t2⟩ := hS.encodeMultiflip_eq he
    obtain rfl : T' = T := t1.unique hS.comp he.1 hm
    obtain ⟨m', ms, a1, a2, a3, -⟩ := C29_multiflip_is_its_flips Int S hS es he es.reverse (List.reverse_perm es).symm
    rw [t2] at a1
    injection a1 with a1
    subst a1
    obtain ⟨f1, f2⟩ := flips_of_oneByOne hS a2
    have a3' : T' = endOf S ms := a3
    rw [← a3'] at f1
    have hms : ms ≠ [] := by
      rintro rfl
      cases hr : es.reverse with
      | nil => exact hes (by simpa using hr)
      | cons e l =>
        rw [hr] at f1
        obtain ⟨m, ns, -, q, -⟩ := (AllEnc.flips_cons hS).1 f1
        cases q
    have f3 := AllStandFor.encode f1 hms
    rw [← List.map_reverse, List.reverse_reverse] at f3
    have hp : Path S ms T' := AllStandFor.path f1
    have hp' : Path S ms.reverse.reverse T' := by rw [List.reverse_reverse]; exact hp
    have hsm := fun k => Enc.sameMap_trim_trim k k hp'
    refine ⟨_, f3, ?_, rfl, rfl, ?_, ?_, ?_⟩
    · refine Enc.legal_mk _ (Enc.trim_ne_nil (by simpa using hms)) (Enc.path_trim hp') ?_
      intro q
      by_contra hn
      simp [hn] at q
    · intro x hx
      exact f2 x (List.mem_reverse.1 (Enc.mem_trim (Enc.mem_trim hx)))
    · intro R _ _ _ _ L hL ht
      have ht' : L.tri = S := ht
      obtain ⟨m', ms', b1, b2, -, -, -, b3, -⟩ := C29_multiflip_is_its_flips R S hS es he es.reverse (List.reverse_perm es).symm
      rw [t2] at b1
      injection b1 with b1
      subst b1
      rw [a2] at b2
      injection b2 with b2
      subst b2
      obtain ⟨L', c1, -⟩ := h.applyLam_total hL ht
      have c2 := (b3 L L' hL.1 ht').1 c1
      have c3 := (hsm .encoding).lam R L hL.1
      rw [Enc.applyLam_eq, Enc.applyLam_eq, if_pos ht'.symm, if_pos ht'.symm] at c3
      have c4 : performLam (Enc.trim (Enc.trim ms.reverse)).reverse L = performLam ms.reverse.reverse L := c3
      rw [List.reverse_reverse, c2] at c4
      exact c4.trans c1.symm
    · intro x hx ht
      have ht' : x.tri = S := ht
      obtain ⟨m', ms', b1, b2, -, -, -, -, b3⟩ := C29_multiflip_is_its_flips Int S hS es he es.reverse (List.reverse_perm es).symm
      rw [t2] at b1
      injection b1 with b1
      subst b1
      rw [a2] at b2
      injection b2 with b2
      subst b2
      obtain ⟨x', c1, c2⟩ := b3 x hx ht'
      have c3 := (hsm .encoding).hom x hx
      rw [Enc.applyHom_eq, Enc.applyHom_eq, if_pos ht'.symm, if_pos ht'.symm] at c3
      have c4 : performHom (Enc.trim (Enc.trim ms.reverse)).reverse x = performHom ms.reverse.reverse x := c3
      rw [List.reverse_reverse, c2] at c4
      exact c4.trans c1.symm

theorem Path.flipped {S T : Triangulation} {ms : List LMove} (h : Path S ms T) (hne : ∀ m ∈ ms, ¬ m.EmptyMultiflip) :
    ∃ ks : List Enc, List.Forall₂ (fun m k => m.flipMapping = .ok k) ms ks ∧ Path S (ks.map (·.performed)).flatten T ∧ (∀ k ∈ ks, k.sequence ≠ [] ∧ ∀ x ∈ k.sequence, x.Elementary) ∧
      (∀ (R : Type) [CommRing R] [LinearOrder R] [IsStrictOrderedRing R] [Halvable R] (L : Lam R), L.Consistent → L.tri = S → Curver.performLam (ks.map (·.performed)).flatten L = Curver.performLam ms L) ∧
      ∀ x : Hom, x.WellFormed → x.tri = S → Curver.performHom (ks.map (·.performed)).flatten x = Curver.performHom ms x := by
  induction h with
  | nil T hT => exact ⟨[], .nil, .nil T hT, by simp, fun R _ _ _ _ L _ _ => rfl, fun x _ _ => rfl⟩
  | cons m ms T h hs ih =>
    obtain ⟨ks, i1, i2, i3, i4, i5⟩ := ih (fun m hm => hne m (List.mem_cons_of_mem _ hm))
    obtain ⟨k, hk⟩ := h.flippedTo (hne m List.mem_cons_self)
    refine ⟨k :: ks, .cons hk.made i1, ?_, ?_, ?_, ?_⟩
    · have hp := hk.legal.path
      rw [hk.source, hk.target] at hp
      rw [List.map_cons, List.flatten_cons]
      exact hp.append i2
    · intro k' hk'
      rcases List.mem_cons.1 hk' with rfl | hk'
      · exact ⟨hk.legal.nonempty, hk.elementary⟩
      · exact i3 k' hk'
    · intro R _ _ _ _ L hL ht
      obtain ⟨L', l1, l2, l3, -⟩ := h.applyLam_total hL ht
      rw [List.map_cons, List.flatten_cons, Curver.performLam_append, hk.lam R L hL ht, l1, py_bind_ok, i4 R L' l3 l2]
      simp only [Curver.performLam, l1, py_bind_ok]
    · intro x hx ht
      have hp : Path m.move.source [m] m.move.target := Path.single h
      obtain ⟨x', l1, l2, l3⟩ := hp.performHom hx ht
      have l1' : m.move.applyHom x = .ok x' := by
        simp only [Curver.performHom] at l1
        cases hq : m.move.applyHom x with
        | error e => rw [hq] at l1; cases l1
        | ok y => rw [hq] at l1; exact l1
      rw [List.map_cons, List.flatten_cons, Curver.performHom_append, hk.hom x hx ht, l1', py_bind_ok, i5 x' l3 l2]
      simp only [Curver.performHom, l1', py_bind_ok]

/-- C101: `h.flip_mapping()` returns a mapping, of the same class, from the same triangulation to the same triangulation, that consists of flips of single edges and isometries only and does what `h` does: it takes every
lamination, whatever its weights, to the same lamination, and every chain to the same chain.  Here `h` has no multiflip of no edges. -/
theorem C101_flip_mapping (h : Enc) (hh : h.Legal) (hne : ∀ m ∈ h.sequence, ¬ m.EmptyMultiflip) :
    ∃ k, h.flipMapping = .ok k ∧ k.Legal ∧ k.kind = h.kind ∧ (∀ m ∈ k.sequence, m.Elementary) ∧ Enc.SameAction k h := by
  obtain ⟨ks, h1, h2, h3, h4, h5⟩ := hh.path.flipped (fun m hm => hne m (List.mem_reverse.1 hm))
  have e1 : h.sequence.mapM LMove.flipMapping = .ok ks.reverse := by
    rw [mapM_ok_iff]
    have := List.forall₂_reverse_iff.2 h1
    unfold Enc.performed at this
    rwa [List.reverse_reverse] at this
  have e2 : (ks.reverse.map (·.sequence)).flatten.reverse = (ks.map (·.performed)).flatten := by
    rw [List.reverse_flatten, List.map_reverse, List.map_reverse, List.reverse_reverse, List.map_map]
    rfl
  have e3 : (ks.reverse.map (·.sequence)).flatten ≠ [] := by
    intro q
    cases ks with
    | nil =>
      have q' := List.forall₂_nil_right_iff.1 h1
      exact hh.nonempty (by simpa [Enc.performed] using q')
    | cons k ks =>
      rw [List.flatten_eq_nil_iff] at q
      exact (h3 k List.mem_cons_self).1 (q k.sequence (List.mem_map_of_mem (by simp)))
  rw [← e2] at h2
  refine ⟨_, by unfold Enc.flipMapping; rw [e1, py_bind_ok]; exact Enc.create_eq _ e3 h2, Enc.legal_mk _ e3 h2 hh.mappingClass, rfl, ?_, ?_⟩
  · intro m hm
    have hm' := Enc.mem_trim hm
    rw [List.mem_flatten] at hm'
    obtain ⟨l, l1, l2⟩ := hm'
    obtain ⟨k, k1, rfl⟩ := List.mem_map.1 l1
    exact (h3 k (List.mem_reverse.1 k1)).2 m l2
  have hsm := Enc.sameMap_trim h.kind h.kind h2
  refine ⟨rfl, rfl, ?_, ?_⟩
  · intro R _ _ _ _ L hL
    rw [hsm.lam R L hL.1, Enc.applyLam_eq, Enc.applyLam_eq]
    by_cases ht : h.source = L.tri
    · rw [if_pos ht, if_pos ht]
      show performLam (List.reverse _) L = _
      rw [e2]
      exact h4 R L hL ht.symm
    · rw [if_neg ht, if_neg ht]
  · intro x hx
    rw [hsm.hom x hx, Enc.applyHom_eq, Enc.applyHom_eq]
    by_cases ht : h.source = x.tri
    · rw [if_pos ht, if_pos ht]
      show performHom (List.reverse _) x = _
      rw [e2]
      exact h5 x hx ht.symm
    · rw [if_neg ht, if_neg ht]

/-- C101: `h.flip_mapping()` returns if and only if `h` has no multiflip of no edges: this move is the identity, but `flip_mapping` raises an `AssertionError` (it calls `encode([])`). -/
theorem C101_iff (h : Enc) (hh : h.Legal) : (∃ k, h.flipMapping = .ok k) ↔ ∀ m ∈ h.sequence, ¬ m.EmptyMultiflip := by
  constructor
  · rintro ⟨k, hk⟩ m hm ⟨f, f1, f2⟩
    unfold Enc.flipMapping at hk
    simp only [py_bind_eq_ok] at hk
    obtain ⟨ks, h1, -⟩ := hk
    rw [mapM_ok_iff] at h1
    obtain ⟨k, -, q⟩ : ∃ k ∈ ks, m.flipMapping = .ok k := by
      clear hh
      generalize h.sequence = l at h1 hm
      induction h1 with
      | nil => cases hm
      | cons a b ih =>
        rcases List.mem_cons.1 hm with rfl | hm
        · exact ⟨_, List.mem_cons_self, a⟩
        · obtain ⟨k, k1, k2⟩ := ih hm
          exact ⟨k, List.mem_cons_of_mem _ k1, k2⟩
    unfold LMove.flipMapping at q
    rw [f1] at q
    dsimp only at q
    rw [f2] at q
    cases q
  · intro hne
    obtain ⟨k, hk, -⟩ := C101_flip_mapping h hh hne
    exact ⟨k, hk⟩

/-- C101: whenever `h.flip_mapping()` returns, `h == h.flip_mapping()`, and the two have the same hash. -/
theorem C101_equal (h k : Enc) (hh : h.Legal) (hk : h.flipMapping = .ok k) : h.eq k = .ok true ∧ ∃ key, h.hashKey = .ok key ∧ k.hashKey = .ok key := by
  obtain ⟨k', h1, h2, -, -, h3⟩ := C101_flip_mapping h hh ((C101_iff h hh).1 ⟨k, hk⟩)
  rw [hk] at h1
  injection h1 with h1
  subst h1
  have he : h.eq k = .ok true := by
    obtain ⟨b, b1, b2⟩ := C47_eq h k hh h2
    rw [b1, b2.2]
    refine ⟨h3.source.symm, h3.target.symm, (h3.lam Int _ hh.path.valid_source.asLamination_consistent).symm, ?_⟩
    intro x y z hx hy hz
    rw [h3.hom x hx] at hz
    cases hy.symm.trans hz
    exact .refl _
  exact ⟨he, C47_hash h k hh h2 he⟩

/-! ## Examples -/

/-- flipping two edges of the sphere at once: one move becomes two, and they do the same -/
example : ∃ h k, sphere4.encode [.multiflip [0, 5]] = .ok h ∧ h.flipMapping = .ok k ∧ h.sequence.length = 1 ∧ k.sequence.length = 2 ∧ (∀ m ∈ k.sequence, m.Elementary) ∧ Enc.SameAction k h := by
  have h0 : (do let h ← sphere4.encode [.multiflip [0, 5]]; let k ← h.flipMapping; return (h.sequence.length, k.sequence.length)) = Except.ok (ε := PyErr) (1, 2) := by decide +kernel
  simp only [py_bind_eq_ok] at h0
  obtain ⟨h, a1, k, a2, a3⟩ := h0
  injection a3 with a3
  injection a3 with a3 a4
  have hl : h.Legal := by
    have hd : sphere4.DisjointSupport [0, 5] := by
      rw [sphere4_valid.comp.disjoint_iff (by decide)]
      decide
    obtain ⟨T', t1, t2⟩ := sphere4_valid.encodeMultiflip_eq hd
    have hm := LMove.Legal.multiflip sphere4 [0, 5] _ sphere4_valid t2
    obtain ⟨h', c1, c2, -⟩ := C46_encode sphere4 _ [.multiflip [0, 5]] _ (by simp) (.cons _ _ _ _ [] _ [] sphere4_valid (.multiflip _ _ t2) (.nil _ hm.valid.2.1))
    rw [a1] at c1
    injection c1 with c1
    rwa [c1]
  obtain ⟨k', b1, -, -, b2, b3⟩ := C101_flip_mapping h hl ((C101_iff h hl).1 ⟨k, a2⟩)
  obtain rfl : k = k' := by
    rw [a2] at b1
    injection b1
  exact ⟨h, k, a1, a2, a3, a4, b2, b3⟩

/-- a multiflip of no edges is a legal mapping, and `flip_mapping` raises an error on it -/
example : (do let h ← torus.encode [.multiflip []]; return h.sequence.length) = Except.ok (ε := PyErr) 1 ∧ (do let h ← torus.encode [.multiflip []]; h.flipMapping) = Except.error PyErr.assertionError := by
  constructor
  · decide +kernel
  · rfl

end Curver
