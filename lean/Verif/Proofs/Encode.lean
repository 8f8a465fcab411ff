import Verif.Proofs.LamFlip

namespace Curver
open Triangulation

namespace Triangulation
variable {T T' : Triangulation} {es : List Int}

/-- the square of `e` -/
def sq (T : Triangulation) (e : Int) : Square := ⟨T.nxt e, T.nxt (T.nxt e), T.nxt (inv e), T.nxt (T.nxt (inv e)), e⟩

theorem DisjointSupport.nodup (h : T.DisjointSupport es) (hc : T.Complete) : es.Nodup :=
  (sides_nodup_iff.1 (h.sides_nodup hc)).of_map

/-- the data of a multiflip -/
def mf (T T' : Triangulation) (es : List Int) : MultiFlip := ⟨T, T', es, es.map (fun e => (e, T.sq e))⟩

theorem Complete.multiflip_create (hc : T.Complete) (h : T.DisjointSupport es) :
    MultiFlip.create T T' es = .ok (mf T T' es) := by
  have hn := h.nodup hc
  unfold MultiFlip.create
  rw [hn.dedup]
  dsimp only
  rw [mapM_ok (g := fun e => (e, T.sq e))]
  · simp only [py_bind_ok]
    rw [hc.support_eq h.1, ((hc.disjoint_iff h.1).1 h).dedup]
    simp only [py_bind_ok, List.length_map, length_sides, beq_self_eq_true, pyAssert, if_true, py_pure]
    rw [PyDict.ofList_of_nodup]
    · rfl
    · simpa [List.map_map, Function.comp_def] using hn
  · intro e he
    rw [hc.square_eq (h.flippable he)]; rfl

theorem Complete.edgeflip_create (hc : T.Complete) {e : Int} (h : T.Flippable e) :
    EdgeFlip.create T T' e = .ok ⟨T, T', e, T.sq e⟩ := by
  unfold EdgeFlip.create
  rw [(hc.isFlippable_iff h.1).2 h, hc.square_eq h]
  rfl

theorem Complete.support_error (hc : T.Complete) (h : ∃ e ∈ es, ¬ T.IsLabel e) : T.support es = .error .keyError := by
  unfold support
  rw [mapM_error (err := .keyError)]
  · rfl
  · intro x _
    by_cases hx : T.IsLabel x
    · exact .inl ⟨_, hc.triangle_eq hx⟩
    · exact .inr (hc.triangle_error hx)
  · obtain ⟨e, he, hl⟩ := h
    exact ⟨e, mem_sides.2 (.inl he), hc.triangle_error hl⟩

theorem Complete.multiflipTarget_keyError (hc : T.Complete) (h : ∃ e ∈ es, ¬ T.IsLabel e) :
    T.multiflipTarget es = .error .keyError := by
  unfold multiflipTarget; rw [hc.support_error h]; rfl

theorem Complete.multiflipTarget_assertionError (hc : T.Complete) (h : ∀ e ∈ es, T.IsLabel e)
    (h' : ¬ T.DisjointSupport es) : T.multiflipTarget es = .error .assertionError := by
  unfold multiflipTarget
  rw [hc.support_eq h]
  rw [hc.disjoint_iff h, ← dedup_length_iff, List.length_map, length_sides] at h'
  simp [pyAssert, h']

/-- a linked pair of multiflips -/
theorem Valid.encodeMultiflip_eq (hT : T.Valid) (h : T.DisjointSupport es) : ∃ T', T.IsMultiflip es T' ∧
    T.encodeMultiflip es = .ok ⟨.multiflip (mf T T' es), .multiflip (mf T' T (es.map inv))⟩ := by
  obtain ⟨T', h1, h2⟩ := hT.multiflipTarget_ok h
  refine ⟨T', h2, ?_⟩
  unfold encodeMultiflip
  simp only [(h.nodup hT.comp).dedup, h1, py_bind_ok]
  unfold LMove.multiedgeflip
  rw [hT.comp.multiflip_create h, h2.valid.comp.multiflip_create (h2.disjoint hT h)]
  rfl

theorem Valid.encodeFlip_eq (hT : T.Valid) {e : Int} (h : T.Flippable e) : ∃ T', T.IsMultiflip [e] T' ∧
    T.encodeFlip e = .ok ⟨.flip ⟨T, T', e, T.sq e⟩, .flip ⟨T', T, inv e, T'.sq (inv e)⟩⟩ := by
  have hd := disjoint_singleton.2 h
  obtain ⟨T', h1, h2⟩ := hT.encodeMultiflip_eq hd
  refine ⟨T', h1, ?_⟩
  unfold encodeFlip
  rw [h2]
  simp only [py_bind_ok, LMove.edgeflip, Move.source, Move.target, mf]
  rw [hT.comp.edgeflip_create h, h1.valid.comp.edgeflip_create]
  · rfl
  · have := h1.disjoint hT hd
    exact disjoint_singleton.1 this

theorem Complete.encodeMultiflip_assertionError (hc : T.Complete) (hl : ∀ e ∈ es, T.IsLabel e)
    (hd : ¬ T.DisjointSupport es.dedup) : T.encodeMultiflip es = .error .assertionError := by
  unfold encodeMultiflip
  dsimp only
  rw [hc.multiflipTarget_assertionError (by intro e he; exact hl e (List.mem_dedup.1 he)) hd]; rfl

theorem Complete.encodeMultiflip_keyError (hc : T.Complete) (hl : ∃ e ∈ es, ¬ T.IsLabel e) :
    T.encodeMultiflip es = .error .keyError := by
  unfold encodeMultiflip
  dsimp only
  rw [hc.multiflipTarget_keyError]
  · rfl
  · obtain ⟨e, he, hle⟩ := hl
    exact ⟨e, List.mem_dedup.2 he, hle⟩

end Triangulation

section
variable {R : Type} [CommRing R] [LinearOrder R] [Halvable R]
variable {L L' : Lam R} {T T' : Triangulation} {es : List Int}

theorem foldlM_congr' {α β : Type _} {f g : β → α → Py β} (P : β → Prop) : ∀ {l : List α} {b : β}, P b →
    (∀ x ∈ l, ∀ b, P b → f b x = g b x) → (∀ x ∈ l, ∀ b b', P b → g b x = .ok b' → P b') → l.foldlM f b = l.foldlM g b := by
  intro l
  induction l with
  | nil => intros; rfl
  | cons a l ih =>
    intro b hb h h'
    rw [List.foldlM_cons, List.foldlM_cons, h a (by simp) b hb]
    cases hg : g b a with
    | error e => rfl
    | ok b' => exact ih (h' a (by simp) b b' hb hg) (fun x hx => h x (by simp [hx])) (fun x hx => h' x (by simp [hx]))

theorem multiflip_foldlM (hw : L.WellFormed) (hd : L.tri.DisjointSupport es) :
    es.foldlM (fun geometric edge => do
      let s ← PyDict.get (es.map (fun e => (e, L.tri.sq e))) edge
      flipStep L edge s geometric) L.geometric =
    es.foldlM (fun g e => L.fw e >>= fun w => (Except.ok (g.set (norm e).toNat w) : Py (List R))) L.geometric := by
  apply foldlM_congr' (P := fun g => g.length = L.tri.zeta) hw.2
  · intro e he g hg
    have : PyDict.get (es.map (fun e => (e, L.tri.sq e))) e = .ok (L.tri.sq e) := by
      rw [PyDict.get_eq_ok_iff]
      apply PyDict.get?_of_mem
      · simpa [PyDict.keys, List.map_map, Function.comp_def] using hd.nodup hw.1.comp
      · exact List.mem_map_of_mem (f := fun e => (e, L.tri.sq e)) he
    rw [this]
    exact Lam.flipStep_eq hw.1.comp hw.2 (hd.1 e he) g hg
  · intro e _ g g' hg h
    rw [py_bind_eq_ok] at h
    obtain ⟨w, _, h⟩ := h
    cases h; simpa using hg

theorem mf_applyLam_iff (hw : L.WellFormed) (hd : L.tri.DisjointSupport es) :
    (mf L.tri T' es).applyLam L = .ok L' ↔ L'.tri = T' ∧ Lam.FlipsTo es L L' := by
  rw [Lam.flipsTo_iff hw hd.1]
  unfold MultiFlip.applyLam mf
  rw [multiflip_foldlM hw hd, py_bind_eq_ok]
  have := Lam.flipFold_iff (L.fw) es L.geometric (fun e he => by rw [hw.2]; exact idx_lt (hd.1 e he))
    (sides_nodup_iff.1 (hd.sides_nodup hw.1.comp))
  constructor
  · rintro ⟨g, hg, h⟩
    cases h
    exact ⟨rfl, rfl, (this g).1 hg⟩
  · rintro ⟨h1, h2, h3⟩
    refine ⟨L'.geometric, (this _).2 h3, ?_⟩
    cases L'; simp_all

theorem ef_applyLam_iff (hw : L.WellFormed) {e : Int} (h : L.tri.Flippable e) :
    EdgeFlip.applyLam ⟨L.tri, T', e, L.tri.sq e⟩ L = .ok L' ↔ L'.tri = T' ∧ Lam.FlipsTo [e] L L' := by
  rw [← mf_applyLam_iff hw (disjoint_singleton.2 h)]
  unfold EdgeFlip.applyLam MultiFlip.applyLam mf
  simp only [List.map_cons, List.map_nil, List.foldlM_cons, List.foldlM_nil, PyDict.get, PyDict.get?, if_true, py_bind_ok,
    py_pure]
  cases flipStep L e (L.tri.sq e) L.geometric <;> rfl

end
end Curver
