import Verif.Proofs.FlipGraph
import Verif.Props.Filling

/-!
# C94: the flip graph and `explore_ball`
-/

namespace Curver
open Triangulation

/-- C94: triangulations, seen as multiarcs, are neighbours in the flip graph exactly when a flip relates them: the neighbours of the edges of a triangulation `T` are the multiarcs which the
flip of an edge of `T` takes to the edges of the new triangulation. -/
theorem C94_flips (T : Triangulation) (hT : T.Valid) (Z : Lam Int) (hZ : Z.Consistent) (ht : Z.tri = T) :
    T.asLamination.FlipOf Z ↔ ∃ e m K, 0 ≤ e ∧ T.encodeFlip e = .ok m ∧ m.move.applyLam Z = .ok K ∧ K.eqv m.move.target.asLamination = true := by
  rw [Lam.flipOf_edges hT hZ ht]
  simp only [Lam.eqv_same]

/-- C94: mappings take neighbours to neighbours. -/
theorem C94_mapping (g : Enc) (hg : g.Legal) (Y Z Y' Z' : Lam Int) (h : Y.FlipOf Z) (hY : g.applyLam Y = .ok Y') (hZ : g.applyLam Z = .ok Z') : Y'.FlipOf Z' := h.enc hg hY hZ

/-- C94: `all_encodings(n)` reaches exactly the triangulations that are at most `n` steps away. -/
theorem C94_all_encodings (n : Nat) (T : Triangulation) (hT : T.Valid) (gs : List Enc) (h : allEncodings n T = .ok gs) (Z : Lam Int) (hZ : Z.Consistent) (ht : Z.tri = T) :
    T.asLamination.WithinFlips n Z ↔ ∃ E ∈ gs, ∃ K, E.applyLam Z = .ok K ∧ K.eqv E.target.asLamination = true := by
  simp only [Lam.eqv_same]
  exact Lam.within_iff_encodings n hT h hZ ht

namespace Lam
variable {P : Lam Int → Py LamClass} {dflt : Int → Int → Bool} {fuel : Nat} {L : Lam Int}

/-- the parts of `explore_ball` -/
theorem exploreBall_ok {radius : Nat} {r : List (Lam Int)} (h : L.exploreBall P dflt fuel radius = .ok r) : L.isFilling P dflt fuel = .ok true ∧
    ∃ s g gs, L.shortenAll P dflt fuel dflt = .ok (s, g) ∧ s.tri.allEncodings radius = .ok gs ∧ gs.foldlM (fun triangulations encoding => do
      let T := encoding.target.asLamination
      let ci ← g.inverse
      let ei ← encoding.inverse
      let A ← ei.applyLam T
      let B ← ci.applyLam A
      return addTo triangulations B) [] = .ok r := by
  unfold exploreBall at h
  rw [py_bind_eq_ok] at h
  obtain ⟨b, h1, h2⟩ := h
  cases b with
  | false => cases h2
  | true =>
    simp only [if_true, py_bind_eq_ok] at h2
    obtain ⟨⟨s, g⟩, a1, gs, a2, a3⟩ := h2
    exact ⟨h1, s, g, gs, a1, a2, a3⟩

end Lam

section
variable (P : Lam Int → Py LamClass) (dflt : Int → Int → Bool) (fuel : Nat) (L : Lam Int) (hL : L.Consistent)
include hL

/-- C94: `L.explore_ball(radius)` is the ball of that radius around one and the same triangulation `Y`, for every radius; `Y` contains all the arcs of `L`, if `L` consists of arcs; and no triangulation is
listed twice. -/
theorem C94_ball (n : Nat) (r0 : List (Lam Int)) (h0 : L.exploreBall P dflt fuel n = .ok r0) :
    ∃ Y : Lam Int, Y.Consistent ∧ Y.tri = L.tri ∧ Y.IsTriangulation ∧ (L.OnlyHasArcs → ∀ X, L.HasPart X → Y.HasPart X) ∧
      ∀ radius r, L.exploreBall P dflt fuel radius = .ok r → r.Pairwise (fun A B => A.eqv B = false) ∧ ∀ Z : Lam Int, (∃ K ∈ r, K.eqv Z = true) ↔ Y.WithinFlips radius Z := by
  obtain ⟨-, s, g, gs, a1, a2, a3⟩ := Lam.exploreBall_ok h0
  obtain ⟨Y, y0, y1, y2, y3, y4, -, -⟩ := Lam.explore_spec hL a1 n a2 a3
  refine ⟨Y, y1, y2, y3, y4, ?_⟩
  intro radius r h
  obtain ⟨-, s', g', gs', b1, b2, b3⟩ := Lam.exploreBall_ok h
  rw [a1] at b1
  injection b1 with b1
  obtain ⟨rfl, rfl⟩ := Prod.mk.inj b1
  obtain ⟨Y', z0, -, -, -, -, z5, z6⟩ := Lam.explore_spec hL a1 radius b2 b3
  rw [y0] at z0
  injection z0 with z0
  subst z0
  exact ⟨z5, z6⟩

/-- C94: every multiarc that `explore_ball` returns is a triangulation; there is one at least, and larger balls contain the smaller ones. -/
theorem C94_triangulations (n : Nat) (r : List (Lam Int)) (h : L.exploreBall P dflt fuel n = .ok r) : (∀ K ∈ r, K.Consistent ∧ K.tri = L.tri ∧ K.IsTriangulation) ∧ r ≠ [] ∧
    ∀ m r', n ≤ m → L.exploreBall P dflt fuel m = .ok r' → ∀ K ∈ r, ∃ K' ∈ r', K'.eqv K = true := by
  obtain ⟨Y, y1, y2, y3, -, y5⟩ := C94_ball P dflt fuel L hL n r h
  have b := (y5 n r h).2
  refine ⟨fun K hK => ?_, ?_, ?_⟩
  · have w := (b K).1 ⟨K, hK, Lam.eqv_same.2 .refl⟩
    exact ⟨w.consistent y1, w.tri.trans y2, w.triangulation y3⟩
  · rintro rfl
    obtain ⟨K, hK, -⟩ := (b Y).2 (.here (Lam.eqv_same.2 .refl))
    cases hK
  · intro m r' hm h' K hK
    have w := (b K).1 ⟨K, hK, Lam.eqv_same.2 .refl⟩
    exact ((y5 m r' h').2 K).2 (w.mono hm)

/-- C94: without acceleration, `explore_ball` returns if `is_filling` says so, and raises an error otherwise. -/
theorem C94_returns (hd : ∀ w w', dflt w w' = false) (hP : ∀ K, ∃ c, P K = .ok c) (hc : L.Describes L.cls) (radius : Nat) : ∃ b, Returns (fun n => L.isFilling P dflt n) b ∧
    (b = true → ∃ r, Returns (fun n => L.exploreBall P dflt n radius) r) ∧ (b = false → ∃ N, ∀ n, N ≤ n → L.exploreBall P dflt n radius = .error .assertionError) := by
  obtain ⟨b, N1, h1⟩ := C81_returns P dflt hd hP L hL hc
  refine ⟨b, ⟨N1, h1⟩, ?_, ?_⟩
  · rintro rfl
    dsimp only at h1
    obtain ⟨⟨s, g⟩, N2, h2⟩ := Lam.shorten_returns (P := P) (dflt := dflt) hL hd
    obtain ⟨l, l1, l2, cs, K, k1, cK, k2, k3⟩ := Lam.shorten_same hL (h2 N2 le_rfl)
    obtain ⟨gs, e1, -, -⟩ := AllEnc.allEncodings_spec radius cs.1.1
    have leg := (C77_legal radius s.tri cs.1.1 gs e1).1
    obtain ⟨r, hr⟩ := foldlM_total (l := gs) (f := fun (triangulations : List (Lam Int)) (encoding : Enc) => do
      let T := encoding.target.asLamination
      let ci ← g.inverse
      let ei ← encoding.inverse
      let A ← ei.applyLam T
      let B ← ci.applyLam A
      return Lam.addTo triangulations B) (by
        intro s' E hE
        obtain ⟨lE, lEs⟩ := leg E hE
        have cE := lE.path.valid_target.asLamination_consistent
        obtain ⟨⟨A, a1, a2⟩, a3⟩ := lE.inv'.applyLam_total ⟨E.target.asLamination, cE, rfl⟩
        obtain ⟨⟨B, b1, b2⟩, b3⟩ := l.inv'.applyLam_total ⟨A, a1, by rw [(lE.undo' cE.1 a3).2.1, lEs]; exact l2.symm⟩
        refine ⟨Lam.addTo s' B, ?_⟩
        dsimp only
        rw [Enc.inverse_eq l, Enc.inverse_eq lE]
        show (E.inv'.applyLam E.target.asLamination >>= fun A => g.inv'.applyLam A >>= fun B => _) = _
        rw [a3, py_bind_ok, b3, py_bind_ok]; rfl) []
    refine ⟨r, max N1 N2, fun n hn => ?_⟩
    show L.exploreBall P dflt n radius = _
    unfold Lam.exploreBall
    rw [h1 n (by omega), py_bind_ok, if_pos rfl, h2 n (by omega), py_bind_ok]
    dsimp only
    rw [e1, py_bind_ok]
    exact hr
  · rintro rfl
    dsimp only at h1
    refine ⟨N1, fun n hn => ?_⟩
    unfold Lam.exploreBall
    rw [h1 n hn, py_bind_ok]; rfl

end

/-- C94 on the torus: one triangulation within radius 0, four within radius 1 and ten within radius 2 -/
example : ([0, 1, 2].map (fun n => (torus.asLamination.exploreBall anyClass neverSlow 20 n).toOption.map List.length)) = [some 1, some 4, some 10] := by decide +kernel

end Curver
