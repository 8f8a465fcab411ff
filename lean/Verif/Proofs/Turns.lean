import Verif.Proofs.SlideLam
import Verif.Proofs.Sweep
import Verif.Model.Twist
import Verif.Props.Encoding
import Verif.Props.FindIsometry
import Verif.Props.PL

namespace Curver
open Triangulation
namespace Triangulation

/-- a run of turns, with the flips that perform them -/
inductive Turns (T : Triangulation) (a b e : Int) : Int → List Int → Triangulation → (Int → Int) → List LMove → Triangulation → (Int → Int) → Prop
  | nil (d : Int) (S : Triangulation) (F : Int → Int) (hs : Slid T S a b e d F) : Turns T a b e d [] S F [] S F
  | cons (d d' p ε : Int) (rest : List Int) (S S' S'' : Triangulation) (F F' F'' : Int → Int) (ms : List LMove) (hs : Slid T S a b e d F)
      (hld : T.Left a e d) (hld' : T.Left a e (inv d'))
      (hg : T.Glues (hat b e d) p (hat b e (inv d'))) (hf : S.Flippable (F e)) (hm : S.IsMultiflip [F e] S') (ht : Turn F F' b e d d' ε)
      (g1 : S.Glues (F e) a (F b)) (g2 : S.Glues (inv (F e)) (F p) (F (hat b e (inv d')))) (hr : Turns T a b e d' rest S' F' ms S'' F'') :
      Turns T a b e d (d' :: rest) S F (⟨.flip ⟨S, S', F e, S.sq (F e)⟩, .flip ⟨S', S, inv (F e), S'.sq (inv (F e))⟩⟩ :: ms) S'' F''

variable {T S S'' : Triangulation} {a b e d : Int} {D rest : List Int} {F F'' : Int → Int} {ms : List LMove}

theorem Fan.turns (K : Fan T a b e D) : ∀ (rest : List Int) (d : Int) (S : Triangulation) (F : Int → Int), K.At d rest → Slid T S a b e d F →
    ∃ ms S'' F'', Turns T a b e d rest S F ms S'' F''
  | [], d, S, F, _, hs => ⟨_, _, _, .nil d S F hs⟩
  | d' :: rest, d, S, F, hA, hs => by
    have ld := K.left d hA.mem
    have ld' := K.left d' hA.next.mem
    obtain ⟨p, hg⟩ := (List.isChain_cons_cons.1 hA.chain).1
    have hf := hs.flippable K.base ld.1
    obtain ⟨S', hm, _⟩ := hs.valid.encodeFlip_eq hf
    obtain ⟨F', ε, k1, k2, k3, k4⟩ := hs.turn K.base ld.1 ld.2 ld'.1 ld'.2 hg (K.joined d hA.mem) (K.joined d' hA.next.mem) hm
    obtain ⟨ms, S'', F'', hr⟩ := Fan.turns K rest d' S' F' hA.next k1
    exact ⟨_, _, _, .cons d d' p ε rest S S' S'' F F' F'' ms hs ld.1 ld'.2 hg hf hm k2 k3 k4 hr⟩

theorem _root_.Curver.LMove.Legal.encoded {m : LMove} (h : m.Legal) : ∃ f, m.encode = .ok f ∧ f.Legal ∧ f.kind ≠ .encoding ∧ f.sequence = [m] ∧
    f.source = m.move.source ∧ f.target = m.move.target := by
  refine ⟨_, h.encode, ⟨by simp, Path.single h, ?_⟩, ?_, rfl, rfl, rfl⟩
  · dsimp only
    intro hk
    by_contra hne
    rw [if_neg hne] at hk
    cases hk
  · dsimp only; split <;> simp

theorem _root_.Curver.Enc.Legal.applyHom_ok {h : Enc} (hh : h.Legal) {x y : Hom} (hx : x.WellFormed) (ha : h.applyHom x = .ok y) : y.WellFormed ∧ y.tri = h.target := by
  rw [Enc.applyHom_eq] at ha
  split at ha
  · rename_i ht
    obtain ⟨y', k1, k2, k3⟩ := hh.path.performHom hx ht.symm
    cases ha.symm.trans k1
    exact ⟨k3, k2⟩
  · cases ha

namespace Turns

theorem slid (h : Turns T a b e d rest S F ms S'' F'') : Slid T S a b e d F := by
  cases h <;> assumption

theorem last (h : Turns T a b e d rest S F ms S'' F'') : Slid T S'' a b e ((d :: rest).getLast (by simp)) F'' := by
  induction h with
  | nil d S F hs => exact hs
  | cons d d' p ε rest S S' S'' F F' F'' ms hs _ _ hg hf hm ht g1 g2 hr ih => simpa using ih

theorem legal {S S' : Triangulation} {x : Int} (hS : S.Valid) (hf : S.Flippable x) (hm : S.IsMultiflip [x] S') :
    S.encodeFlip x = .ok ⟨.flip ⟨S, S', x, S.sq x⟩, .flip ⟨S', S, inv x, S'.sq (inv x)⟩⟩ ∧
    LMove.Legal ⟨.flip ⟨S, S', x, S.sq x⟩, .flip ⟨S', S, inv x, S'.sq (inv x)⟩⟩ := by
  have h1 := hS.encodeFlip_ok_iff.2 ⟨S', hf, hm, rfl⟩
  exact ⟨h1, .flip S x _ hS h1⟩

theorem path (h : Turns T a b e d rest S F ms S'' F'') : Path S ms S'' := by
  induction h with
  | nil d S F hs => exact .nil S hs.valid
  | cons d d' p ε rest S S' S'' F F' F'' ms hs _ _ hg hf hm ht g1 g2 hr ih => exact .cons _ ms S'' (legal hs.valid hf hm).2 ih

theorem flips (h : Turns T a b e d rest S F ms S'' F'') : ∀ {h0 : Enc}, h0.Legal → h0.target = S → h0.kind ≠ .encoding → ∃ h1, Twist.flips a rest.length h0 = .ok h1 ∧ h1.Legal ∧
    h1.kind ≠ .encoding ∧ h1.source = h0.source ∧ h1.target = S'' ∧
    (∀ (R : Type) [CommRing R] [LinearOrder R] [IsStrictOrderedRing R] [Halvable R] (L : Lam R), L.WellFormed → h1.applyLam L = (h0.applyLam L >>= performLam ms)) ∧
    ∀ x : Hom, x.WellFormed → h1.applyHom x = (h0.applyHom x >>= performHom ms) := by
  induction h with
  | nil d S F hs =>
    intro h0 hl ht hk
    refine ⟨h0, rfl, hl, hk, rfl, ht, ?_, ?_⟩
    · intro R _ _ _ _ L hL
      cases h0.applyLam L <;> rfl
    · intro x hx
      cases h0.applyHom x <;> rfl
  | cons d d' p ε rest S S' S'' F F' F'' ms hs _ _ hg hf hm ht g1 g2 hr ih =>
    intro h0 hl htt hk
    obtain ⟨l1, l2⟩ := legal hs.valid hf hm
    have hc : S.corner a = .ok ⟨a, F b, F e⟩ := hs.valid.comp.corner_ok_iff.2 ⟨rfl, g1.rot⟩
    obtain ⟨f, hf1, fl, hf2, hf3, fs, ft⟩ := l2.encoded
    replace fs : f.source = S := fs
    replace ft : f.target = S' := ft
    obtain ⟨k, k1, k2, k3⟩ := C14_composition f h0 fl hl (fs.trans htt.symm)
    have kk : k.kind ≠ .encoding := by
      intro h
      rcases (C14_class f h0 k fl hl k1).1.1 h with h | h
      · exact hf2 h
      · exact hk h
    obtain ⟨h1, j1, j2, j3, j4, j5, j6, j7⟩ := ih k2 (k3.target.trans ft) kk
    refine ⟨h1, ?_, j2, j3, j4.trans k3.source, j5, ?_, ?_⟩
    · rw [List.length_cons, Twist.flips, htt, hc]
      simp only [py_bind_ok, l1, hf1, k1]
      exact j1
    · intro R _ _ _ _ L hL
      rw [j6 R L hL, k3.lam R L hL]
      cases hx : h0.applyLam L with
      | error x => rfl
      | ok L' =>
        simp only [py_bind_ok]
        have : L'.tri = S := (hl.undo hL hx).2.1.trans htt
        rw [Enc.applyLam_eq, fs, this, if_pos rfl]
        simp only [Enc.performed, hf3, List.reverse_singleton, performLam]
        cases (Move.flip ⟨S, S', F e, S.sq (F e)⟩).applyLam L' <;> rfl
    · intro x hx
      rw [j7 x hx, k3.hom x hx]
      cases hy : h0.applyHom x with
      | error x => rfl
      | ok y =>
        simp only [py_bind_ok]
        have : y.tri = S := (hl.applyHom_ok hx hy).2.trans htt
        rw [Enc.applyHom_eq, fs, this, if_pos rfl]
        simp only [Enc.performed, hf3, List.reverse_singleton, performHom]
        cases (Move.flip ⟨S, S', F e, S.sq (F e)⟩).applyHom y <;> rfl

end Turns

section
variable {R : Type} [CommRing R] [LinearOrder R] [IsStrictOrderedRing R] [Halvable R]

open Classical in
/-- the weights, as weights of the edges of `T` -/
noncomputable def pull (T : Triangulation) (F : Int → Int) (L : Lam R) (x : Int) : R := if T.IsLabel x then L.w (F x) else 0

theorem pull_eq {L : Lam R} {x : Int} (hx : T.IsLabel x) : T.pull F L x = L.w (F x) := if_pos hx

theorem Turns.run (B : Base T a b e) (h : Turns T a b e d rest S F ms S'' F'') : ∀ {L L' : Lam R}, L.Consistent → L.Taut → L.tri = S → performLam ms L = .ok L' →
    WRun T a b e d rest (T.pull F L) (T.pull F'' L') := by
  induction h with
  | nil d S F hs =>
    intro L L' _ _ _ ha
    cases ha
    exact .nil d _
  | cons d d' p ε rest S S' S'' F F' F'' ms hs ld ld' hg hf hm ht g1 g2 hr ih =>
    intro L L'' hL hT htr ha
    obtain ⟨l1, l2⟩ := Turns.legal hs.valid hf hm
    simp only [performLam, py_bind_eq_ok] at ha
    obtain ⟨L', a1, a2⟩ := ha
    obtain ⟨K, k1, k2, k3, k4⟩ := l2.applyLam_total hL htr
    obtain rfl : L' = K := by rw [k1] at a1; injection a1 with a1; exact a1.symm
    have hT' := l2.taut hL.1 hT htr a1
    refine .cons d d' p rest _ _ _ ?_ (ih k3 hT' k2 a2)
    subst htr
    obtain ⟨_, hF⟩ := (ef_applyLam_iff hL.1 hf).1 a1
    have hl := B.labels
    have hn := B.nes
    have nd := B.hat_ne ld
    have nq := B.hat_ne ld'
    have lhd := B.hat_label ld
    have lhq := B.hat_label ld'
    have lp := (B.comp.label_of_glues hg).2.1
    have hc := hs.valid.comp
    have hS := hs.valid.comp
    have eps : L'.w ε = L'.w (F e) := by rcases ht.eps with h | h <;> rw [h]; exact L'.w_inv _
    have kept : ∀ x, T.IsLabel x → x ≠ e → x ≠ hat b e d → L'.w (F x) = L.w (F x) := by
      intro x hx h1 h2
      refine hF.kept _ (hs.maps x hx) ?_
      intro f hf'
      rw [List.mem_singleton.1 hf']
      refine ⟨fun h => h1 (hs.inj _ _ hx hl.2.2 h), fun h => h2 (hs.inj _ _ hx lhd ?_)⟩
      rw [h, hs.fe]; simp
    refine ⟨hg, ?_, ?_, ?_, ?_, ?_, ?_⟩
    · rw [pull_eq hl.2.2, pull_eq lhd, hs.fe, Lam.w_inv]
    · rw [pull_eq hl.2.1, pull_eq hl.2.1, pull_eq hl.1, pull_eq lp, pull_eq lhq, pull_eq hl.2.2, ht.at_b, eps, hs.fa]
      exact hT.flipWeight g1 g2 (hF.new (F e) (by simp) _ _ _ _ g1 g2)
    · rw [pull_eq lhq, pull_eq hl.2.1, ht.at_q, ht.at_b, Lam.w_inv]
    · rw [pull_eq hl.2.2, pull_eq lhq, ht.at_e]
      exact kept _ lhq nq.2.2 (fun h => by
        have := B.comp.glues_ne hg
        exact this.2.2 h)
    · rw [pull_eq lhd, pull_eq hl.2.1, ht.at_d]
      exact kept _ hl.2.1 hn.2.1 (fun h => nd.2.1 h.symm)
    · intro x h1 h2 h3 h4
      by_cases hx : T.IsLabel x
      · rw [pull_eq hx, pull_eq hx, ht.other x h1 h2 h3 h4]
        exact kept x hx h2 h3
      · unfold pull; rw [if_neg hx, if_neg hx]

end
end Triangulation
end Curver
