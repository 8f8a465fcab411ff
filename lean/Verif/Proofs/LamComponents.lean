import Verif.Proofs.UnionComp
import Verif.Spec.LamComponents

/-!
# The dictionary of components is determined by the lamination
-/

namespace Curver
open Triangulation
namespace Lam
variable {L L' : Lam Int} {cs ds : List (Lam Int × Int)}

theorem mem_flat {p : Lam Int × Int} (hp : p ∈ cs) (h0 : 0 < p.2) : p.1 ∈ flat cs :=
  List.mem_flatMap.2 ⟨p, hp, by rw [List.mem_replicate]; exact ⟨by omega, rfl⟩⟩

theorem IsComponents.sub (h : L.IsComponents cs) (hL : L.Consistent) {p : Lam Int × Int} (hp : p ∈ cs) : p.1.Consistent ∧ p.1.tri = L.tri :=
  h.union.consistent hL _ (mem_flat hp (h.mult p hp))

theorem IsComponents.prime (h : L.IsComponents cs) (hL : L.Consistent) {p : Lam Int × Int} (hp : p ∈ cs) : p.1.Prime :=
  ⟨(h.sub hL hp).1, h.connected p hp, h.cls p hp⟩

theorem IsComponents.nodup (h : L.IsComponents cs) (hL : L.Consistent) : (keys cs).Nodup := by
  refine pairwise_keys.1 (h.apart.imp_of_mem ?_)
  intro p q hp hq hpq e
  have : p.1.eqv q.1 = true := eqv_spec.2 ⟨by rw [(h.sub hL hp).2, (h.sub hL hq).2], e⟩
  rw [hpq] at this
  cases this

theorem isComponents_of (h1 : L.Unions (flat cs)) (h2 : ∀ p ∈ cs, p.1.Prime ∧ p.1.tri = L.tri ∧ 0 < p.2) (h3 : (keys cs).Nodup) : L.IsComponents cs :=
  ⟨h1, fun p hp => (h2 p hp).1.2.1, fun p hp => (h2 p hp).2.2, (pairwise_keys.2 h3).imp (fun h => not_eqv h), fun p hp => (h2 p hp).1.2.2⟩

/-- the components, as a finite set -/
theorem IsComponents.unique (h : L.IsComponents cs) (h' : L.IsComponents ds) (hL : L.Consistent) : cs.Perm ds := by
  have key : ∀ {cs ds : List (Lam Int × Int)}, L.IsComponents cs → L.IsComponents ds → ∀ p ∈ cs, p ∈ ds := by
    intro cs ds h h' p hp
    have hcF : ∀ {cs : List (Lam Int × Int)}, L.IsComponents cs → ∀ X ∈ flat cs, X.Connected := by
      intro cs h X hX
      obtain ⟨q, hq, e⟩ := List.mem_flatMap.1 hX
      rw [List.eq_of_mem_replicate e]
      exact h.connected q hq
    have hu := h.union.unique hL h'.union (hcF h) (hcF h')
    have c1 := (count_flat (h.nodup hL) p.1.geometric).1 p hp rfl
    have e := hu.count_eq p.1.geometric
    have h0 := h.mult p hp
    by_cases q : p.1.geometric ∈ keys ds
    · obtain ⟨r, hr, e'⟩ := List.mem_map.1 q
      have c2 := (count_flat (h'.nodup hL) p.1.geometric).1 r hr e'
      have e2 : ((flat cs).map Lam.geometric).count p.1.geometric = ((flat ds).map Lam.geometric).count p.1.geometric := e
      have h0' := h'.mult r hr
      have : p = r := by
        have t := (h.sub hL hp).2.trans (h'.sub hL hr).2.symm
        have cl : p.1.cls = r.1.cls := by
          rcases h.cls p hp with ⟨a, b⟩ | ⟨a, b⟩ <;> rcases h'.cls r hr with ⟨c, d⟩ | ⟨c, d⟩
          · rw [a, c]
          · exact absurd (b.cls_irrel t.symm e') d
          · exact absurd (d.cls_irrel t e'.symm) b
          · rw [a, c]
        obtain ⟨⟨t1, g1, k1⟩, m1⟩ := p
        obtain ⟨⟨t2, g2, k2⟩, m2⟩ := r
        dsimp only at *
        subst t e' cl
        congr 1
        omega
      rw [this]; exact hr
    · have c2 := (count_flat (h'.nodup hL) p.1.geometric).2 q
      have e2 : ((flat cs).map Lam.geometric).count p.1.geometric = ((flat ds).map Lam.geometric).count p.1.geometric := e
      omega
  have nd : ∀ {cs : List (Lam Int × Int)}, L.IsComponents cs → cs.Nodup := fun h => List.Nodup.of_map _ (h.nodup hL)
  exact (List.perm_ext_iff_of_nodup (nd h) (nd h')).2 (fun p => ⟨key h h' p, key h' h p⟩)

/-- a mapping applied to the components -/
def mapComponents (h : Enc) (cs : List (Lam Int × Int)) : Py (List (Lam Int × Int)) := cs.mapM (fun p => do
  let c ← h.applyLam p.1
  return (c, p.2))

theorem mapM_replicate {h : Enc} {X Y : Lam Int} (hX : h.applyLam X = .ok Y) : ∀ n : Nat, (List.replicate n X).mapM h.applyLam = .ok (List.replicate n Y)
  | 0 => rfl
  | n + 1 => by
    rw [List.replicate_succ, List.mapM_cons, hX, py_bind_ok, mapM_replicate hX n]; rfl

theorem mapM_append {α β : Type} {f : α → Py β} {l l' : List α} {m m' : List β} (h : l.mapM f = .ok m) (h' : l'.mapM f = .ok m') : (l ++ l').mapM f = .ok (m ++ m') := by
  rw [List.mapM_append, h, py_bind_ok, h']; rfl

theorem mapComponents_flat {h : Enc} : ∀ {cs ds : List (Lam Int × Int)}, mapComponents h cs = .ok ds → (flat cs).mapM h.applyLam = .ok (flat ds)
  | [], ds, hm => by cases hm; rfl
  | p :: cs, ds, hm => by
    unfold mapComponents at hm
    rw [List.mapM_cons] at hm
    simp only [py_bind_eq_ok] at hm
    obtain ⟨q, ⟨c, c1, c2⟩, ds', d1, d2⟩ := hm
    cases c2
    cases d2
    have := mapComponents_flat d1
    exact mapM_append (mapM_replicate c1 p.2.toNat) this

theorem mapComponents_ok {h : Enc} : ∀ {cs : List (Lam Int × Int)}, (∀ p ∈ cs, ∃ c, h.applyLam p.1 = .ok c) → ∃ ds, mapComponents h cs = .ok ds
  | [], _ => ⟨[], rfl⟩
  | p :: cs, hm => by
    obtain ⟨c, hc⟩ := hm p (by simp)
    obtain ⟨ds, hd⟩ := mapComponents_ok (fun q hq => hm q (List.mem_cons_of_mem _ hq))
    refine ⟨(c, p.2) :: ds, ?_⟩
    unfold mapComponents at hd ⊢
    rw [List.mapM_cons, hd, hc]
    rfl

theorem IsComponents.enc (hc : L.IsComponents cs) (hL : L.Consistent) {h : Enc} (hh : h.Legal) (ha : h.applyLam L = .ok L') : ∃ ds, mapComponents h cs = .ok ds ∧ L'.IsComponents ds := by
  have hs := Enc.applyLam_source ha
  have tot : ∀ p ∈ cs, ∃ c, h.applyLam p.1 = .ok c := by
    intro p hp
    have := hc.sub hL hp
    obtain ⟨K, hK⟩ := hh.applyLam_total ⟨p.1, this.1, this.2.trans hs.symm⟩
    exact ⟨K.1, hK⟩
  obtain ⟨ds, hd⟩ := mapComponents_ok tot
  refine ⟨ds, hd, ?_⟩
  have hL' := hL.enc hh ha
  have uL := hh.undo hL.1 ha
  obtain ⟨Ys, y1, y2⟩ := hc.union.enc hL hh ha
  have y1' : (flat cs).mapM h.applyLam = .ok Ys := y1
  rw [mapComponents_flat hd] at y1'
  cases y1'
  have back : ∀ q ∈ ds, ∃ p ∈ cs, h.applyLam p.1 = .ok q.1 ∧ q.2 = p.2 := by
    intro q hq
    obtain ⟨p, hp, hm⟩ := mapM_mem_right hd hq
    rw [py_bind_eq_ok] at hm
    obtain ⟨c, c1, c2⟩ := hm
    cases c2
    exact ⟨p, hp, c1, rfl⟩
  refine isComponents_of y2 ?_ ?_
  · intro q hq
    obtain ⟨p, hp, h1, h2⟩ := back q hq
    have pr := hc.prime hL hp
    exact ⟨pr.enc hh h1, by rw [(hh.undo pr.1.1 h1).2.1, uL.2.1], by rw [h2]; exact hc.mult p hp⟩
  · have hn := hc.nodup hL
    have hw : ∀ p ∈ cs, p.1.WellFormed := fun p hp => (hc.sub hL hp).1.1
    clear hc y1 y2 tot back
    induction cs generalizing ds with
    | nil => cases hd; exact .nil
    | cons p cs ih =>
      unfold mapComponents at hd
      rw [List.mapM_cons] at hd
      simp only [py_bind_eq_ok] at hd
      obtain ⟨q, ⟨c, c1, c2⟩, ds', d1, d2⟩ := hd
      cases c2
      cases d2
      have hn' : p.1.geometric ∉ keys cs ∧ (keys cs).Nodup := List.nodup_cons.1 hn
      refine List.nodup_cons.2 ⟨?_, ih ds' d1 hn'.2 (fun r hr => hw r (by simp [hr]))⟩
      intro hm
      obtain ⟨r, hr, e⟩ := List.mem_map.1 hm
      obtain ⟨u, hu, hm'⟩ := mapM_mem_right d1 hr
      rw [py_bind_eq_ok] at hm'
      obtain ⟨c', c3, c4⟩ := hm'
      cases c4
      have := (same_enc hh (hw u (by simp [hu])) (hw p (by simp)) c3 c1).2 e
      exact hn'.1 (List.mem_map.2 ⟨u, hu, this⟩)

/-- a connected lamination -/
theorem isComponents_self (hL : L.Consistent) (h1 : L.Connected) (h2 : (L.cls = .curve ∧ L.NoArcs) ∨ (L.cls = .arc ∧ ¬ L.NoArcs)) : L.IsComponents [(L, 1)] := by
  have hb : ∃ N, L.IsUnion L N ∧ N.Blank := by
    have hc : L.Colouring (fun _ _ => true) := ⟨fun _ _ _ _ => rfl, fun _ _ _ _ _ _ _ _ => rfl⟩
    obtain ⟨N, hN, -⟩ := hc.exists_part hL.1 false .integral
    refine ⟨N, ⟨_, hc, ⟨hL.1, rfl, ?_⟩, hN⟩, ?_⟩
    · intro x hx
      rw [count_all.2 (fun _ _ => rfl)]
      exact (Int.sign_mul_natAbs _).symm
    · exact hN.blank_iff.2 (fun _ _ _ _ => rfl)
  obtain ⟨N, n1, n2⟩ := hb
  refine ⟨.cons n1 (.nil n2), ?_, ?_, by simp, ?_⟩
  · intro p hp; rw [List.mem_singleton.1 hp]; exact h1
  · intro p hp; rw [List.mem_singleton.1 hp]; exact Int.zero_lt_one
  · intro p hp; rw [List.mem_singleton.1 hp]; exact h2

theorem componentsAll_spec {P : Lam Int → Py LamClass} {dflt : Int → Int → Bool} {fuel : Nat} (hL : L.Consistent) (hc : L.ClassRight)
    (h : L.componentsAll P dflt fuel = .ok cs) : L.IsComponents cs := by
  have main : L.componentsMain (shortenAll P dflt fuel dflt) = .ok cs → L.IsComponents cs := by
    intro h
    obtain ⟨h1, h2, h3⟩ := componentsMain_spec hL (fun s g hs => ⟨(shortenAll_spec hL.1 hs).1, shortenAll_stripped hL.1 hs⟩) h
    exact isComponents_of h1 h2 h3
  unfold componentsAll componentsWith at h
  split at h
  · next e => cases h; exact isComponents_self hL (hc.1 e).1 (.inl ⟨e, (hc.1 e).2⟩)
  · next e => cases h; exact isComponents_self hL (hc.2 e).1 (.inr ⟨e, (hc.2 e).2⟩)
  · exact main h

end Lam
end Curver
