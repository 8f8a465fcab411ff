import Verif.Spec.UnionFind
import Verif.Proofs.PyLemmas

namespace Curver
namespace UnionFind
variable {κ : Type _} [DecidableEq κ]

/-- `r` is reached from `x` by following parents until a fixed point -/
inductive Root (par : PyDict κ κ) : κ → κ → Prop
  | base {x} : par.get? x = some x → Root par x x
  | step {x p r} : par.get? x = some p → p ≠ x → Root par p r → Root par x r

/-- the parent pointers form a forest -/
def Inv (par : PyDict κ κ) : Prop :=
  par.keys.Nodup ∧ ∃ d : κ → Nat, ∀ x p, par.get? x = some p → p ∈ par.keys ∧ (p ≠ x → d p < d x)

theorem Root.fix {par : PyDict κ κ} {x r : κ} (h : Root par x r) : par.get? r = some r := by
  induction h with
  | base h => exact h
  | step _ _ _ ih => exact ih

theorem Root.unique {par : PyDict κ κ} {x r r' : κ} (h : Root par x r) (h' : Root par x r') : r = r' := by
  induction h with
  | base h =>
    cases h' with
    | base _ => rfl
    | step h1 h2 _ => rw [h] at h1; cases h1; exact absurd rfl h2
  | step h1 h2 _ ih =>
    cases h' with
    | base h3 => rw [h3] at h1; cases h1; exact absurd rfl h2
    | step h3 h4 h5 => rw [h1] at h3; cases h3; exact ih h5

theorem mem_keys_of_get? {par : PyDict κ κ} {x p : κ} (h : par.get? x = some p) : x ∈ par.keys := by
  rw [← PyDict.get?_isSome_iff, h]; rfl

theorem Root.mem {par : PyDict κ κ} {x r : κ} (h : Root par x r) : x ∈ par.keys := by
  cases h with
  | base h => exact mem_keys_of_get? h
  | step h _ _ => exact mem_keys_of_get? h

theorem get?_some_of_mem {par : PyDict κ κ} {x : κ} (h : x ∈ par.keys) : ∃ p, par.get? x = some p :=
  Option.isSome_iff_exists.1 (PyDict.get?_isSome_iff.2 h)

theorem Root.measure {par : PyDict κ κ} {d : κ → Nat}
    (hd : ∀ x p, par.get? x = some p → p ∈ par.keys ∧ (p ≠ x → d p < d x)) {x r : κ} (h : Root par x r) :
    x ≠ r → d r < d x := by
  induction h with
  | base _ => intro h; exact absurd rfl h
  | step h1 h2 h3 ih =>
    next x p r =>
    intro _
    have := (hd x p h1).2 h2
    by_cases hpr : p = r
    · subst hpr; exact this
    · exact Nat.lt_trans (ih hpr) this

theorem findRoot_ok {par : PyDict κ κ} {d : κ → Nat}
    (hd : ∀ x p, par.get? x = some p → p ∈ par.keys ∧ (p ≠ x → d p < d x)) (fuel : Nat) (x : κ) (hx : x ∈ par.keys)
    (hf : (par.keys.filter (fun k => decide (d k ≤ d x))).length < fuel + 1) (hf0 : 0 < fuel) :
    ∃ r, findRoot par fuel x = .ok r ∧ Root par x r := by
  induction fuel generalizing x with
  | zero => omega
  | succ fuel ih =>
    obtain ⟨p, hp⟩ := get?_some_of_mem hx
    unfold findRoot
    rw [PyDict.get_eq_ok_iff.2 hp]
    simp only [py_bind_ok]
    by_cases h : p = x
    · subst h; exact ⟨p, by simp, .base hp⟩
    · obtain ⟨h1, h2⟩ := hd x p hp
      have h2 := h2 h
      have hlt : (par.keys.filter (fun k => decide (d k ≤ d p))).length <
          (par.keys.filter (fun k => decide (d k ≤ d x))).length := by
        have hsub : (par.keys.filter (fun k => decide (d k ≤ d p))).Sublist
            (par.keys.filter (fun k => decide (d k ≤ d x))) := by
          apply List.monotone_filter_right
          intro a; simp; omega
        refine Nat.lt_of_le_of_ne hsub.length_le ?_
        intro he
        have := hsub.eq_of_length he
        have hm : x ∈ par.keys.filter (fun k => decide (d k ≤ d x)) := by simp [hx]
        rw [← this] at hm
        simp at hm; omega
      have hpos : 0 < (par.keys.filter (fun k => decide (d k ≤ d p))).length := by
        apply List.length_pos_of_mem (a := p); simp [h1]
      obtain ⟨r, hr, hr'⟩ := ih p h1 (by omega) (by omega)
      exact ⟨r, by simp [h, hr], .step hp h hr'⟩

theorem Inv.exists_root {par : PyDict κ κ} (h : Inv par) {x : κ} (hx : x ∈ par.keys) : ∃ r, Root par x r := by
  obtain ⟨_, d, hd⟩ := h
  obtain ⟨r, _, hr⟩ := findRoot_ok hd (par.keys.length + 1) x hx
    (by have := List.length_filter_le (fun k => decide (d k ≤ d x)) par.keys; omega) (by omega)
  exact ⟨r, hr⟩

theorem keys_set_of_mem {par : PyDict κ κ} {a b : κ} (ha : a ∈ par.keys) : (par.set a b).keys = par.keys := by
  rw [PyDict.keys_set, if_pos ha]

/-- redirecting a node to its own root changes nothing -/
theorem set_root {par : PyDict κ κ} (h : Inv par) {p r : κ} (hr : Root par p r) :
    Inv (par.set p r) ∧ ∀ y t, Root (par.set p r) y t ↔ Root par y t := by
  obtain ⟨hn, d, hd⟩ := h
  have hp := hr.mem
  have hk := keys_set_of_mem (b := r) hp
  have hinv : Inv (par.set p r) := by
    refine ⟨by rw [hk]; exact hn, d, ?_⟩
    intro x q hx
    rw [PyDict.get?_set] at hx
    rw [hk]
    split at hx
    next e =>
      cases hx; subst e
      refine ⟨mem_keys_of_get? hr.fix, fun hne => hr.measure hd (Ne.symm hne)⟩
    next e => exact hd x q hx
  have fwd : ∀ y t, Root par y t → Root (par.set p r) y t := by
    intro y t hyt
    induction hyt with
    | base hx =>
      next x =>
      by_cases e : p = x
      · subst e
        have : r = p := hr.unique (.base hx)
        subst this
        exact .base (by rw [PyDict.get?_set]; simp)
      · exact .base (by rw [PyDict.get?_set, if_neg e]; exact hx)
    | step hx hne hrest ih =>
      next x q t =>
      by_cases e : p = x
      · subst e
        have : r = t := hr.unique (.step hx hne hrest)
        subst this
        by_cases e2 : r = p
        · subst e2
          exact .base (by rw [PyDict.get?_set]; simp)
        · refine .step (p := r) (by rw [PyDict.get?_set]; simp) e2 (.base ?_)
          rw [PyDict.get?_set, if_neg (Ne.symm e2)]; exact hr.fix
      · exact .step (by rw [PyDict.get?_set, if_neg e]; exact hx) hne ih
  refine ⟨hinv, fun y t => ⟨fun hyt => ?_, fwd y t⟩⟩
  have hy : y ∈ par.keys := by rw [← hk]; exact hyt.mem
  obtain ⟨t', ht'⟩ := Inv.exists_root ⟨hn, d, hd⟩ hy
  rw [hyt.unique (fwd y t' ht')]; exact ht'

/-- joining two different roots -/
theorem set_join {par : PyDict κ κ} (h : Inv par) {a b : κ} (ha : par.get? a = some a) (hb : par.get? b = some b)
    (hab : a ≠ b) : Inv (par.set a b) ∧ ∀ y t, Root par y t → Root (par.set a b) y (if t = a then b else t) := by
  classical
  have h' := h
  obtain ⟨hn, d, hd⟩ := h
  have hk := keys_set_of_mem (b := b) (mem_keys_of_get? ha)
  refine ⟨⟨by rw [hk]; exact hn, fun z => if Root par z a then d z + d b + 1 else d z, ?_⟩, ?_⟩
  · intro x q hx
    rw [PyDict.get?_set] at hx
    rw [hk]
    split at hx
    next e =>
      cases hx; subst e
      refine ⟨mem_keys_of_get? hb, fun _ => ?_⟩
      have h1 : Root par a a := .base ha
      have h2 : ¬ Root par b a := fun h => hab (h.unique (.base hb))
      simp only [h1, h2, if_true, if_false]; omega
    next e =>
      obtain ⟨h1, h2⟩ := hd x q hx
      refine ⟨h1, fun hne => ?_⟩
      have h2 := h2 hne
      have hiff : Root par q a ↔ Root par x a := by
        constructor
        · exact fun h => .step hx hne h
        · intro h
          cases h with
          | base h3 => rw [h3] at hx; cases hx; exact absurd rfl hne
          | step h3 h4 h5 => rw [h3] at hx; cases hx; exact h5
      by_cases hr : Root par x a
      · simp only [hr, hiff.2 hr, if_true]; omega
      · have : ¬ Root par q a := fun h => hr (hiff.1 h)
        simp only [hr, this, if_false]; exact h2
  · intro y t hyt
    induction hyt with
    | base hx =>
      next x =>
      by_cases e : x = a
      · subst e
        rw [if_pos rfl]
        refine .step (p := b) (by rw [PyDict.get?_set]; simp) (Ne.symm hab) (.base ?_)
        rw [PyDict.get?_set, if_neg hab]; exact hb
      · rw [if_neg e]
        exact .base (by rw [PyDict.get?_set, if_neg (Ne.symm e)]; exact hx)
    | step hx hne hrest ih =>
      next x q t =>
      have e : a ≠ x := by
        rintro rfl; rw [ha] at hx; cases hx; exact hne rfl
      exact .step (by rw [PyDict.get?_set, if_neg e]; exact hx) hne ih

theorem compress_ok {par : PyDict κ κ} (h : Inv par) {x r : κ} (hr : Root par x r) (fuel : Nat) :
    ∃ par', compress (fuel + 2) par x r = .ok par' ∧ Inv par' ∧ par'.keys = par.keys ∧
      ∀ y t, Root par' y t ↔ Root par y t := by
  obtain ⟨p, hp⟩ := get?_some_of_mem hr.mem
  unfold compress
  rw [PyDict.get_eq_ok_iff.2 hp]
  simp only [py_bind_ok]
  by_cases e : p = r
  · exact ⟨par, by simp [e], h, rfl, fun _ _ => Iff.rfl⟩
  · have hrp : Root par p r := by
      cases hr with
      | base h1 => rw [h1] at hp; cases hp; exact absurd rfl e
      | step h1 h2 h3 => rw [h1] at hp; cases hp; exact h3
    obtain ⟨h1, h2⟩ := set_root h hrp
    refine ⟨par.set p r, ?_, h1, keys_set_of_mem hrp.mem, h2⟩
    rw [if_pos e]
    unfold compress
    rw [(PyDict.get_eq_ok_iff (v := r)).2 (by rw [PyDict.get?_set]; simp)]
    simp

theorem find_ok {s : UnionFind κ} (h : Inv s.parent) {x : κ} (hx : x ∈ s.parent.keys) :
    ∃ r s', s.find x = .ok (r, s') ∧ Root s.parent x r ∧ Inv s'.parent ∧ s'.parent.keys = s.parent.keys ∧
      s'.rank = s.rank ∧ ∀ y t, Root s'.parent y t ↔ Root s.parent y t := by
  obtain ⟨hn, d, hd⟩ := h
  have hlen : s.parent.keys.length = s.parent.length := by simp [PyDict.keys]
  obtain ⟨r, h1, h2⟩ := findRoot_ok hd (s.parent.length + 1) x hx
    (by have := List.length_filter_le (fun k => decide (d k ≤ d x)) s.parent.keys; omega) (by omega)
  have hpos : 0 < s.parent.length := by rw [← hlen]; exact List.length_pos_of_mem hx
  obtain ⟨par', h3, h4, h5, h6⟩ := compress_ok ⟨hn, d, hd⟩ h2 (s.parent.length - 1)
  have e : s.parent.length - 1 + 2 = s.parent.length + 1 := by omega
  rw [e] at h3
  exact ⟨r, { s with parent := par' }, by simp [find, h1, h3], h2, h4, h5, rfl, h6⟩

theorem find_error {s : UnionFind κ} {x : κ} (hx : x ∉ s.parent.keys) : s.find x = .error .keyError := by
  have : s.parent.get x = .error .keyError := PyDict.get_eq_error_iff.2 ⟨hx, rfl⟩
  simp [find, findRoot, this]

/-- same group (items outside the structure are only related to themselves) -/
def Same (par : PyDict κ κ) (y z : κ) : Prop := y = z ∨ ∃ r, Root par y r ∧ Root par z r

theorem Same.symm {par : PyDict κ κ} {y z : κ} (h : Same par y z) : Same par z y := by
  rcases h with rfl | ⟨r, h1, h2⟩
  · exact .inl rfl
  · exact .inr ⟨r, h2, h1⟩

theorem Same.trans {par : PyDict κ κ} {y z w : κ} (h : Same par y z) (h' : Same par z w) : Same par y w := by
  rcases h with rfl | ⟨r, h1, h2⟩
  · exact h'
  · rcases h' with rfl | ⟨r', h3, h4⟩
    · exact .inr ⟨r, h1, h2⟩
    · have := h2.unique h3; subst this; exact .inr ⟨r, h1, h4⟩

theorem Same.congr {par par' : PyDict κ κ} (h : ∀ y t, Root par' y t ↔ Root par y t) (y z : κ) :
    Same par' y z ↔ Same par y z := by
  simp only [Same, h]

theorem same_iff_root_eq {par : PyDict κ κ} {y z r t : κ} (hy : Root par y r) (hz : Root par z t) :
    Same par y z ↔ r = t := by
  constructor
  · rintro (rfl | ⟨u, h1, h2⟩)
    · exact hy.unique hz
    · rw [hy.unique h1, hz.unique h2]
  · rintro rfl; exact .inr ⟨r, hy, hz⟩

/-- the structure represents the relation generated by the pairs `P` on the items `K` -/
structure Rep (s : UnionFind κ) (K : List κ) (P : κ → κ → Prop) : Prop where
  inv : Inv s.parent
  keys : s.parent.keys = K
  rank : ∀ x ∈ K, x ∈ s.rank.keys
  same : ∀ y z, Same s.parent y z ↔ Relation.EqvGen P y z

theorem joined_same {par par' : PyDict κ κ} (h : Inv par) (h' : Inv par') {x y : κ} {P : κ → κ → Prop}
    (hk : par'.keys = par.keys)
    (hs : ∀ a b, Same par a b ↔ Relation.EqvGen P a b)
    (f : κ → κ) (hf : ∀ z t, Root par z t → Root par' z (f t))
    {rx ry : κ} (hx : Root par x rx) (hy : Root par y ry) (hfxy : f rx = f ry)
    (hfinj : ∀ t u, par.get? t = some t → par.get? u = some u → f t = f u →
      t = u ∨ (t = rx ∧ u = ry) ∨ (t = ry ∧ u = rx)) (a b : κ) :
    Same par' a b ↔ Relation.EqvGen (fun u v => P u v ∨ (u, v) = (x, y)) a b := by
  have hmono : ∀ u v, Same par u v → Relation.EqvGen (fun u v => P u v ∨ (u, v) = (x, y)) u v := by
    intro u v huv
    exact ((hs u v).1 huv).mono (fun a b h => Or.inl h)
  constructor
  · rintro (rfl | ⟨r, h1, h2⟩)
    · exact .refl _
    · have ha : a ∈ par.keys := hk ▸ h1.mem
      have hb : b ∈ par.keys := hk ▸ h2.mem
      obtain ⟨ta, hta⟩ := h.exists_root ha
      obtain ⟨tb, htb⟩ := h.exists_root hb
      have e : f ta = f tb := ((hf a ta hta).unique h1).trans (h2.unique (hf b tb htb))
      have hxy : Relation.EqvGen (fun u v => P u v ∨ (u, v) = (x, y)) x y := .rel _ _ (Or.inr rfl)
      rcases hfinj ta tb hta.fix htb.fix e with rfl | ⟨rfl, rfl⟩ | ⟨rfl, rfl⟩
      · exact hmono _ _ (.inr ⟨ta, hta, htb⟩)
      · exact .trans _ _ _ (hmono _ _ (.inr ⟨_, hta, hx⟩)) (.trans _ _ _ hxy (hmono _ _ (.inr ⟨_, hy, htb⟩)))
      · exact .trans _ _ _ (hmono _ _ (.inr ⟨_, hta, hy⟩))
          (.trans _ _ _ (.symm _ _ hxy) (hmono _ _ (.inr ⟨_, hx, htb⟩)))
  · intro hab
    have hup : ∀ u v, Same par u v → Same par' u v := by
      rintro u v (rfl | ⟨r, h1, h2⟩)
      · exact .inl rfl
      · exact .inr ⟨f r, hf _ _ h1, hf _ _ h2⟩
    induction hab with
    | rel u v huv =>
      rcases huv with huv | huv
      · exact hup u v ((hs u v).2 (.rel _ _ huv))
      · cases huv
        exact .inr ⟨f rx, hf _ _ hx, hfxy ▸ hf _ _ hy⟩
    | refl u => exact .inl rfl
    | symm _ _ _ ih => exact ih.symm
    | trans _ _ _ _ _ ih1 ih2 => exact ih1.trans ih2

theorem union2_ok {s : UnionFind κ} {K : List κ} {P : κ → κ → Prop} (h : Rep s K P) {x y : κ} (hx : x ∈ K) (hy : y ∈ K) :
    ∃ s', s.union2 x y = .ok s' ∧ Rep s' K (fun u v => P u v ∨ (u, v) = (x, y)) := by
  have hx' : x ∈ s.parent.keys := h.keys ▸ hx
  obtain ⟨rx, s1, f1, r1, i1, k1, q1, e1⟩ := find_ok h.inv hx'
  have hy' : y ∈ s1.parent.keys := by rw [k1]; exact h.keys ▸ hy
  obtain ⟨ry, s2, f2, r2, i2, k2, q2, e2⟩ := find_ok i1 hy'
  -- facts about s2
  have hroot : ∀ z t, Root s2.parent z t ↔ Root s.parent z t := fun z t => (e2 z t).trans (e1 z t)
  have hRx : Root s2.parent x rx := (hroot _ _).2 r1
  have hRy : Root s2.parent y ry := (e2 _ _).2 r2
  have hsame : ∀ a b, Same s2.parent a b ↔ Relation.EqvGen P a b := fun a b => (Same.congr hroot a b).trans (h.same a b)
  have hk2 : s2.parent.keys = K := by rw [k2, k1, h.keys]
  have hrank : s2.rank = s.rank := q2.trans q1
  have hrxK : rx ∈ K := hk2 ▸ mem_keys_of_get? hRx.fix
  obtain ⟨kx, hkx⟩ : ∃ k, s2.rank.get x = .ok k := by
    obtain ⟨k, hk⟩ := Option.isSome_iff_exists.1 (PyDict.get?_isSome_iff.2 (h.rank x hx))
    exact ⟨k, by rw [hrank]; exact PyDict.get_eq_ok_iff.2 hk⟩
  obtain ⟨ky, hky⟩ : ∃ k, s2.rank.get y = .ok k := by
    obtain ⟨k, hk⟩ := Option.isSome_iff_exists.1 (PyDict.get?_isSome_iff.2 (h.rank y hy))
    exact ⟨k, by rw [hrank]; exact PyDict.get_eq_ok_iff.2 hk⟩
  obtain ⟨kr, hkr⟩ : ∃ k, s2.rank.get rx = .ok k := by
    obtain ⟨k, hk⟩ := Option.isSome_iff_exists.1 (PyDict.get?_isSome_iff.2 (h.rank rx hrxK))
    exact ⟨k, by rw [hrank]; exact PyDict.get_eq_ok_iff.2 hk⟩
  -- the three kinds of outcome
  have join : ∀ a b, (a = rx ∧ b = ry ∨ a = ry ∧ b = rx) → ∀ rk : PyDict κ Nat, (∀ z ∈ K, z ∈ rk.keys) →
      Rep { parent := s2.parent.set a b, rank := rk } K (fun u v => P u v ∨ (u, v) = (x, y)) := by
    intro a b hab rk hrk
    have ha : s2.parent.get? a = some a := by rcases hab with ⟨rfl, rfl⟩ | ⟨rfl, rfl⟩ <;> first | exact hRx.fix | exact hRy.fix
    have hb : s2.parent.get? b = some b := by rcases hab with ⟨rfl, rfl⟩ | ⟨rfl, rfl⟩ <;> first | exact hRx.fix | exact hRy.fix
    have hk : (s2.parent.set a b).keys = s2.parent.keys := keys_set_of_mem (mem_keys_of_get? ha)
    by_cases hne : a = b
    · subst hne
      have hrr : rx = ry := by rcases hab with ⟨h1, h2⟩ | ⟨h1, h2⟩ <;> rw [← h1, ← h2]
      obtain ⟨hi, hr⟩ := set_root i2 (Root.base ha)
      refine ⟨hi, by rw [hk, hk2], hrk, ?_⟩
      exact joined_same i2 hi hk hsame id (fun z t hz => (hr z t).2 hz) hRx hRy hrr
        (fun t u _ _ e => Or.inl e)
    · obtain ⟨hi, hr⟩ := set_join i2 ha hb hne
      refine ⟨hi, by rw [hk, hk2], hrk, ?_⟩
      refine joined_same i2 hi hk hsame (fun t => if t = a then b else t) hr hRx hRy ?_ ?_
      · rcases hab with ⟨rfl, rfl⟩ | ⟨rfl, rfl⟩
        · simp
        · simp
      · intro t u _ _ e
        by_cases h1 : t = a <;> by_cases h2 : u = a
        · left; rw [h1, h2]
        · simp only [h1, h2, if_true, if_false] at e
          right; subst h1; subst e; tauto
        · simp only [h1, h2, if_true, if_false] at e
          right; subst h2; subst e; tauto
        · simp only [h1, h2, if_false] at e; left; exact e
  unfold union2
  simp only [f1, f2, py_bind_ok, hkx, hky, hkr]
  by_cases c1 : kx > ky
  · rw [if_pos c1]
    exact ⟨_, rfl, join ry rx (Or.inr ⟨rfl, rfl⟩) _ (by rw [hrank]; exact h.rank)⟩
  · rw [if_neg c1]
    by_cases c2 : kx < ky
    · rw [if_pos c2]
      exact ⟨_, rfl, join rx ry (Or.inl ⟨rfl, rfl⟩) _ (by rw [hrank]; exact h.rank)⟩
    · rw [if_neg c2]
      by_cases c3 : rx ≠ ry
      · rw [if_pos c3]
        refine ⟨_, rfl, join ry rx (Or.inr ⟨rfl, rfl⟩) _ ?_⟩
        intro z hz
        rw [PyDict.keys_set, hrank]
        have := h.rank z hz
        split
        · exact this
        · simp [this]
      · rw [if_neg c3]
        have c3 : rx = ry := not_not.1 c3
        refine ⟨s2, rfl, i2, hk2, by rw [hrank]; exact h.rank, ?_⟩
        exact joined_same i2 i2 rfl hsame id (fun z t hz => hz) hRx hRy c3
          (fun t u _ _ e => Or.inl e)

theorem Rep.congr {s : UnionFind κ} {K : List κ} {P Q : κ → κ → Prop} (h : Rep s K P) (hpq : ∀ u v, P u v ↔ Q u v) : Rep s K Q := by
  have : P = Q := by funext u v; exact propext (hpq u v)
  exact this ▸ h

theorem unionMany_fold {K : List κ} (a : κ) (ha : a ∈ K) (l : List κ) : ∀ {s : UnionFind κ} {P : κ → κ → Prop}, Rep s K P →
    (∀ b ∈ l, b ∈ K) → ∃ s', l.foldlM (fun s item => s.union2 a item) s = .ok s' ∧
      Rep s' K (fun u v => P u v ∨ (u, v) ∈ l.map (fun b => (a, b))) := by
  induction l with
  | nil =>
    intro s P h _
    exact ⟨s, rfl, h.congr (by simp)⟩
  | cons b l ih =>
    intro s P h hl
    obtain ⟨s1, h1, h2⟩ := union2_ok h ha (hl b (by simp))
    obtain ⟨s2, h3, h4⟩ := ih h2 (fun c hc => hl c (by simp [hc]))
    refine ⟨s2, by simp [h1, h3], h4.congr ?_⟩
    intro u v
    simp only [List.map_cons, List.mem_cons, or_assoc]

theorem unionMany_ok {s : UnionFind κ} {K : List κ} {P : κ → κ → Prop} (h : Rep s K P) (args : List κ) (hl : ∀ b ∈ args, b ∈ K) :
    ∃ s', s.unionMany args = .ok s' ∧ Rep s' K (fun u v => P u v ∨ (u, v) ∈ (Op.union args).pairs) := by
  cases args with
  | nil => exact ⟨s, rfl, h.congr (by simp [Op.pairs])⟩
  | cons a l => exact unionMany_fold a (hl a (by simp)) (a :: l) h hl

theorem find_rep {s : UnionFind κ} {K : List κ} {P : κ → κ → Prop} (h : Rep s K P) {x : κ} (hx : x ∈ K) :
    ∃ r s', s.find x = .ok (r, s') ∧ Root s.parent x r ∧ Rep s' K P ∧ ∀ y t, Root s'.parent y t ↔ Root s.parent y t := by
  obtain ⟨r, s', h1, h2, h3, h4, h5, h6⟩ := find_ok h.inv (h.keys ▸ hx)
  exact ⟨r, s', h1, h2, ⟨h3, by rw [h4, h.keys], by rw [h5]; exact h.rank, fun y z => (Same.congr h6 y z).trans (h.same y z)⟩, h6⟩

theorem heads_set_mem {g : PyDict κ (List κ)} {r : κ} {l0 l1 : List κ} (h : g.get? r = some l0) (h0 : l0 ≠ []) :
    (g.set r (l0 ++ l1)).values.filterMap List.head? = g.values.filterMap List.head? := by
  induction g with
  | nil => simp [PyDict.get?] at h
  | cons p g ih =>
    obtain ⟨k, v⟩ := p
    unfold PyDict.set
    simp only [PyDict.get?] at h
    split at h
    next e =>
      cases h; rw [if_pos e]
      obtain ⟨a, l, rfl⟩ := List.exists_cons_of_ne_nil h0
      simp [PyDict.values]
    next e =>
      rw [if_neg e]
      have := ih h
      simp only [PyDict.values, List.map_cons, List.filterMap_cons] at this ⊢
      rw [this]

/-- state of the dictionary of groups after reading the items `pre` -/
structure GroupsInv (par : PyDict κ κ) (pre : List κ) (g : PyDict κ (List κ)) : Prop where
  nodup : g.keys.Nodup
  get : ∀ r l, g.get? r = some l → l ≠ [] ∧ ∀ x, x ∈ l ↔ x ∈ pre ∧ Root par x r
  all : ∀ x ∈ pre, ∃ r, Root par x r ∧ r ∈ g.keys
  ord : ∀ r l, g.get? r = some l → l.Sublist pre
  heads : (g.values.filterMap List.head?).Sublist pre

theorem iterLoop_ok {K : List κ} {P : κ → κ → Prop} {par : PyDict κ κ} (l : List κ) : ∀ (pre : List κ) (s : UnionFind κ)
    (g : PyDict κ (List κ)), Rep s K P → (∀ y t, Root s.parent y t ↔ Root par y t) → (∀ x ∈ l, x ∈ K) →
    GroupsInv par pre g →
    ∃ s' g', iterLoop s g l = .ok (s', g') ∧ Rep s' K P ∧ (∀ y t, Root s'.parent y t ↔ Root par y t) ∧
      GroupsInv par (pre ++ l) g' := by
  induction l with
  | nil => intro pre s g h hr _ hg; exact ⟨s, g, rfl, h, hr, by simpa using hg⟩
  | cons x l ih =>
    intro pre s g h hr hl hg
    obtain ⟨r, s1, h1, h2, h3, h4⟩ := find_rep h (hl x (by simp))
    have hxr : Root par x r := (hr _ _).1 h2
    obtain ⟨s2, g2, h5, h6, h7, h8⟩ := ih (pre ++ [x]) s1 (g.set r ((g.get? r).getD [] ++ [x])) h3
      (fun y t => (h4 y t).trans (hr y t)) (fun y hy => hl y (by simp [hy])) (by
        refine ⟨PyDict.nodup_keys_set hg.nodup _ _, ?_, ?_, ?_, ?_⟩
        · intro r' l' hl'
          rw [PyDict.get?_set] at hl'
          split at hl'
          next e =>
            cases hl'; subst e
            refine ⟨by simp, fun y => ?_⟩
            cases hgr : g.get? r with
            | none =>
              have hnot : ∀ y ∈ pre, ¬ Root par y r := by
                intro y hy hyr
                obtain ⟨r', h1', h2'⟩ := hg.all y hy
                have := hyr.unique h1'; subst this
                exact (PyDict.get?_eq_none_iff.1 hgr) h2'
              simp only [Option.getD_none, List.nil_append, List.mem_singleton, List.mem_append]
              constructor
              · rintro rfl; exact ⟨Or.inr rfl, hxr⟩
              · rintro ⟨hy | rfl, hyr⟩
                · exact absurd hyr (hnot y hy)
                · rfl
            | some l0 =>
              have := (hg.get r l0 hgr).2 y
              simp only [Option.getD_some, List.mem_append, List.mem_singleton, this]
              constructor
              · rintro (⟨h1, h2⟩ | rfl)
                · exact ⟨Or.inl h1, h2⟩
                · exact ⟨Or.inr rfl, hxr⟩
              · rintro ⟨h1 | rfl, h2⟩
                · exact Or.inl ⟨h1, h2⟩
                · exact Or.inr rfl
          next e =>
            obtain ⟨h1', h2'⟩ := hg.get r' l' hl'
            refine ⟨h1', fun y => ?_⟩
            rw [h2' y]
            simp only [List.mem_append, List.mem_singleton]
            constructor
            · rintro ⟨h1, h2⟩; exact ⟨Or.inl h1, h2⟩
            · rintro ⟨h1 | rfl, h2⟩
              · exact ⟨h1, h2⟩
              · rename_i hrr; exact absurd (hxr.unique hrr) e
        · intro y hy
          have : ∀ r', r' ∈ g.keys → r' ∈ (g.set r ((g.get? r).getD [] ++ [x])).keys := by
            intro r' hr'; rw [PyDict.keys_set]; split
            · exact hr'
            · simp [hr']
          rcases List.mem_append.1 hy with hy | hy
          · obtain ⟨r', h1', h2'⟩ := hg.all y hy
            exact ⟨r', h1', this r' h2'⟩
          · simp at hy; subst hy
            refine ⟨r, hxr, ?_⟩
            rw [PyDict.keys_set]; split
            · assumption
            · simp
        · intro r' l' hl'
          rw [PyDict.get?_set] at hl'
          split at hl'
          next e =>
            cases hl'; subst e
            apply List.Sublist.append _ (List.Sublist.refl _)
            cases hgr : g.get? r with
            | none => simp
            | some l0 => exact hg.ord r l0 hgr
          next e => exact (hg.ord r' l' hl').trans (List.sublist_append_left _ _)
        · cases hgr : g.get? r with
          | none =>
            rw [PyDict.set_of_not_mem _ _ _ (PyDict.get?_eq_none_iff.1 hgr)]
            have := hg.heads
            simp only [PyDict.values, List.map_append, List.filterMap_append] at this ⊢
            exact List.Sublist.append this (by simp)
          | some l0 =>
            rw [Option.getD_some, heads_set_mem hgr (hg.get r l0 hgr).1]
            exact hg.heads.trans (List.sublist_append_left _ _))
    refine ⟨s2, g2, by simp [iterLoop, h1, h5], h6, h7, by simpa using h8⟩

theorem create_rep (items : List κ) : Rep (create items) (create items).parent.keys (fun _ _ => False) := by
  have hget : ∀ x p, (create items).parent.get? x = some p → p = x := by
    intro x p h
    have : (x, p) ∈ (create items).parent := PyDict.mem_of_get? h
    have h' : ∀ (l : List κ) (d : PyDict κ κ), (∀ q ∈ d, q.2 = q.1) →
        ∀ q ∈ (l.map fun i => (i, i)).foldl (fun d p => d.set p.1 p.2) d, q.2 = q.1 := by
      intro l
      induction l with
      | nil => intro d hd; exact hd
      | cons a l ih =>
        intro d hd
        apply ih
        intro q hq
        have : ∀ (d : PyDict κ κ), (∀ q ∈ d, q.2 = q.1) → ∀ q ∈ d.set a a, q.2 = q.1 := by
          intro d
          induction d with
          | nil => intro _ q hq; simp [PyDict.set] at hq; simp [hq]
          | cons p d ihd =>
            obtain ⟨k, v⟩ := p
            intro hd q hq
            unfold PyDict.set at hq
            split at hq
            next e =>
              rcases List.mem_cons.1 hq with rfl | hq
              · simp [e]
              · exact hd q (by simp [hq])
            next e =>
              rcases List.mem_cons.1 hq with rfl | hq
              · exact hd _ (by simp)
              · exact ihd (fun q hq => hd q (by simp [hq])) q hq
        exact this d hd q hq
    exact h' items [] (by simp) _ this
  have hinv : Inv (create items).parent := by
    refine ⟨PyDict.nodup_keys_ofList _, fun _ => 0, ?_⟩
    intro x p h
    have := hget x p h; subst this
    exact ⟨mem_keys_of_get? h, fun h => absurd rfl h⟩
  refine ⟨hinv, rfl, ?_, ?_⟩
  · intro x hx
    have h1 : x ∈ (items.map fun i => (i, i)).map Prod.fst := PyDict.mem_keys_ofList.1 hx
    apply PyDict.mem_keys_ofList.2
    simpa [List.map_map, Function.comp] using h1
  · intro y z
    have hr : ∀ y r, Root (create items).parent y r → y = r := by
      intro y r h
      cases h with
      | base _ => rfl
      | step h1 h2 _ => exact absurd (hget _ _ h1) h2
    constructor
    · rintro (rfl | ⟨r, h1, h2⟩)
      · exact .refl _
      · rw [hr _ _ h1, hr _ _ h2]; exact .refl _
    · intro h
      have : y = z := by
        induction h with
        | rel _ _ h => exact h.elim
        | refl _ => rfl
        | symm _ _ _ ih => exact ih.symm
        | trans _ _ _ _ _ ih1 ih2 => exact ih1.trans ih2
      exact .inl this

end UnionFind
end Curver
