import Verif.Proofs.VertexSize
import Verif.Proofs.Components
import Verif.Proofs.Legal
import Verif.Spec.FindIsometry

namespace Curver
open Triangulation

namespace Triangulation
variable {S T : Triangulation}

/-- the dictionary agrees with `f` -/
def Agrees (d : PyDict Int Int) (f : Int → Int) : Prop := ∀ p ∈ d, p.2 = f p.1

structure ExtInv (S T : Triangulation) (d0 d : PyDict Int Int) (stack : List (Int × Int)) : Prop where
  nodup : d.keys.Nodup
  labels : ∀ p ∈ d, S.IsLabel p.1 ∧ T.IsLabel p.2
  stack_sub : ∀ p ∈ stack, p ∈ d
  closed : ∀ p ∈ d, p ∈ stack ∨ (d.get? (inv p.1) = some (inv p.2) ∧ d.get? (S.nxt p.1) = some (T.nxt p.2))
  reach : ∀ k ∈ d.keys, ∃ k0 ∈ d0.keys, S.Joined k0 k
  ext : ∀ p ∈ d0, p ∈ d

def unmapped (S : Triangulation) (d : PyDict Int Int) : Nat := (S.labels.filter (· ∉ d.keys)).length

theorem unmapped_set {d : PyDict Int Int} {a b : Int} (ha : S.IsLabel a) (h : a ∉ d.keys) :
    S.unmapped (d.set a b) + 1 = S.unmapped d := by
  unfold unmapped
  rw [PyDict.keys_set, if_neg h]
  have hm := mem_labels.2 ha
  have hn : S.labels.Nodup := nodup_labels
  obtain ⟨l1, l2, hl⟩ := List.append_of_mem hm
  rw [hl] at hn ⊢
  have hn' := hn
  rw [List.nodup_middle, List.nodup_cons] at hn'
  have key : ∀ l : List Int, a ∉ l → l.filter (· ∉ d.keys ++ [a]) = l.filter (· ∉ d.keys) := by
    intro l hal
    apply List.filter_congr
    intro x hx
    have : x ≠ a := by rintro rfl; exact hal hx
    simp [this]
  rw [List.mem_append, not_or] at hn'
  simp only [List.filter_append, List.filter_cons, List.length_append, key l1 hn'.1.1, key l2 hn'.1.2]
  simp [h]
  omega

theorem visit_cases (hS : S.Complete) (hT : T.Complete) {so ta : PyDict Int Nat} (hso : S.orders = .ok so) (hta : T.orders = .ok ta)
    (d : PyDict Int Int) (stack : List (Int × Int)) {a b : Int} (ha : S.IsLabel a) (hb : T.IsLabel b) :
    (visit so ta (d, stack) (a, b) = .ok (d, stack) ∧ d.get? a = some b) ∨
    (a ∉ d.keys ∧ visit so ta (d, stack) (a, b) = .ok (d.set a b, (a, b) :: stack)) ∨
    (visit so ta (d, stack) (a, b) = .error .valueError ∧ ∀ f, S.IsIsometry T f → Agrees d f → b ≠ f a) := by
  unfold visit
  dsimp only
  cases hg : d.get? a with
  | some v =>
    dsimp only
    by_cases hv : b = v
    · subst hv; left; simp
    · right; right
      refine ⟨by rw [if_pos hv], ?_⟩
      intro f _ hd hbf
      exact hv (hbf.trans (hd _ (PyDict.mem_of_get? hg)).symm)
  | none =>
    dsimp only
    right
    obtain ⟨o, h1, h2⟩ := hS.orders_ok
    rw [hso] at h1; cases h1
    obtain ⟨o, h1, h3⟩ := hT.orders_ok
    rw [hta] at h1; cases h1
    obtain ⟨v, v1, v2⟩ := h2 a ha
    obtain ⟨w, w1, w2⟩ := h3 b hb
    rw [v2, w2, py_bind_ok, py_bind_ok]
    by_cases hvw : v.length = w.length
    · left
      exact ⟨PyDict.get?_eq_none_iff.1 hg, by rw [if_neg (by simpa using hvw)]; rfl⟩
    · right
      refine ⟨by rw [if_pos hvw], ?_⟩
      intro f hf _ hbf
      subst hbf
      exact hvw (hf.vertex_length hS hT ha v1 w1)

/-- the effect of a successful visit -/
structure Step (a b : Int) (d d' : PyDict Int Int) (stack stack' : List (Int × Int)) : Prop where
  get : d'.get? a = some b
  mono : ∀ k v, d.get? k = some v → d'.get? k = some v
  mem : ∀ p, p ∈ d' ↔ p ∈ d ∨ p = (a, b)
  stack_mono : ∀ p ∈ stack, p ∈ stack'
  stack_new : ∀ p ∈ d', p ∈ d ∨ p ∈ stack'
  stack_old : ∀ p ∈ stack', p ∈ stack ∨ p = (a, b)
  nodup : d.keys.Nodup → d'.keys.Nodup

theorem visit_step (hS : S.Complete) (hT : T.Complete) {so ta : PyDict Int Nat} (hso : S.orders = .ok so) (hta : T.orders = .ok ta)
    (d : PyDict Int Int) (stack : List (Int × Int)) {a b : Int} (ha : S.IsLabel a) (hb : T.IsLabel b) :
    (∃ d' stack', visit so ta (d, stack) (a, b) = .ok (d', stack') ∧ Step a b d d' stack stack' ∧
      stack'.length + S.unmapped d' = stack.length + S.unmapped d) ∨
    (visit so ta (d, stack) (a, b) = .error .valueError ∧ ∀ f, S.IsIsometry T f → Agrees d f → b ≠ f a) := by
  rcases visit_cases hS hT hso hta d stack ha hb with ⟨h1, h2⟩ | ⟨h1, h2⟩ | h
  · refine .inl ⟨d, stack, h1, ⟨h2, fun _ _ h => h, ?_, fun _ h => h, fun _ h => .inl h, fun _ h => .inl h, fun h => h⟩, rfl⟩
    intro p
    refine ⟨.inl, ?_⟩
    rintro (h | rfl)
    · exact h
    · exact PyDict.mem_of_get? h2
  · refine .inl ⟨_, _, h2, ⟨?_, ?_, ?_, by simp +contextual, ?_, ?_, fun h => PyDict.nodup_keys_set h _ _⟩, ?_⟩
    · rw [PyDict.get?_set, if_pos rfl]
    · intro k v hk
      rw [PyDict.get?_set, if_neg]
      · exact hk
      · rintro rfl
        rw [PyDict.get?_eq_none_iff.2 h1] at hk; cases hk
    · intro p; rw [PyDict.set_of_not_mem _ _ _ h1]; simp
    · intro p hp
      rw [PyDict.set_of_not_mem _ _ _ h1] at hp
      simp at hp ⊢; tauto
    · intro p hp; simp at hp ⊢; tauto
    · have := unmapped_set (b := b) ha h1
      simp; omega
  · exact .inr h

theorem extendMap_main (hS : S.Complete) (hT : T.Complete) {so ta : PyDict Int Nat} (hso : S.orders = .ok so) (hta : T.orders = .ok ta)
    {d0 : PyDict Int Int} : ∀ (fuel : Nat) (d : PyDict Int Int) (stack : List (Int × Int)), ExtInv S T d0 d stack →
    stack.length + S.unmapped d ≤ fuel →
    (∃ d', S.extendMap T so ta fuel d stack = .ok d' ∧ ExtInv S T d0 d' [] ∧ ∀ f, S.IsIsometry T f → Agrees d f → Agrees d' f) ∨
    (S.extendMap T so ta fuel d stack = .error .valueError ∧ ∀ f, S.IsIsometry T f → ¬ Agrees d f) := by
  intro fuel
  induction fuel with
  | zero =>
    intro d stack h hm
    have : stack = [] := List.length_eq_zero_iff.1 (by omega)
    subst this
    exact .inl ⟨d, rfl, h, fun _ _ h => h⟩
  | succ fuel ih =>
    intro d stack h hm
    match stack, h, hm with
    | [], h, _ => exact .inl ⟨d, rfl, h, fun _ _ h => h⟩
    | (a, b) :: stack, h, hm =>
      have hab := h.stack_sub (a, b) (by simp)
      have hl := h.labels _ hab
      dsimp only at hl
      unfold extendMap
      rw [hS.corner_nxt hl.1, py_bind_ok, hT.corner_nxt hl.2, py_bind_ok]
      dsimp only
      have hag : ∀ f, Agrees d f → b = f a := fun f hf => hf _ hab
      rcases visit_step hS hT hso hta d stack (isLabel_inv.2 hl.1) (isLabel_inv.2 hl.2) with ⟨d1, st1, h1, h2, h3⟩ | ⟨h1, h2⟩
      · rw [h1, py_bind_ok]
        rcases visit_step hS hT hso hta d1 st1 (hS.isLabel_nxt hl.1) (hT.isLabel_nxt hl.2) with ⟨d2, st2, k1, k2, k3⟩ | ⟨k1, k2⟩
        · rw [k1, py_bind_ok]
          dsimp only
          have hinv : ExtInv S T d0 d2 st2 := by
            refine ⟨k2.nodup (h2.nodup h.nodup), ?_, ?_, ?_, ?_, ?_⟩
            · intro p hp
              rcases (k2.mem p).1 hp with hp | rfl
              · rcases (h2.mem p).1 hp with hp | rfl
                · exact h.labels p hp
                · exact ⟨isLabel_inv.2 hl.1, isLabel_inv.2 hl.2⟩
              · exact ⟨hS.isLabel_nxt hl.1, hT.isLabel_nxt hl.2⟩
            · intro p hp
              rw [k2.mem, h2.mem]
              rcases k2.stack_old p hp with hp | hp
              · rcases h2.stack_old p hp with hp | hp
                · exact .inl (.inl (h.stack_sub p (by simp [hp])))
                · exact .inl (.inr hp)
              · exact .inr hp
            · intro p hp
              rcases k2.stack_new p hp with hp | hp
              · rcases h2.stack_new p hp with hp | hp
                · rcases h.closed p hp with hp | ⟨c1, c2⟩
                  · rw [List.mem_cons] at hp
                    rcases hp with rfl | hp
                    · exact .inr ⟨k2.mono _ _ h2.get, k2.get⟩
                    · exact .inl (k2.stack_mono _ (h2.stack_mono _ hp))
                  · exact .inr ⟨k2.mono _ _ (h2.mono _ _ c1), k2.mono _ _ (h2.mono _ _ c2)⟩
                · exact .inl (k2.stack_mono _ hp)
              · exact .inl hp
            · have key : ∀ p ∈ d2, ∃ k0 ∈ d0.keys, S.Joined k0 p.1 := by
                obtain ⟨k0, hk0, hj⟩ := h.reach a (List.mem_map.2 ⟨_, hab, rfl⟩)
                intro p hp
                rcases (k2.mem p).1 hp with hp | rfl
                · rcases (h2.mem p).1 hp with hp | rfl
                  · exact h.reach _ (List.mem_map.2 ⟨p, hp, rfl⟩)
                  · exact ⟨k0, hk0, hj.trans (S.joined_inv a)⟩
                · exact ⟨k0, hk0, hj.trans (joined_of_glues (hS.glues_nxt hl.1))⟩
              intro k hk
              obtain ⟨p, hp, rfl⟩ := List.mem_map.1 hk
              exact key p hp
            · intro p hp
              rw [k2.mem, h2.mem]
              exact .inl (.inl (h.ext p hp))
          have hagg : ∀ f, S.IsIsometry T f → Agrees d f → Agrees d2 f := by
            intro f hf hd p hp
            have hb := hag f hd
            rcases (k2.mem p).1 hp with hp | rfl
            · rcases (h2.mem p).1 hp with hp | rfl
              · exact hd p hp
              · change inv b = f (inv a); rw [hb, hf.inverts a hl.1]
            · change T.nxt b = f (S.nxt a); rw [hf.nxt hS hT hl.1, ← hb]
          rcases ih d2 st2 hinv (by simp at hm; omega) with ⟨d', e1, e2, e3⟩ | ⟨e1, e2⟩
          · exact .inl ⟨d', e1, e2, fun f hf hd => e3 f hf (hagg f hf hd)⟩
          · exact .inr ⟨e1, fun f hf hd => e2 f hf (hagg f hf hd)⟩
        · right
          rw [k1]
          refine ⟨rfl, ?_⟩
          intro f hf hd
          have hb := hag f hd
          apply k2 f hf _ (by rw [hf.nxt hS hT hl.1, ← hb])
          intro p hp
          rcases (h2.mem p).1 hp with hp | rfl
          · exact hd p hp
          · change inv b = f (inv a); rw [hb, hf.inverts a hl.1]
      · right
        rw [h1]
        refine ⟨rfl, ?_⟩
        intro f hf hd
        exact h2 f hf hd (by rw [hag f hd, hf.inverts a hl.1])

/-- the loop completing the map by the identity -/
theorem fill_main (hS : S.Complete) (hT : T.Complete) (hz : T.zeta = S.zeta) (used : List Int) :
    ∀ (l : List Int) (d : PyDict Int Int), (∀ e ∈ l, S.IsLabel e) → l.Nodup → (∀ e ∈ l, e ∉ used → e ∉ d.keys) →
    (l.foldlM (S.fillIdentity T used) d = .ok (d ++ (l.filter (· ∉ used)).map (fun e => (e, e))) ∧
      ∀ e ∈ l, e ∉ used → S.nxt e = T.nxt e ∧ S.nxt (S.nxt e) = T.nxt (T.nxt e)) ∨
    (l.foldlM (S.fillIdentity T used) d = .error .valueError ∧
      ∃ e ∈ l, e ∉ used ∧ ¬ (S.nxt e = T.nxt e ∧ S.nxt (S.nxt e) = T.nxt (T.nxt e))) := by
  intro l
  induction l with
  | nil => intro d _ _ _; left; simp
  | cons e l ih =>
    intro d hl hn hk
    rw [List.nodup_cons] at hn
    rw [List.foldlM_cons]
    have hle := hl e (by simp)
    have hle' : T.IsLabel e := by unfold IsLabel at hle ⊢; omega
    by_cases hu : e ∈ used
    · have : S.fillIdentity T used d e = .ok d := by unfold fillIdentity; rw [if_neg (by simpa using hu)]; rfl
      rw [this, py_bind_ok, List.filter_cons_of_neg (by simpa using hu)]
      rcases ih d (fun x hx => hl x (by simp [hx])) hn.2 (fun x hx => hk x (by simp [hx])) with ⟨h1, h2⟩ | ⟨h1, x, h2, h3⟩
      · left
        refine ⟨h1, ?_⟩
        intro x hx hxu
        rw [List.mem_cons] at hx
        rcases hx with rfl | hx
        · exact absurd hu hxu
        · exact h2 x hx hxu
      · exact .inr ⟨h1, x, by simp [h2], h3⟩
    · by_cases hc : S.nxt e = T.nxt e ∧ S.nxt (S.nxt e) = T.nxt (T.nxt e)
      · have : S.fillIdentity T used d e = .ok (d.set e e) := by
          unfold fillIdentity
          rw [if_pos hu, hS.corner_nxt hle, py_bind_ok, hT.corner_nxt hle', py_bind_ok, if_neg (by simp; exact hc)]
          rfl
        have hek := hk e (by simp) hu
        rw [this, py_bind_ok, List.filter_cons_of_pos (by simpa using hu), PyDict.set_of_not_mem _ _ _ hek]
        rcases ih (d ++ [(e, e)]) (fun x hx => hl x (by simp [hx])) hn.2 (by
          intro x hx hxu
          have := hk x (by simp [hx]) hxu
          unfold PyDict.keys at this ⊢
          rw [List.map_append, List.mem_append, not_or]
          refine ⟨this, ?_⟩
          simp
          rintro rfl; exact hn.1 hx) with ⟨h1, h2⟩ | ⟨h1, x, h2, h3⟩
        · left
          refine ⟨by rw [h1]; simp, ?_⟩
          intro x hx hxu
          rw [List.mem_cons] at hx
          rcases hx with rfl | hx
          · exact hc
          · exact h2 x hx hxu
        · exact .inr ⟨h1, x, by simp [h2], h3⟩
      · right
        have : S.fillIdentity T used d e = .error .valueError := by
          unfold fillIdentity
          rw [if_pos hu, hS.corner_nxt hle, py_bind_ok, hT.corner_nxt hle', py_bind_ok, if_pos]
          intro h
          simp only [Tri.mk.injEq] at h
          exact hc h.2
        rw [this]
        exact ⟨rfl, e, by simp, hu, hc⟩

theorem ExtInv.joined {d0 d : PyDict Int Int} (h : ExtInv S T d0 d []) (hS : S.Complete) {a b : Int} (ha : a ∈ d.keys) (hj : S.Joined a b) :
    b ∈ d.keys := by
  induction hj with
  | refl => exact ha
  | tail _ hadj ih =>
    obtain ⟨p, hp, hp1⟩ := List.mem_map.1 ih
    have hc := (h.closed p hp).resolve_left (by simp)
    rw [← hp1] at hadj
    rcases hadj with rfl | ⟨c, hg⟩
    · rw [← PyDict.get?_isSome_iff, hc.1]; rfl
    · rw [← hS.nxt_of_glues hg, ← PyDict.get?_isSome_iff, hc.2]; rfl

theorem ExtInv.mem_keys_iff {d0 d : PyDict Int Int} (h : ExtInv S T d0 d []) (hS : S.Complete) {e : Int} :
    e ∈ d.keys ↔ ∃ k ∈ d0.keys, S.Joined k e := by
  constructor
  · exact h.reach e
  · rintro ⟨k, hk, hj⟩
    obtain ⟨p, hp, rfl⟩ := List.mem_map.1 hk
    exact h.joined hS (List.mem_map.2 ⟨p, h.ext p hp, rfl⟩) hj

/-- the checks at the end -/
def bijective (S T : Triangulation) (d : PyDict Int Int) : Prop :=
  (∀ e, e ∈ d.keys ↔ S.IsLabel e) ∧ d.values.Nodup ∧ (∀ e, e ∈ d.values ↔ T.IsLabel e)

theorem checks_eq (S T : Triangulation) (d : PyDict Int Int) [Decidable (bijective S T d)] :
    (if !(d.keys.all (· ∈ S.labels) && S.labels.all (· ∈ d.keys)) then (.error .valueError : Py LMove)
    else if d.values.length ≠ d.values.dedup.length then .error .valueError
    else if !(d.values.all (· ∈ T.labels) && T.labels.all (· ∈ d.values)) then .error .valueError
    else LMove.isometry S T d) = if bijective S T d then LMove.isometry S T d else .error .valueError := by
  have h1 : (d.keys.all (· ∈ S.labels) && S.labels.all (· ∈ d.keys)) = true ↔ ∀ e, e ∈ d.keys ↔ S.IsLabel e := by
    simp only [Bool.and_eq_true, List.all_eq_true, decide_eq_true_eq, mem_labels]
    exact ⟨fun h e => ⟨h.1 e, h.2 e⟩, fun h => ⟨fun e => (h e).1, fun e => (h e).2⟩⟩
  have h2 : d.values.length = d.values.dedup.length ↔ d.values.Nodup := by
    rw [← List.dedup_eq_self]
    constructor
    · intro h; exact (List.dedup_sublist _).eq_of_length h.symm
    · intro h; rw [h]
  have h3 : (d.values.all (· ∈ T.labels) && T.labels.all (· ∈ d.values)) = true ↔ ∀ e, e ∈ d.values ↔ T.IsLabel e := by
    simp only [Bool.and_eq_true, List.all_eq_true, decide_eq_true_eq, mem_labels]
    exact ⟨fun h e => ⟨h.1 e, h.2 e⟩, fun h => ⟨fun e => (h e).1, fun e => (h e).2⟩⟩
  by_cases g1 : ∀ e, e ∈ d.keys ↔ S.IsLabel e
  · rw [if_neg (by rw [h1.2 g1]; simp)]
    by_cases g2 : d.values.Nodup
    · rw [if_neg (by simpa using h2.2 g2)]
      by_cases g3 : ∀ e, e ∈ d.values ↔ T.IsLabel e
      · rw [if_neg (by rw [h3.2 g3]; simp), if_pos ⟨g1, g2, g3⟩]
      · rw [if_pos, if_neg (fun h => g3 h.2.2)]
        rw [Bool.not_eq_true', ← Bool.not_eq_true]; exact fun h => g3 (h3.1 h)
    · rw [if_pos (fun h => g2 (h2.1 h)), if_neg (fun h => g2 h.2.1)]
  · rw [if_pos, if_neg (fun h => g1 h.1)]
    rw [Bool.not_eq_true', ← Bool.not_eq_true]; exact fun h => g1 (h1.1 h)

theorem extInv_init {d : PyDict Int Int} (hd : d.keys.Nodup) (hl : ∀ p ∈ d, S.IsLabel p.1 ∧ T.IsLabel p.2) :
    ExtInv S T d d d.reverse := by
  refine ⟨hd, hl, by simp, by simp +contextual, fun k hk => ⟨k, hk, .refl⟩, fun p hp => hp⟩

theorem Valid.findIsometry_main (hS : S.Valid) (hT : T.Valid) {d : PyDict Int Int} (hd : d.keys.Nodup)
    (hl : ∀ p ∈ d, S.IsLabel p.1 ∧ T.IsLabel p.2) (hz : T.zeta = S.zeta) :
    (∃ m f, S.findIsometry T d = .ok m ∧ m.IsIsometryMove S T f ∧ m.Legal ∧ S.ExtendsTo T d f) ∨
    (S.findIsometry T d = .error .valueError ∧ ∀ f, ¬ S.ExtendsTo T d f) := by
  classical
  have hSc := hS.comp
  have hTc := hT.comp
  obtain ⟨so, hso, _⟩ := hSc.orders_ok
  obtain ⟨ta, hta, _⟩ := hTc.orders_ok
  have hstep : S.findIsometry T d = (S.extendMap T so ta (d.length + S.labels.length + 1) d d.reverse >>= fun d' =>
      S.labels.foldlM (S.fillIdentity T (d'.keys ++ d'.values)) d' >>= fun d'' =>
        if bijective S T d'' then LMove.isometry S T d'' else .error .valueError) := by
    unfold findIsometry
    simp only [PyDict.ofList_of_nodup d hd, hso, hta, py_bind_ok]
    congr 1
    funext d'
    congr 1
    funext d''
    exact checks_eq S T d''
  have hag : ∀ f, S.ExtendsTo T d f → Agrees d f := fun f hf p hp => (hf.extends_map p.1 p.2 hp).symm
  have hfin : ∀ d'' f, d''.IsFun S f → S.ExtendsTo T d f → S.findIsometry T d = LMove.isometry S T d'' →
      ∃ m f, S.findIsometry T d = .ok m ∧ m.IsIsometryMove S T f ∧ m.Legal ∧ S.ExtendsTo T d f := by
    intro d'' f h1 h2 h3
    obtain ⟨m, m', g, k1, k2, k3, k4, _⟩ := LMove.isometry_ok hSc hTc h1 h2.isometry
    refine ⟨_, f, h3.trans k1, ⟨m, rfl, k2.source, k2.target, by rw [k4]; exact h1, h2.isometry⟩,
      .isometry S T f d'' _ hS hT h1 h2.isometry k1, h2⟩
  rcases extendMap_main hSc hTc hso hta (d0 := d) (d.length + S.labels.length + 1) d d.reverse (extInv_init hd hl) (by
    have : S.unmapped d ≤ S.labels.length := List.length_filter_le _ _
    rw [List.length_reverse]; omega) with ⟨d', h1, h2, h3⟩ | ⟨h1, h2⟩
  swap
  · exact .inr ⟨by rw [hstep, h1]; rfl, fun f hf => h2 f hf.isometry (hag f hf)⟩
  rw [h1, py_bind_ok] at hstep
  have hdisj : ∀ e ∈ S.labels, e ∉ d'.keys ++ d'.values → e ∉ d'.keys := fun e _ h => (not_or.1 (by simpa using h)).1
  rcases fill_main hSc hTc hz (d'.keys ++ d'.values) S.labels d' (fun e he => mem_labels.1 he) nodup_labels hdisj with ⟨k1, k2⟩ | ⟨k1, e, k2, k3, k4⟩
  swap
  · refine .inr ⟨by rw [hstep, k1]; rfl, fun f hf => k4 ?_⟩
    have hne : e ∉ d'.keys := hdisj e k2 k3
    have hid : ∀ x, S.Joined e x → S.IsLabel x → f x = x := by
      intro x hx hxl
      refine hf.identity x hxl ?_
      intro k hk hj
      exact hne ((h2.mem_keys_iff hSc).2 ⟨k, hk, hj.trans hx.symm⟩)
    have hle := mem_labels.1 k2
    have j1 := joined_of_glues (hSc.glues_nxt hle)
    have l1 := hSc.isLabel_nxt hle
    have j2 := j1.trans (joined_of_glues (hSc.glues_nxt l1))
    have e1 : S.nxt e = T.nxt e := by
      have := hf.isometry.nxt hSc hTc hle
      rwa [hid e .refl hle, hid _ j1 l1] at this
    refine ⟨e1, ?_⟩
    have := hf.isometry.nxt hSc hTc l1
    rw [hid _ j1 l1, hid _ j2 (hSc.isLabel_nxt l1)] at this
    rw [this, e1]
  rw [k1, py_bind_ok] at hstep
  set d'' := d' ++ (S.labels.filter (· ∉ d'.keys ++ d'.values)).map (fun e => (e, e)) with hd''
  have hmem : ∀ e v, (e, v) ∈ d'' ↔ (e, v) ∈ d' ∨ (S.IsLabel e ∧ e ∉ d'.keys ++ d'.values ∧ v = e) := by
    intro e v
    rw [hd'', List.mem_append, List.mem_map]
    simp only [List.mem_filter, mem_labels, decide_eq_true_eq, Prod.mk.injEq]
    constructor
    · rintro (h | ⟨x, ⟨a1, a2⟩, rfl, rfl⟩)
      · exact .inl h
      · exact .inr ⟨a1, a2, rfl⟩
    · rintro (h | ⟨a1, a2, rfl⟩)
      · exact .inl h
      · exact .inr ⟨_, ⟨a1, a2⟩, rfl, rfl⟩
  have hnd : d''.keys.Nodup := by
    unfold PyDict.keys
    rw [hd'', List.map_append, List.map_map, List.nodup_append]
    have hc : (Prod.fst ∘ fun e : Int => (e, e)) = id := rfl
    rw [hc, List.map_id]
    refine ⟨h2.nodup, nodup_labels.filter _, ?_⟩
    rintro a ha b hb rfl
    rw [List.mem_filter] at hb
    exact hdisj a hb.1 (by simpa using hb.2) ha
  by_cases hbij : bijective S T d''
  · rw [if_pos hbij] at hstep
    left
    obtain ⟨b1, b2, b3⟩ := hbij
    set f : Int → Int := fun e => (d''.get? e).getD e with hf
    have hget : ∀ e v, (e, v) ∈ d'' → f e = v := by
      intro e v h
      rw [hf]
      dsimp only
      rw [PyDict.get?_of_mem hnd h]; rfl
    have hmemf : ∀ e, S.IsLabel e → (e, f e) ∈ d'' := by
      intro e he
      obtain ⟨p, hp, rfl⟩ := List.mem_map.1 ((b1 e).2 he)
      rw [hget p.1 p.2 hp]; exact hp
    have hfun : d''.IsFun S f := by
      refine ⟨hnd, ?_⟩
      intro e v
      refine ⟨fun h => ⟨(b1 e).1 (List.mem_map.2 ⟨_, h, rfl⟩), (hget e v h).symm⟩, ?_⟩
      rintro ⟨h, rfl⟩
      exact hmemf e h
    have hold : ∀ e v, (e, v) ∈ d' → f e = v := fun e v h => hget e v ((hmem e v).2 (.inl h))
    have hnew : ∀ e, S.IsLabel e → e ∉ d'.keys → f e = e ∧ e ∉ d'.keys ++ d'.values := by
      intro e he hk
      rcases (hmem e (f e)).1 (hmemf e he) with h | ⟨_, h, h'⟩
      · exact absurd (List.mem_map.2 ⟨_, h, rfl⟩) hk
      · exact ⟨h', h⟩
    have hkinv : ∀ e, e ∈ d'.keys ↔ inv e ∈ d'.keys := by
      intro e
      refine ⟨fun h => h2.joined hSc h (S.joined_inv e), fun h => h2.joined hSc h (by simpa [inv_inv] using S.joined_inv (inv e))⟩
    have hext : S.ExtendsTo T d f := by
      refine ⟨⟨hz, ?_, ?_, ?_, ?_⟩, ?_, ?_⟩
      · intro e he
        exact (b3 _).1 (List.mem_map.2 ⟨_, hmemf e he, rfl⟩)
      · intro e e' he he' h
        have := List.inj_on_of_nodup_map b2 (hmemf e he) (hmemf e' he') h
        simpa using congrArg Prod.fst this
      · intro e he
        by_cases hk : e ∈ d'.keys
        · obtain ⟨p, hp, rfl⟩ := List.mem_map.1 hk
          have hc := (h2.closed p hp).resolve_left (by simp)
          rw [hold _ _ (PyDict.mem_of_get? hc.1), hold p.1 p.2 hp]
        · have hk' : inv e ∉ d'.keys := fun h => hk ((hkinv e).2 h)
          rw [(hnew e he hk).1, (hnew _ (isLabel_inv.2 he) hk').1]
      · intro a b c hg
        have hlab := hSc.label_of_glues hg
        obtain rfl := hSc.nxt_of_glues hg
        have hg' := hg.rot
        obtain rfl := hSc.nxt_of_glues hg'
        have key : ∀ e, S.IsLabel e → f (S.nxt e) = T.nxt (f e) := by
          intro e he
          by_cases hk : e ∈ d'.keys
          · obtain ⟨p, hp, rfl⟩ := List.mem_map.1 hk
            have hc := (h2.closed p hp).resolve_left (by simp)
            rw [hold _ _ (PyDict.mem_of_get? hc.2), hold p.1 p.2 hp]
          · have hk' : S.nxt e ∉ d'.keys := by
              intro h
              exact hk (h2.joined hSc h (joined_of_glues (hSc.glues_nxt he)).symm)
            obtain ⟨n1, n2⟩ := hnew e he hk
            rw [n1, (hnew _ (hSc.isLabel_nxt he) hk').1, (k2 e (mem_labels.2 he) n2).1]
        rw [key _ hlab.2.1, key _ hlab.1]
        exact hTc.glues_nxt ((b3 _).1 (List.mem_map.2 ⟨_, hmemf a hlab.1, rfl⟩))
      · intro e v h
        exact hold e v (h2.ext _ h)
      · intro e he h
        refine (hnew e he ?_).1
        intro hk
        obtain ⟨k, hk, hj⟩ := (h2.mem_keys_iff hSc).1 hk
        exact h k hk hj
    exact hfin d'' f hfun hext hstep
  · right
    rw [if_neg hbij] at hstep
    refine ⟨hstep, ?_⟩
    intro f hf
    apply hbij
    have hagd := h3 f hf.isometry (hag f hf)
    have hid : ∀ e, S.IsLabel e → e ∉ d'.keys → f e = e := by
      intro e he hk
      refine hf.identity e he ?_
      intro k hk' hj
      exact hk ((h2.mem_keys_iff hSc).2 ⟨k, hk', hj⟩)
    have hval : ∀ e, S.IsLabel e → e ∉ d'.keys → e ∉ d'.values := by
      intro e he hk hv
      obtain ⟨p, hp, hpe⟩ := List.mem_map.1 hv
      have hpl := h2.labels p hp
      have h5 := hagd p hp
      have : p.1 = e := hf.isometry.inj _ _ hpl.1 he (by rw [← h5, hpe, hid e he hk])
      exact hk (List.mem_map.2 ⟨p, hp, this⟩)
    have hfun : d''.IsFun S f := by
      refine ⟨hnd, ?_⟩
      intro e v
      rw [hmem]
      constructor
      · rintro (h | ⟨a1, a2, rfl⟩)
        · exact ⟨(h2.labels _ h).1, hagd _ h⟩
        · exact ⟨a1, (hid _ a1 (hdisj _ (mem_labels.2 a1) a2)).symm⟩
      · rintro ⟨he, rfl⟩
        by_cases hk : e ∈ d'.keys
        · obtain ⟨p, hp, rfl⟩ := List.mem_map.1 hk
          left
          rw [← hagd p hp]; exact hp
        · right
          refine ⟨he, ?_, hid e he hk⟩
          rw [List.mem_append, not_or]
          exact ⟨hk, hval e he hk⟩
    refine ⟨fun e => hfun.keys, ?_, ?_⟩
    · have := hfun.values_nodup hf.isometry
      rw [List.map_map] at this
      exact this
    · intro e
      constructor
      · intro h
        obtain ⟨p, hp, rfl⟩ := List.mem_map.1 h
        obtain ⟨h5, h6⟩ := (hfun.2 p.1 p.2).1 hp
        rw [h6]; exact hf.isometry.maps _ h5
      · intro h
        obtain ⟨x, hx, rfl⟩ := hf.isometry.surj h
        exact List.mem_map.2 ⟨_, (hfun.2 x (f x)).2 ⟨hx, rfl⟩, rfl⟩

/-- the extension is unique -/
theorem ExtendsTo.unique (hS : S.Complete) (hT : T.Complete) {d : PyDict Int Int} {f g : Int → Int} (hl : ∀ k ∈ d.keys, S.IsLabel k)
    (hf : S.ExtendsTo T d f) (hg : S.ExtendsTo T d g) : ∀ e, S.IsLabel e → f e = g e := by
  intro e he
  by_cases h : ∃ k ∈ d.keys, S.Joined k e
  · obtain ⟨k, hk, hj⟩ := h
    obtain ⟨p, hp, rfl⟩ := List.mem_map.1 hk
    have hpl := hl _ hk
    induction hj with
    | refl => rw [hf.extends_map p.1 p.2 hp, hg.extends_map p.1 p.2 hp]
    | tail hj hadj ih =>
      have hb := hS.joined_isLabel hj hpl
      have := ih hb
      rcases hadj with rfl | ⟨c, hgl⟩
      · rw [hf.isometry.inverts _ hb, hg.isometry.inverts _ hb, this]
      · rw [← hS.nxt_of_glues hgl, hf.isometry.nxt hS hT hb, hg.isometry.nxt hS hT hb, this]
  · have h' : ∀ k ∈ d.keys, ¬ S.Joined k e := fun k hk hj => h ⟨k, hk, hj⟩
    rw [hf.identity e he h', hg.identity e he h']

end Triangulation
end Curver

namespace Curver
namespace Triangulation
variable {S T : Triangulation}

theorem fill_nodup (used : List Int) : ∀ (l : List Int) (d d' : PyDict Int Int), d.keys.Nodup →
    l.foldlM (S.fillIdentity T used) d = .ok d' → d'.keys.Nodup := by
  intro l
  induction l with
  | nil => intro d d' h h'; cases h'; exact h
  | cons e l ih =>
    intro d d' h h'
    rw [List.foldlM_cons, py_bind_eq_ok] at h'
    obtain ⟨d1, h1, h2⟩ := h'
    refine ih d1 d' ?_ h2
    unfold fillIdentity at h1
    split at h1
    · simp only [py_bind_eq_ok] at h1
      obtain ⟨c, _, c', _, h3⟩ := h1
      split at h3
      · cases h3
      · cases h3; exact PyDict.nodup_keys_set h _ _
    · cases h1; exact h

theorem Valid.findIsometry_zeta (hS : S.Valid) (hT : T.Valid) {d : PyDict Int Int} (hd : d.keys.Nodup)
    (hl : ∀ p ∈ d, S.IsLabel p.1 ∧ T.IsLabel p.2) {m : LMove} (h : S.findIsometry T d = .ok m) : T.zeta = S.zeta := by
  classical
  have hSc := hS.comp
  have hTc := hT.comp
  obtain ⟨so, hso, _⟩ := hSc.orders_ok
  obtain ⟨ta, hta, _⟩ := hTc.orders_ok
  have hstep : S.findIsometry T d = (S.extendMap T so ta (d.length + S.labels.length + 1) d d.reverse >>= fun d' =>
      S.labels.foldlM (S.fillIdentity T (d'.keys ++ d'.values)) d' >>= fun d'' =>
        if bijective S T d'' then LMove.isometry S T d'' else .error .valueError) := by
    unfold findIsometry
    simp only [PyDict.ofList_of_nodup d hd, hso, hta, py_bind_ok]
    congr 1
    funext d'
    congr 1
    funext d''
    exact checks_eq S T d''
  rw [h] at hstep
  have hstep := hstep.symm
  rw [py_bind_eq_ok] at hstep
  obtain ⟨d', h1, h2⟩ := hstep
  rw [py_bind_eq_ok] at h2
  obtain ⟨d'', h2, h3⟩ := h2
  have hn : d'.keys.Nodup := by
    rcases extendMap_main hSc hTc hso hta (d0 := d) (d.length + S.labels.length + 1) d d.reverse (extInv_init hd hl) (by
      have : S.unmapped d ≤ S.labels.length := List.length_filter_le _ _
      rw [List.length_reverse]; omega) with ⟨d2, k1, k2, k3⟩ | ⟨k1, k2⟩
    · rw [h1] at k1; cases k1; exact k2.nodup
    · rw [h1] at k1; cases k1
  have hn' := fill_nodup _ _ _ _ hn h2
  split at h3
  · rename_i hb
    obtain ⟨b1, b2, b3⟩ := hb
    have p1 : d''.keys.Perm S.labels := (List.perm_ext_iff_of_nodup hn' nodup_labels).2 (fun e => by rw [b1, mem_labels])
    have p2 : d''.values.Perm T.labels := (List.perm_ext_iff_of_nodup b2 nodup_labels).2 (fun e => by rw [b3, mem_labels])
    have l1 := p1.length_eq
    have l2 := p2.length_eq
    rw [length_labels] at l1 l2
    unfold PyDict.keys at l1
    unfold PyDict.values at l2
    rw [List.length_map] at l1 l2
    omega
  · cases h3

end Triangulation
end Curver
