import Verif.Spec.Pachner
import Verif.Proofs.PLMoves
import Verif.Proofs.LamArith
import Verif.Proofs.TriangulationBuild

namespace Curver
open Triangulation
namespace Triangulation
variable {T : Triangulation} {ch : List Tri}

/-- the triangles produced by the loop -/
def splitTris (ch : List Tri) : Nat → List Tri → List Tri
  | _, [] => []
  | z, t :: ts => if t ∈ ch then
      [Tri.create t.x (inv ((z : Int) + 2)) ((z : Int) + 1), Tri.create t.y (inv (z : Int)) ((z : Int) + 2), Tri.create t.z (inv ((z : Int) + 1)) (z : Int)] ++ splitTris ch (z + 3) ts
    else [Tri.create t.x t.y t.z] ++ splitTris ch z ts

/-- the rows produced by the loop for one triangle -/
def rows3 (z : Nat) (t : Tri) : Mat :=
  let E := fun (x : Int) => Mat.V z (norm x).toNat
  let plus := List.zipWith (fun x y : Int => x + y)
  let minus := List.zipWith (fun x y : Int => x - y)
  [minus (plus (E t.y) (E t.z)) (E t.x), minus (plus (E t.z) (E t.x)) (E t.y), minus (plus (E t.x) (E t.y)) (E t.z)]

theorem fold_pachner (z : Nat) : ∀ (ts : List Tri) (st : PachnerState), ts.foldl (pachnerStep z ch) st =
    ⟨st.triangles ++ splitTris ch st.zeta ts, st.rows ++ (ts.filter (· ∈ ch)).flatMap (rows3 z), st.zeta + 3 * (ts.filter (· ∈ ch)).length⟩ := by
  intro ts
  induction ts with
  | nil => intro st; simp [splitTris]
  | cons t ts ih =>
    intro st
    rw [List.foldl_cons, ih]
    unfold pachnerStep
    by_cases h : t ∈ ch
    · simp only [h, if_true, splitTris, decide_true, List.filter_cons_of_pos, List.flatMap_cons, List.length_cons, rows3]
      simp only [List.append_assoc, PachnerState.mk.injEq, true_and]
      omega
    · simp only [h, if_false, splitTris, decide_false, Bool.false_eq_true, not_false_eq_true, List.filter_cons_of_neg, List.append_assoc]

theorem splitTris_canonical : ∀ (ts : List Tri) (z : Nat), ∀ t ∈ splitTris ch z ts, t.x ≤ t.y ∧ t.x ≤ t.z := by
  intro ts
  induction ts with
  | nil => intro z t h; simp [splitTris] at h
  | cons t ts ih =>
    intro z t' h'
    unfold splitTris at h'
    split at h'
    · simp only [List.mem_append, List.mem_cons, List.not_mem_nil, or_false] at h'
      rcases h' with (rfl | rfl | rfl) | h'
      · exact Tri.create_canonical _ _ _
      · exact Tri.create_canonical _ _ _
      · exact Tri.create_canonical _ _ _
      · exact ih _ _ h'
    · simp only [List.mem_append, List.mem_cons, List.not_mem_nil, or_false] at h'
      rcases h' with rfl | h'
      · exact Tri.create_canonical _ _ _
      · exact ih _ _ h'

theorem splitTris_length : ∀ (ts : List Tri) (z : Nat), (splitTris ch z ts).length = ts.length + 2 * (ts.filter (· ∈ ch)).length := by
  intro ts
  induction ts with
  | nil => intro z; simp [splitTris]
  | cons t ts ih =>
    intro z
    unfold splitTris
    by_cases h : t ∈ ch
    · simp only [h, if_true, List.length_append, ih, decide_true, List.filter_cons_of_pos, List.length_cons, List.length_nil]; omega
    · simp only [h, if_false, List.length_append, ih, decide_false, Bool.false_eq_true, not_false_eq_true, List.filter_cons_of_neg, List.length_cons, List.length_nil]; omega

theorem mem_splitTris_kept : ∀ (ts : List Tri) (z : Nat) (t : Tri), t ∈ ts → t ∉ ch → Tri.create t.x t.y t.z ∈ splitTris ch z ts := by
  intro ts
  induction ts with
  | nil => intro z t h; cases h
  | cons t ts ih =>
    intro z t' h h'
    unfold splitTris
    rcases List.mem_cons.1 h with rfl | h
    · simp [h']
    · split <;> exact List.mem_append_right _ (ih _ _ h h')

/-- the new triangles inside the `i`-th chosen triangle -/
theorem mem_splitTris_split : ∀ (ts : List Tri) (z : Nat) (i : Nat) (t : Tri), (ts.filter (· ∈ ch))[i]? = some t →
    Tri.create t.x (inv ((z : Int) + 3 * i + 2)) ((z : Int) + 3 * i + 1) ∈ splitTris ch z ts ∧
    Tri.create t.y (inv ((z : Int) + 3 * i)) ((z : Int) + 3 * i + 2) ∈ splitTris ch z ts ∧
    Tri.create t.z (inv ((z : Int) + 3 * i + 1)) ((z : Int) + 3 * i) ∈ splitTris ch z ts := by
  intro ts
  induction ts with
  | nil => intro z i t h; simp at h
  | cons t ts ih =>
    intro z i t' h
    unfold splitTris
    by_cases hc : t ∈ ch
    · rw [List.filter_cons_of_pos (by simpa using hc)] at h
      simp only [hc, if_true]
      rcases i with _ | i
      · simp only [List.getElem?_cons_zero, Option.some.injEq] at h
        subst h
        simp
      · rw [List.getElem?_cons_succ] at h
        obtain ⟨h1, h2, h3⟩ := ih (z + 3) i t' h
        push_cast at *
        rw [show (z : Int) + 3 + 3 * i = z + 3 * (i + 1) by ring] at h1 h2 h3
        exact ⟨List.mem_append_right _ h1, List.mem_append_right _ h2, List.mem_append_right _ h3⟩
    · rw [List.filter_cons_of_neg (by simpa using hc)] at h
      simp only [hc, if_false]
      obtain ⟨h1, h2, h3⟩ := ih z i t' h
      exact ⟨List.mem_append_right _ h1, List.mem_append_right _ h2, List.mem_append_right _ h3⟩

/-- every new triangle is one of these -/
theorem of_mem_splitTris : ∀ (ts : List Tri) (z : Nat) (τ : Tri), τ ∈ splitTris ch z ts →
    (∃ t ∈ ts, t ∉ ch ∧ τ = Tri.create t.x t.y t.z) ∨ ∃ (i : Nat) (t : Tri), (ts.filter (· ∈ ch))[i]? = some t ∧
      (τ = Tri.create t.x (inv ((z : Int) + 3 * i + 2)) ((z : Int) + 3 * i + 1) ∨
       τ = Tri.create t.y (inv ((z : Int) + 3 * i)) ((z : Int) + 3 * i + 2) ∨
       τ = Tri.create t.z (inv ((z : Int) + 3 * i + 1)) ((z : Int) + 3 * i)) := by
  intro ts
  induction ts with
  | nil => intro z τ h; simp [splitTris] at h
  | cons t ts ih =>
    intro z τ h
    unfold splitTris at h
    by_cases hc : t ∈ ch
    · simp only [hc, if_true] at h
      rw [List.filter_cons_of_pos (by simpa using hc)]
      rcases List.mem_append.1 h with h | h
      · right
        refine ⟨0, t, rfl, ?_⟩
        simpa using h
      · rcases ih _ _ h with ⟨t', h1, h2⟩ | ⟨i, t', h1, h2⟩
        · exact .inl ⟨t', List.mem_cons_of_mem _ h1, h2⟩
        · right
          refine ⟨i + 1, t', h1, ?_⟩
          push_cast at h2 ⊢
          rw [show (z : Int) + 3 + 3 * i = z + 3 * (i + 1) by ring] at h2
          exact h2
    · simp only [hc, if_false] at h
      rw [List.filter_cons_of_neg (by simpa using hc)]
      rcases List.mem_append.1 h with h | h
      · exact .inl ⟨t, by simp, hc, by simpa using h⟩
      · rcases ih _ _ h with ⟨t', h1, h2⟩ | h
        · exact .inl ⟨t', List.mem_cons_of_mem _ h1, h2⟩
        · exact .inr h

theorem glues_of_create {S : Triangulation} {a b c : Int} (h : Tri.create a b c ∈ S.triangles) : S.Glues a b c := by
  unfold Glues
  rcases Tri.create_mem a b c with e | e | e
  · rw [e] at h; exact .inl h
  · rw [e] at h; exact .inr (.inl h)
  · rw [e] at h; exact .inr (.inr h)

/-- what the new triangulation looks like -/
structure Split (T : Triangulation) (ch : List Tri) (T' : Triangulation) : Prop where
  valid : T'.Valid
  zeta : T'.zeta = T.zeta + 3 * (T.triangles.filter (· ∈ ch)).length
  kept : ∀ t ∈ T.triangles, t ∉ ch → T'.Glues t.x t.y t.z
  split : ∀ (i : Nat) (t : Tri), (T.triangles.filter (· ∈ ch))[i]? = some t →
    T'.Glues t.x (inv ((T.zeta : Int) + 3 * i + 2)) ((T.zeta : Int) + 3 * i + 1) ∧ T'.Glues t.y (inv ((T.zeta : Int) + 3 * i)) ((T.zeta : Int) + 3 * i + 2) ∧
    T'.Glues t.z (inv ((T.zeta : Int) + 3 * i + 1)) ((T.zeta : Int) + 3 * i)
  only : ∀ Q : Int → Int → Int → Prop, (∀ a b c, Q a b c → Q b c a) → (∀ t ∈ T.triangles, t ∉ ch → Q t.x t.y t.z) →
    (∀ (i : Nat) (t : Tri), (T.triangles.filter (· ∈ ch))[i]? = some t →
      Q t.x (inv ((T.zeta : Int) + 3 * i + 2)) ((T.zeta : Int) + 3 * i + 1) ∧ Q t.y (inv ((T.zeta : Int) + 3 * i)) ((T.zeta : Int) + 3 * i + 2) ∧
      Q t.z (inv ((T.zeta : Int) + 3 * i + 1)) ((T.zeta : Int) + 3 * i)) → ∀ a b c, T'.Glues a b c → Q a b c

theorem splitTris_complete (hT : T.Valid) : (⟨splitTris ch T.zeta T.triangles⟩ : Triangulation).Complete := by
  have h3 := hT.comp.three_length
  have hz : (⟨splitTris ch T.zeta T.triangles⟩ : Triangulation).zeta = T.zeta + 3 * (T.triangles.filter (· ∈ ch)).length := by
    unfold zeta at h3 ⊢
    simp only [splitTris_length]
    omega
  have hlab : ∀ a b c e : Int, Tri.create a b c ∈ splitTris ch T.zeta T.triangles → (e = a ∨ e = b ∨ e = c) →
      e ∈ (⟨splitTris ch T.zeta T.triangles⟩ : Triangulation).signature := by
    intro a b c e h he
    unfold signature
    rw [List.mem_flatMap]
    refine ⟨_, h, (Tri.create_labels_perm a b c).mem_iff.2 ?_⟩
    simpa using he
  unfold Complete
  refine (List.Subperm.perm_of_length_le ?_ ?_).symm
  · refine List.subperm_of_subset nodup_labels ?_
    intro e he
    rw [mem_labels] at he
    unfold IsLabel at he
    rw [hz] at he
    by_cases ho : T.IsLabel e
    · obtain ⟨t, ht, het, _⟩ := hT.comp.exists_triangle ho
      have het' : e = t.x ∨ e = t.y ∨ e = t.z := by simpa [Tri.labels] using het
      by_cases hc : t ∈ ch
      · obtain ⟨i, hi⟩ := List.getElem?_of_mem (List.mem_filter.2 ⟨ht, by simpa using hc⟩ : t ∈ T.triangles.filter (· ∈ ch))
        obtain ⟨k1, k2, k3⟩ := mem_splitTris_split T.triangles T.zeta i t hi
        rcases het' with rfl | rfl | rfl
        · exact hlab _ _ _ _ k1 (.inl rfl)
        · exact hlab _ _ _ _ k2 (.inl rfl)
        · exact hlab _ _ _ _ k3 (.inl rfl)
      · exact hlab _ _ _ _ (mem_splitTris_kept _ _ _ ht hc) het'
    · unfold IsLabel at ho
      have hn : (T.zeta : Int) ≤ norm e ∧ norm e < T.zeta + 3 * ((T.triangles.filter (· ∈ ch)).length : Int) := by
        unfold norm inv; omega
      have hin : e = norm e ∨ e = inv (norm e) := by unfold norm inv; omega
      have hi : ((norm e - T.zeta) / 3).toNat < (T.triangles.filter (· ∈ ch)).length := by omega
      obtain ⟨k1, k2, k3⟩ := mem_splitTris_split T.triangles T.zeta _ _ (List.getElem?_eq_getElem hi)
      generalize hj : ((norm e - T.zeta) / 3).toNat = j at *
      have hcase : norm e = (T.zeta : Int) + 3 * j ∨ norm e = (T.zeta : Int) + 3 * j + 1 ∨ norm e = (T.zeta : Int) + 3 * j + 2 := by omega
      rcases hcase with hk | hk | hk <;> rw [hk] at hin <;> rcases hin with hin | hin <;> rw [hin]
      · exact hlab _ _ _ _ k3 (by simp)
      · exact hlab _ _ _ _ k2 (by simp)
      · exact hlab _ _ _ _ k1 (by simp)
      · exact hlab _ _ _ _ k3 (by simp)
      · exact hlab _ _ _ _ k2 (by simp)
      · exact hlab _ _ _ _ k1 (by simp)
  · rw [length_labels, hz]
    have : ∀ ts : List Tri, (ts.flatMap Tri.labels).length = 3 * ts.length := by
      intro ts; induction ts with
      | nil => rfl
      | cons t ts ih => rw [List.flatMap_cons, List.length_append, ih]; simp [Tri.labels]; omega
    unfold signature
    rw [this]
    simp only [splitTris_length]
    omega

theorem create_split (hT : T.Valid) (ch : List Tri) : ∃ T', create (splitTris ch T.zeta T.triangles) = .ok T' ∧ Split T ch T' := by
  obtain ⟨T', h1, h2, h3⟩ := create_ok (splitTris_canonical T.triangles T.zeta) (splitTris_complete (ch := ch) hT)
  refine ⟨T', h1, h2, ?_, ?_, ?_, ?_⟩
  · have h3' := hT.comp.three_length
    have := h3.length_eq
    rw [splitTris_length] at this
    unfold zeta at *
    omega
  · intro t ht hc
    exact glues_of_create (h3.mem_iff.2 (mem_splitTris_kept _ _ _ ht hc))
  · intro i t hi
    obtain ⟨k1, k2, k3⟩ := mem_splitTris_split T.triangles T.zeta i t hi
    exact ⟨glues_of_create (h3.mem_iff.2 k1), glues_of_create (h3.mem_iff.2 k2), glues_of_create (h3.mem_iff.2 k3)⟩
  · intro Q hQ q1 q2
    have key : ∀ a b c, (⟨a, b, c⟩ : Tri) ∈ T'.triangles → Q a b c := by
      intro a b c h
      have hr : ∀ x y z, (⟨a, b, c⟩ : Tri) = Tri.create x y z → Q x y z → Q a b c := by
        intro x y z he hq
        rcases Tri.create_mem x y z with e | e | e <;> rw [e] at he <;> cases he
        · exact hq
        · exact hQ _ _ _ hq
        · exact hQ _ _ _ (hQ _ _ _ hq)
      rcases of_mem_splitTris _ _ _ (h3.mem_iff.1 h) with ⟨t, ht, hc, he⟩ | ⟨i, t, hi, he⟩
      · exact hr _ _ _ he (q1 t ht hc)
      · obtain ⟨k1, k2, k3⟩ := q2 i t hi
        rcases he with he | he | he
        · exact hr _ _ _ he k1
        · exact hr _ _ _ he k2
        · exact hr _ _ _ he k3
    rintro a b c (h | h | h)
    · exact key _ _ _ h
    · exact hQ _ _ _ (hQ _ _ _ (key _ _ _ h))
    · exact hQ _ _ _ (key _ _ _ h)

end Triangulation
end Curver
