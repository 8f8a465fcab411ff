import Verif.Proofs.ShortenMain
import Verif.Proofs.ArcShorten

/-! # `shorten` of laminations that are short already: the two models agree -/

namespace Curver
namespace Lam
variable {P : Lam Int → Py LamClass}

theorem nonPeripheral_tri {L M : Lam Int} (h : L.nonPeripheral P (promote := false) = .ok M) : M.tri = L.tri := by
  unfold nonPeripheral Triangulation.lamination at h
  simp only [py_bind_eq_ok] at h
  obtain ⟨_, -, _, -, h⟩ := h
  cases h
  rfl

theorem shortenAll_of_shorten {L s : Lam Int} {i : Enc} (h : L.shorten P = .ok (s, i)) (hb : s.isShort P = .ok true) (dflt slow : Int → Int → Bool) (n : Nat) :
    L.shortenAll P dflt (n + 2) slow = .ok (s, i) := by
  unfold shorten at h
  simp only [py_bind_eq_ok] at h
  obtain ⟨per, h1, lam, h2, j, h3, ⟨g, a, c⟩, h4, h5⟩ := h
  have ht := nonPeripheral_tri h2
  dsimp only at h5
  split at h5
  swap
  · cases h5
  rename_i hz
  simp only [py_bind_eq_ok] at h5
  obtain ⟨ct, h5, sh, h6, h7⟩ := h5
  cases h7
  unfold shortenAll shortenStep
  rw [h1, py_bind_ok, h2, py_bind_ok, h3, py_bind_ok]
  have hr : rounds (shortenAll P dflt (n + 1) dflt) P slow L.tri.zeta (n + 1) (n + 1) ⟨lam, per, i, [], [], true⟩ = .ok ⟨⟨lam.tri, g, .integral⟩, per, i, a, c, true⟩ := by
    unfold rounds
    unfold subtractParallel at h4
    dsimp only
    rw [h4, py_bind_ok]
    dsimp only
    rw [if_pos (show Lam.isEmpty ⟨lam.tri, g, .integral⟩ = true from hz)]
    rfl
  rw [hr, py_bind_ok]
  have hre : rebuild P L.tri per a c = .ok s := by
    unfold rebuild
    rw [h5, py_bind_ok]
    exact h6
  dsimp only
  rw [ht, hre, py_bind_ok, hb, py_bind_ok]
  rfl

theorem intersectionAll_of_shorten {R : Type} [CommRing R] [LinearOrder R] [Halvable R] {c s : Lam Int} {i : Enc} (h : c.shorten P = .ok (s, i)) (hb : s.isShort P = .ok true)
    (dflt : Int → Int → Bool) (n : Nat) (L : Lam R) : c.intersectionAll P dflt (n + 2) L = c.intersection P L := by
  unfold intersectionAll intersectionWith intersection
  rw [shortenAll_of_shorten h hb, h]

end Lam
end Curver
