import Verif.Layout.Model
/-!
# Helper lemmas for the layout: no wrap-around below the file size
-/
namespace Verif.Layout

/-- The size of a file of `nt` traces of `ns` samples, as plain arithmetic. -/
abbrev plainSz (nt ns : Nat) : Nat := 3600 + nt * (240 + 4 * ns)

theorem getDOSz_eq {ns : Nat} (h : 240 + 4 * ns < 2 ^ 64) : getDOSz ns = 240 + 4 * ns := by
  unfold getDOSz getDFSz getMDSz
  rw [mul64_eq (by omega), add64_eq (by omega)]; omega

theorem getDFSz_eq {ns : Nat} (h : 240 + 4 * ns < 2 ^ 64) : getDFSz ns = 4 * ns := by
  unfold getDFSz; rw [mul64_eq (by omega)]; omega

theorem dosz_lt {nt ns : Nat} (hnt : 0 < nt) (h : plainSz nt ns < 2 ^ 64) : 240 + 4 * ns < 2 ^ 64 := by
  have : 1 * (240 + 4 * ns) ≤ nt * (240 + 4 * ns) := Nat.mul_le_mul_right _ hnt
  unfold plainSz at h
  generalize nt * (240 + 4 * ns) = P at *
  omega

theorem getFileSz_eq {nt ns : Nat} (h : plainSz nt ns < 2 ^ 64) : getFileSz nt ns = plainSz nt ns := by
  unfold getFileSz getHOSz
  rcases Nat.eq_zero_or_pos nt with rfl | hnt
  · unfold mul64 add64 plainSz; simp
  · rw [getDOSz_eq (dosz_lt hnt h)]
    unfold plainSz at *
    rw [mul64_eq (by omega), add64_eq (by omega)]

theorem plainSz_mono {i nt ns : Nat} (h : i ≤ nt) : plainSz i ns ≤ plainSz nt ns := by
  have : i * (240 + 4 * ns) ≤ nt * (240 + 4 * ns) := Nat.mul_le_mul_right _ h
  unfold plainSz; omega

theorem plainSz_succ (i ns : Nat) : plainSz (i + 1) ns = plainSz i ns + (240 + 4 * ns) := by
  unfold plainSz; rw [Nat.succ_mul]; omega

theorem getDODFLoc_eq {i nt ns : Nat} (hi : i < nt) (h : plainSz nt ns < 2 ^ 64) :
    getDODFLoc i ns = plainSz i ns + 240 := by
  have h1 := plainSz_mono (ns := ns) (show i + 1 ≤ nt by omega)
  have h2 := plainSz_succ i ns
  unfold getDODFLoc getMDSz
  rw [getFileSz_eq (by omega), add64_eq (by omega)]

end Verif.Layout
