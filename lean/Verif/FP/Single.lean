import Verif.FP.Double
/-!
# Single precision arithmetic

`typedefs.h` 74 (`typedef float exseis_Trace_value`).  As `FP/Double.lean`, for IEEE-754 binary32: a finite float is the rational
number it denotes, and the result of an operation is the exact result rounded to nearest, ties to even.  Signed zeros are
identified.  Overflow is not modelled: the model is used where no result is larger than an operand or than one.
-/
namespace Verif.FP32
open Verif.FP (roundEven roundEven_err roundEven_int roundEven_eq roundEven_nearest two_zpow_pos)

/-- Exponent of the last place of the float nearest to `x ≠ 0`. Not code of /repo: IEEE-754 and the C++ library. -/
def ulpExp (x : ℚ) : ℤ := max (Int.log 2 |x| - 23) (-149)

/-- Rounding of an exact result to float. Not code of /repo: IEEE-754 and the C++ library. -/
def rnd (x : ℚ) : ℚ := if x = 0 then 0 else roundEven (x / 2 ^ ulpExp x) * 2 ^ ulpExp x

/-- The finite floats (up to overflow). Not code of /repo: IEEE-754 and the C++ library. -/
def IsSingle (x : ℚ) : Prop := ∃ (n e : ℤ), |n| < 2 ^ 24 ∧ -149 ≤ e ∧ x = n * 2 ^ e

theorem rnd_zero : rnd 0 = 0 := by simp [rnd]

theorem rnd_of_ne {x : ℚ} (h : x ≠ 0) : rnd x = roundEven (x / 2 ^ ulpExp x) * 2 ^ ulpExp x := by
  simp [rnd, h]

theorem log_le {x : ℚ} (h : x ≠ 0) : (2 : ℚ) ^ Int.log 2 |x| ≤ |x| :=
  Int.zpow_log_le_self (b := 2) (by norm_num) (abs_pos.mpr h)

theorem lt_log {x : ℚ} : |x| < (2 : ℚ) ^ (Int.log 2 |x| + 1) :=
  Int.lt_zpow_succ_log_self (b := 2) (by norm_num) _

/-- Absolute error: half a unit in the last place. -/
theorem rnd_err_ulp {x : ℚ} (h : x ≠ 0) : |rnd x - x| ≤ 2 ^ ulpExp x / 2 := by
  have hp := two_zpow_pos (ulpExp x)
  have h1 := roundEven_err (x / 2 ^ ulpExp x)
  rw [rnd_of_ne h]
  have : (roundEven (x / 2 ^ ulpExp x) : ℚ) * 2 ^ ulpExp x - x =
      (roundEven (x / 2 ^ ulpExp x) - x / 2 ^ ulpExp x) * 2 ^ ulpExp x := by
    field_simp
  rw [this, abs_mul, abs_of_pos hp]
  nlinarith

/-- Relative error in the normal range. -/
theorem rnd_err {x : ℚ} (h : (2 : ℚ) ^ (-126 : ℤ) ≤ |x|) : |rnd x - x| ≤ |x| / 2 ^ 24 := by
  have hx : x ≠ 0 := by
    intro h0; rw [h0, abs_zero] at h; exact absurd h (not_le.mpr (two_zpow_pos _))
  have h1 := rnd_err_ulp hx
  have h2 := log_le hx
  have h3 : -126 ≤ Int.log 2 |x| := by
    have := Int.log_mono_right (b := 2) (two_zpow_pos (-126)) h
    have h4 : Int.log 2 ((2 : ℚ) ^ (-126 : ℤ)) = -126 := by
      have := Int.log_zpow (R := ℚ) (b := 2) (by norm_num) (-126)
      exact_mod_cast this
    omega
  have h5 : ulpExp x = Int.log 2 |x| - 23 := by unfold ulpExp; omega
  rw [h5, zpow_sub₀ (by norm_num)] at h1
  have : (2 : ℚ) ^ (23 : ℤ) = 2 ^ 23 := by norm_cast
  rw [this] at h1
  calc |rnd x - x| ≤ _ := h1
    _ = (2 : ℚ) ^ Int.log 2 |x| / 2 ^ 24 := by ring
    _ ≤ |x| / 2 ^ 24 := by gcongr

theorem ulpExp_le {x : ℚ} {E : ℤ} (h : |x| < 2 ^ (E + 24)) (hE : -149 ≤ E) (hx : x ≠ 0) : ulpExp x ≤ E := by
  unfold ulpExp
  have h2 := log_le hx
  have h3 : Int.log 2 |x| < E + 24 := by
    have := lt_of_le_of_lt h2 h
    exact (zpow_lt_zpow_iff_right₀ (by norm_num : (1 : ℚ) < 2)).mp this
  omega

/-- Floats are not changed by rounding. -/
theorem rnd_single {x : ℚ} (h : IsSingle x) : rnd x = x := by
  obtain ⟨n, E, hn, hE, rfl⟩ := h
  by_cases hx : (n : ℚ) * 2 ^ E = 0
  · rw [hx, rnd_zero]
  have hp := two_zpow_pos E
  have hlt : |(n : ℚ) * 2 ^ E| < 2 ^ (E + 24) := by
    rw [abs_mul, abs_of_pos hp, zpow_add₀ (by norm_num), mul_comm]
    have : |(n : ℚ)| < 2 ^ (24 : ℤ) := by
      have : ((|n| : ℤ) : ℚ) < ((2 ^ 24 : ℤ) : ℚ) := by exact_mod_cast hn
      rw [Int.cast_abs] at this
      refine lt_of_lt_of_eq this ?_
      norm_num
    exact mul_lt_mul_of_pos_left this hp
  have hle := ulpExp_le hlt hE hx
  rw [rnd_of_ne hx]
  generalize ulpExp ((n : ℚ) * 2 ^ E) = e at hle
  obtain ⟨k, rfl⟩ : ∃ k : ℕ, E = e + k := ⟨(E - e).toNat, by omega⟩
  have hpe := two_zpow_pos e
  have hdiv : (n : ℚ) * 2 ^ (e + (k : ℤ)) / 2 ^ e = ((n * 2 ^ k : ℤ) : ℚ) := by
    rw [zpow_add₀ (by norm_num), zpow_natCast]
    push_cast
    field_simp
  rw [hdiv, roundEven_int]
  push_cast
  rw [zpow_add₀ (by norm_num), zpow_natCast]
  ring

theorem isSingle_int {n : ℤ} (h : |n| < 2 ^ 24) : IsSingle n := ⟨n, 0, h, by norm_num, by simp⟩

theorem rnd_int {n : ℤ} (h : |n| < 2 ^ 24) : rnd n = n := rnd_single (isSingle_int h)

/-- No float is nearer than the rounded one. -/
theorem rnd_nearest {x y : ℚ} (hy : IsSingle y) : |rnd x - x| ≤ |y - x| := by
  by_cases hx : x = 0
  · subst hx; rw [rnd_zero]; simp
  obtain ⟨n, E, hn, hE, rfl⟩ := hy
  have hp := two_zpow_pos (ulpExp x)
  -- multiples of the last place are no nearer
  have key : ∀ m : ℤ, |rnd x - x| ≤ |(m : ℚ) * 2 ^ ulpExp x - x| := by
    intro m
    have h1 := roundEven_nearest (x / 2 ^ ulpExp x) m
    rw [rnd_of_ne hx]
    have e1 : ∀ q : ℚ, q * 2 ^ ulpExp x - x = (q - x / 2 ^ ulpExp x) * 2 ^ ulpExp x := by
      intro q; field_simp
    rw [e1, e1, abs_mul, abs_mul]
    exact mul_le_mul_of_nonneg_right h1 (abs_nonneg _)
  by_cases hle : ulpExp x ≤ E
  · obtain ⟨k, hk⟩ : ∃ k : ℕ, E = ulpExp x + k := ⟨(E - ulpExp x).toNat, by omega⟩
    have := key (n * 2 ^ k)
    rw [hk, zpow_add₀ (by norm_num), zpow_natCast]
    push_cast at this
    rw [show (n : ℚ) * (2 ^ ulpExp x * 2 ^ k) = n * 2 ^ k * 2 ^ ulpExp x by ring]
    exact this
  · have hlog : ulpExp x = Int.log 2 |x| - 23 := by unfold ulpExp at hle ⊢; omega
    have hL := log_le hx
    have hy : |(n : ℚ) * 2 ^ E| ≤ 2 ^ Int.log 2 |x| := by
      rw [abs_mul, abs_of_pos (two_zpow_pos E)]
      have h1 : |(n : ℚ)| ≤ 2 ^ 24 := by
        have : ((|n| : ℤ) : ℚ) < ((2 ^ 24 : ℤ) : ℚ) := by exact_mod_cast hn
        rw [Int.cast_abs] at this
        push_cast at this
        exact le_of_lt this
      calc |(n : ℚ)| * 2 ^ E ≤ 2 ^ 24 * 2 ^ E := mul_le_mul_of_nonneg_right h1 (le_of_lt (two_zpow_pos E))
        _ = (2 : ℚ) ^ (24 + E) := by rw [zpow_add₀ (by norm_num)]; norm_cast
        _ ≤ 2 ^ Int.log 2 |x| := zpow_le_zpow_right₀ (by norm_num) (by omega)
    have hpow : (2 : ℚ) ^ Int.log 2 |x| = 2 ^ 23 * 2 ^ ulpExp x := by
      rw [hlog]
      have : (2 : ℚ) ^ (23 : ℕ) = 2 ^ (23 : ℤ) := by norm_cast
      rw [this, ← zpow_add₀ (by norm_num)]
      congr 1; ring
    generalize (n : ℚ) * 2 ^ E = y at hy
    rcases le_or_gt 0 x with h0 | h0
    · have h1 := key (2 ^ 23)
      rw [Int.cast_pow, Int.cast_ofNat, ← hpow] at h1
      rw [abs_of_nonneg h0] at *
      refine le_trans h1 ?_
      rw [abs_le] at hy
      rw [abs_sub_comm, abs_sub_comm y, abs_of_nonneg (by linarith), abs_of_nonneg (by linarith)]
      linarith
    · have h1 := key (-2 ^ 23)
      rw [Int.cast_neg, Int.cast_pow, Int.cast_ofNat, neg_mul, ← hpow] at h1
      rw [abs_of_neg h0] at *
      refine le_trans h1 ?_
      rw [abs_le] at hy
      rw [abs_of_nonneg (by linarith), abs_of_nonneg (by linarith)]
      linarith

/-- Rounding does not cross a float. -/
theorem rnd_ge {x y : ℚ} (hy : IsSingle y) (h : y ≤ x) : y ≤ rnd x := by
  by_contra hc
  have hc := lt_of_not_ge hc
  have := rnd_nearest (x := x) hy
  rw [abs_of_nonpos (by linarith), abs_of_nonpos (by linarith)] at this
  linarith

theorem rnd_le {x y : ℚ} (hy : IsSingle y) (h : x ≤ y) : rnd x ≤ y := by
  by_contra hc
  have hc := lt_of_not_ge hc
  have := rnd_nearest (x := x) hy
  rw [abs_of_nonneg (by linarith), abs_of_nonneg (by linarith)] at this
  linarith

/-- Evaluation of a rounding: exponent and significand given. -/
theorem rnd_eval {x : ℚ} (n E : ℤ) (hE : -126 ≤ E) (h1 : (2 : ℚ) ^ E ≤ |x|) (h2 : |x| < 2 ^ (E + 1))
    (h3 : |x / 2 ^ (E - 23) - n| < 1 / 2) : rnd x = n * 2 ^ (E - 23) := by
  have hx : x ≠ 0 := by
    intro h0; rw [h0, abs_zero] at h1; exact absurd h1 (not_le.mpr (two_zpow_pos _))
  have hlog : Int.log 2 |x| = E := by
    have a := log_le hx
    have b := lt_log (x := x)
    have c := (zpow_lt_zpow_iff_right₀ (by norm_num : (1 : ℚ) < 2)).mp (lt_of_le_of_lt a h2)
    have d := (zpow_lt_zpow_iff_right₀ (by norm_num : (1 : ℚ) < 2)).mp (lt_of_le_of_lt h1 b)
    omega
  have he : ulpExp x = E - 23 := by unfold ulpExp; rw [hlog]; omega
  rw [rnd_of_ne hx, he, roundEven_eq h3]

/-- Absolute error below a power of two. -/
theorem rnd_err_lt {x : ℚ} {E : ℤ} (h : |x| < 2 ^ (E + 24)) (hE : -149 ≤ E) : |rnd x - x| ≤ 2 ^ E / 2 := by
  by_cases hx : x = 0
  · subst hx
    rw [rnd_zero, sub_zero, abs_zero]
    have := two_zpow_pos E
    positivity
  · have h1 := rnd_err_ulp hx
    have h2 : (2 : ℚ) ^ ulpExp x ≤ 2 ^ E := zpow_le_zpow_right₀ (by norm_num) (ulpExp_le h hE hx)
    linarith

theorem isSingle_zero : IsSingle 0 := ⟨0, 0, by norm_num, by norm_num, by simp⟩

theorem isSingle_one : IsSingle 1 := ⟨1, 0, by norm_num, by norm_num, by simp⟩

theorem IsSingle.neg {x : ℚ} (h : IsSingle x) : IsSingle (-x) := by
  obtain ⟨n, e, h1, h2, rfl⟩ := h
  exact ⟨-n, e, by rwa [abs_neg], h2, by push_cast; ring⟩

theorem IsSingle.abs {x : ℚ} (h : IsSingle x) : IsSingle |x| := by
  rcases abs_choice x with e | e <;> rw [e]
  · exact h
  · exact h.neg

/-- What rounding gives is a float. -/
theorem isSingle_rnd (x : ℚ) : IsSingle (rnd x) := by
  by_cases hx : x = 0
  · subst hx
    rw [rnd_zero]
    exact isSingle_zero
  · rw [rnd_of_ne hx]
    have hp := two_zpow_pos (ulpExp x)
    have he : -149 ≤ ulpExp x := by unfold ulpExp; omega
    have hlt : |x / 2 ^ ulpExp x| < 2 ^ 24 := by
      rw [abs_div, abs_of_pos hp, div_lt_iff₀ hp]
      refine lt_of_lt_of_le (lt_log (x := x)) ?_
      have e1 : (2 : ℚ) ^ (24 : ℕ) * 2 ^ ulpExp x = 2 ^ ((24 : ℤ) + ulpExp x) := by
        rw [zpow_add₀ (by norm_num)]
        norm_cast
      rw [e1]
      refine zpow_le_zpow_right₀ (by norm_num) ?_
      unfold ulpExp
      omega
    have h1 := roundEven_err (x / 2 ^ ulpExp x)
    generalize hr : roundEven (x / 2 ^ ulpExp x) = r at h1
    generalize x / 2 ^ ulpExp x = y at *
    generalize ulpExp x = e at *
    have h2 : |(r : ℚ)| < 2 ^ 24 + 1 := by
      rw [abs_le] at h1
      rw [abs_lt] at hlt ⊢
      constructor <;> linarith
    have h3 : |r| ≤ 2 ^ 24 := by
      have : ((|r| : ℤ) : ℚ) < ((2 ^ 24 + 1 : ℤ) : ℚ) := by rw [Int.cast_abs]; exact lt_of_lt_of_eq h2 (by norm_num)
      have : |r| < 2 ^ 24 + 1 := by exact_mod_cast this
      omega
    rcases lt_or_eq_of_le h3 with h | h
    · exact ⟨r, e, h, he, rfl⟩
    · rcases abs_choice r with hc | hc
      · rw [hc] at h
        refine ⟨2 ^ 23, e + 1, by norm_num, by omega, ?_⟩
        rw [h, zpow_add₀ (by norm_num)]
        push_cast
        ring
      · rw [hc] at h
        refine ⟨-2 ^ 23, e + 1, by norm_num, by omega, ?_⟩
        rw [show r = -2 ^ 24 by omega, zpow_add₀ (by norm_num)]
        push_cast
        ring

/-- Rounding keeps the order. -/
theorem rnd_mono {x y : ℚ} (h : x ≤ y) : rnd x ≤ rnd y := by
  by_contra hc
  have hc := lt_of_not_ge hc
  have h1 : rnd y < x := by
    by_contra hd
    have := rnd_le (isSingle_rnd y) (le_of_not_gt hd)
    linarith
  have h2 := rnd_nearest (x := y) (isSingle_rnd x)
  have h3 := rnd_nearest (x := x) (isSingle_rnd y)
  rw [abs_of_nonpos (a := rnd y - y) (by linarith)] at h2
  rw [abs_of_nonpos (a := rnd y - x) (by linarith)] at h3
  rcases le_or_gt (rnd x) y with h4 | h4
  · rw [abs_of_nonpos (by linarith)] at h2
    linarith
  · rw [abs_of_pos (by linarith)] at h2 h3
    have : x = y := by linarith
    rw [this] at hc
    exact lt_irrefl _ hc

theorem rnd_abs_le {x y : ℚ} (hy : IsSingle y) (h : |x| ≤ y) : |rnd x| ≤ y := by
  rw [abs_le] at h ⊢
  exact ⟨rnd_ge hy.neg h.1, rnd_le hy h.2⟩

theorem rnd_nonneg {x : ℚ} (h : 0 ≤ x) : 0 ≤ rnd x := rnd_ge isSingle_zero h

theorem rnd_nonpos {x : ℚ} (h : x ≤ 0) : rnd x ≤ 0 := rnd_le isSingle_zero h

end Verif.FP32
