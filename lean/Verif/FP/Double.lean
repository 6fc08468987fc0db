import Mathlib.Data.Int.Log
import Mathlib.Data.Rat.Floor
import Mathlib.Algebra.Order.Round
import Mathlib.Tactic.Linarith
import Mathlib.Tactic.NormNum
import Mathlib.Tactic.FieldSimp
import Mathlib.Tactic.Ring
import Mathlib.Tactic.Positivity
/-!
# Double precision arithmetic

`typedefs.h:61` (`typedef double Floating_point`).  A finite double is the
rational number it denotes; the result of `+ - * /` and of conversion from an
integer is the exact result rounded to nearest, ties to even (IEEE-754
binary64).  Signed zeros are identified.  Infinities and NaN are not modelled:
overflow cannot happen where the model is used (the magnitudes involved are
below 2^70).
-/
namespace Verif.FP

/-- Nearest integer, ties to even. Not code of /repo: IEEE-754 and the C++ library. -/
def roundEven (x : ℚ) : ℤ :=
  if x - ⌊x⌋ < 1 / 2 then ⌊x⌋
  else if 1 / 2 < x - ⌊x⌋ then ⌊x⌋ + 1
  else if ⌊x⌋ % 2 = 0 then ⌊x⌋ else ⌊x⌋ + 1

/-- Exponent of the last place of the double nearest to `x ≠ 0`. Not code of /repo: IEEE-754 and the C++ library. -/
def ulpExp (x : ℚ) : ℤ := max (Int.log 2 |x| - 52) (-1074)

/-- Rounding of an exact result to double. Not code of /repo: IEEE-754 and the C++ library. -/
def rnd (x : ℚ) : ℚ := if x = 0 then 0 else roundEven (x / 2 ^ ulpExp x) * 2 ^ ulpExp x

/-- The finite doubles (up to overflow). Not code of /repo: IEEE-754 and the C++ library. -/
def IsDouble (x : ℚ) : Prop := ∃ (n e : ℤ), |n| < 2 ^ 53 ∧ -1074 ≤ e ∧ x = n * 2 ^ e

/-- `std::lround` / `std::llround`: nearest integer, ties away from zero.
Not code of /repo: IEEE-754 and the C++ library. -/
def lround (x : ℚ) : ℤ := if 0 ≤ x then ⌊x + 1 / 2⌋ else -⌊-x + 1 / 2⌋

/-- Conversion of a floating value to an integer type: towards zero.
Not code of /repo: IEEE-754 and the C++ library. -/
def trunc (x : ℚ) : ℤ := if 0 ≤ x then ⌊x⌋ else -⌊-x⌋

theorem roundEven_err (x : ℚ) : |(roundEven x : ℚ) - x| ≤ 1 / 2 := by
  have h1 := Int.floor_le x
  have h2 := Int.lt_floor_add_one x
  unfold roundEven
  split
  · rw [abs_le]; constructor <;> linarith
  · split
    · push_cast; rw [abs_le]; constructor <;> linarith
    · split
      · rw [abs_le]; constructor <;> linarith
      · push_cast; rw [abs_le]; constructor <;> linarith

theorem roundEven_int (n : ℤ) : roundEven (n : ℚ) = n := by
  unfold roundEven
  rw [if_pos]
  · simp
  · simp

/-- A nearest integer other than at a tie is the rounded one. -/
theorem roundEven_eq {x : ℚ} {n : ℤ} (h : |x - n| < 1 / 2) : roundEven x = n := by
  have h1 := roundEven_err x
  rw [abs_le] at h1
  rw [abs_lt] at h
  have h2 : ((roundEven x - n : ℤ) : ℚ) < 1 := by push_cast; linarith
  have h3 : (-1 : ℚ) < ((roundEven x - n : ℤ) : ℚ) := by push_cast; linarith
  have h4 : roundEven x - n < 1 := by exact_mod_cast h2
  have h5 : -1 < roundEven x - n := by exact_mod_cast h3
  omega

/-- No integer is nearer than the rounded one. -/
theorem roundEven_nearest (x : ℚ) (m : ℤ) : |(roundEven x : ℚ) - x| ≤ |(m : ℚ) - x| := by
  by_contra hc
  have hc := lt_of_not_ge hc
  have h1 := roundEven_err x
  have h2 : |x - m| < 1 / 2 := by rw [abs_sub_comm]; linarith
  rw [roundEven_eq h2] at hc
  exact lt_irrefl _ hc

theorem two_zpow_pos (e : ℤ) : (0 : ℚ) < 2 ^ e := zpow_pos (by norm_num) e

theorem rnd_zero : rnd 0 = 0 := by simp [rnd]

theorem rnd_of_ne {x : ℚ} (h : x ≠ 0) : rnd x = roundEven (x / 2 ^ ulpExp x) * 2 ^ ulpExp x := by
  simp [rnd, h]

theorem log_le {x : ℚ} (h : x ≠ 0) : (2 : ℚ) ^ Int.log 2 |x| ≤ |x| :=
  Int.zpow_log_le_self (b := 2) (by norm_num) (abs_pos.mpr h)

theorem lt_log {x : ℚ} : |x| < (2 : ℚ) ^ (Int.log 2 |x| + 1) :=
  Int.lt_zpow_succ_log_self (b := 2) (by norm_num) _

/-- Absolute error: half a unit in the last place. -/
theorem rnd_err_ulp {x : ℚ} (h : x ≠ 0) : |rnd x - x| ≤ 2 ^ ulpExp x / 2 := by
  have hp := two_zpow_pos (ulpExp x)
  have h1 := roundEven_err (x / 2 ^ ulpExp x)
  rw [rnd_of_ne h]
  have : (roundEven (x / 2 ^ ulpExp x) : ℚ) * 2 ^ ulpExp x - x =
      (roundEven (x / 2 ^ ulpExp x) - x / 2 ^ ulpExp x) * 2 ^ ulpExp x := by
    field_simp
  rw [this, abs_mul, abs_of_pos hp]
  nlinarith

/-- Relative error in the normal range. -/
theorem rnd_err {x : ℚ} (h : (2 : ℚ) ^ (-1022 : ℤ) ≤ |x|) : |rnd x - x| ≤ |x| / 2 ^ 53 := by
  have hx : x ≠ 0 := by
    intro h0; rw [h0, abs_zero] at h; exact absurd h (not_le.mpr (two_zpow_pos _))
  have h1 := rnd_err_ulp hx
  have h2 := log_le hx
  have h3 : -1022 ≤ Int.log 2 |x| := by
    have := Int.log_mono_right (b := 2) (two_zpow_pos (-1022)) h
    have h4 : Int.log 2 ((2 : ℚ) ^ (-1022 : ℤ)) = -1022 := by
      have := Int.log_zpow (R := ℚ) (b := 2) (by norm_num) (-1022)
      exact_mod_cast this
    omega
  have h5 : ulpExp x = Int.log 2 |x| - 52 := by unfold ulpExp; omega
  rw [h5, zpow_sub₀ (by norm_num)] at h1
  have : (2 : ℚ) ^ (52 : ℤ) = 2 ^ 52 := by norm_cast
  rw [this] at h1
  calc |rnd x - x| ≤ _ := h1
    _ = (2 : ℚ) ^ Int.log 2 |x| / 2 ^ 53 := by ring
    _ ≤ |x| / 2 ^ 53 := by gcongr

theorem ulpExp_le {x : ℚ} {E : ℤ} (h : |x| < 2 ^ (E + 53)) (hE : -1074 ≤ E) (hx : x ≠ 0) : ulpExp x ≤ E := by
  unfold ulpExp
  have h2 := log_le hx
  have h3 : Int.log 2 |x| < E + 53 := by
    have := lt_of_le_of_lt h2 h
    exact (zpow_lt_zpow_iff_right₀ (by norm_num : (1 : ℚ) < 2)).mp this
  omega

/-- Doubles are not changed by rounding. -/
theorem rnd_double {x : ℚ} (h : IsDouble x) : rnd x = x := by
  obtain ⟨n, E, hn, hE, rfl⟩ := h
  by_cases hx : (n : ℚ) * 2 ^ E = 0
  · rw [hx, rnd_zero]
  have hp := two_zpow_pos E
  have hlt : |(n : ℚ) * 2 ^ E| < 2 ^ (E + 53) := by
    rw [abs_mul, abs_of_pos hp, zpow_add₀ (by norm_num), mul_comm]
    have : |(n : ℚ)| < 2 ^ (53 : ℤ) := by
      have : ((|n| : ℤ) : ℚ) < ((2 ^ 53 : ℤ) : ℚ) := by exact_mod_cast hn
      rw [Int.cast_abs] at this
      refine lt_of_lt_of_eq this ?_
      norm_num
    exact mul_lt_mul_of_pos_left this hp
  have hle := ulpExp_le hlt hE hx
  rw [rnd_of_ne hx]
  generalize ulpExp ((n : ℚ) * 2 ^ E) = e at hle
  obtain ⟨k, rfl⟩ : ∃ k : ℕ, E = e + k := ⟨(E - e).toNat, by omega⟩
  have hpe := two_zpow_pos e
  have hdiv : (n : ℚ) * 2 ^ (e + (k : ℤ)) / 2 ^ e = ((n * 2 ^ k : ℤ) : ℚ) := by
    rw [zpow_add₀ (by norm_num), zpow_natCast]
    push_cast
    field_simp
  rw [hdiv, roundEven_int]
  push_cast
  rw [zpow_add₀ (by norm_num), zpow_natCast]
  ring

theorem isDouble_int {n : ℤ} (h : |n| < 2 ^ 53) : IsDouble n := ⟨n, 0, h, by norm_num, by simp⟩

theorem rnd_int {n : ℤ} (h : |n| < 2 ^ 53) : rnd n = n := rnd_double (isDouble_int h)

/-- No double is nearer than the rounded one. -/
theorem rnd_nearest {x y : ℚ} (hy : IsDouble y) : |rnd x - x| ≤ |y - x| := by
  by_cases hx : x = 0
  · subst hx; rw [rnd_zero]; simp
  obtain ⟨n, E, hn, hE, rfl⟩ := hy
  have hp := two_zpow_pos (ulpExp x)
  -- multiples of the last place are no nearer
  have key : ∀ m : ℤ, |rnd x - x| ≤ |(m : ℚ) * 2 ^ ulpExp x - x| := by
    intro m
    have h1 := roundEven_nearest (x / 2 ^ ulpExp x) m
    rw [rnd_of_ne hx]
    have e1 : ∀ q : ℚ, q * 2 ^ ulpExp x - x = (q - x / 2 ^ ulpExp x) * 2 ^ ulpExp x := by
      intro q; field_simp
    rw [e1, e1, abs_mul, abs_mul]
    exact mul_le_mul_of_nonneg_right h1 (abs_nonneg _)
  by_cases hle : ulpExp x ≤ E
  · obtain ⟨k, hk⟩ : ∃ k : ℕ, E = ulpExp x + k := ⟨(E - ulpExp x).toNat, by omega⟩
    have := key (n * 2 ^ k)
    rw [hk, zpow_add₀ (by norm_num), zpow_natCast]
    push_cast at this
    rw [show (n : ℚ) * (2 ^ ulpExp x * 2 ^ k) = n * 2 ^ k * 2 ^ ulpExp x by ring]
    exact this
  · have hlog : ulpExp x = Int.log 2 |x| - 52 := by unfold ulpExp at hle ⊢; omega
    have hL := log_le hx
    have hy : |(n : ℚ) * 2 ^ E| ≤ 2 ^ Int.log 2 |x| := by
      rw [abs_mul, abs_of_pos (two_zpow_pos E)]
      have h1 : |(n : ℚ)| ≤ 2 ^ 53 := by
        have : ((|n| : ℤ) : ℚ) < ((2 ^ 53 : ℤ) : ℚ) := by exact_mod_cast hn
        rw [Int.cast_abs] at this
        push_cast at this
        exact le_of_lt this
      calc |(n : ℚ)| * 2 ^ E ≤ 2 ^ 53 * 2 ^ E := mul_le_mul_of_nonneg_right h1 (le_of_lt (two_zpow_pos E))
        _ = (2 : ℚ) ^ (53 + E) := by rw [zpow_add₀ (by norm_num)]; norm_cast
        _ ≤ 2 ^ Int.log 2 |x| := zpow_le_zpow_right₀ (by norm_num) (by omega)
    have hpow : (2 : ℚ) ^ Int.log 2 |x| = 2 ^ 52 * 2 ^ ulpExp x := by
      rw [hlog]
      have : (2 : ℚ) ^ (52 : ℕ) = 2 ^ (52 : ℤ) := by norm_cast
      rw [this, ← zpow_add₀ (by norm_num)]
      congr 1; ring
    generalize (n : ℚ) * 2 ^ E = y at hy
    rcases le_or_gt 0 x with h0 | h0
    · have h1 := key (2 ^ 52)
      rw [Int.cast_pow, Int.cast_ofNat, ← hpow] at h1
      rw [abs_of_nonneg h0] at *
      refine le_trans h1 ?_
      rw [abs_le] at hy
      rw [abs_sub_comm, abs_sub_comm y, abs_of_nonneg (by linarith), abs_of_nonneg (by linarith)]
      linarith
    · have h1 := key (-2 ^ 52)
      rw [Int.cast_neg, Int.cast_pow, Int.cast_ofNat, neg_mul, ← hpow] at h1
      rw [abs_of_neg h0] at *
      refine le_trans h1 ?_
      rw [abs_le] at hy
      rw [abs_of_nonneg (by linarith), abs_of_nonneg (by linarith)]
      linarith

/-- Rounding does not cross a double. -/
theorem rnd_ge {x y : ℚ} (hy : IsDouble y) (h : y ≤ x) : y ≤ rnd x := by
  by_contra hc
  have hc := lt_of_not_ge hc
  have := rnd_nearest (x := x) hy
  rw [abs_of_nonpos (by linarith), abs_of_nonpos (by linarith)] at this
  linarith

theorem rnd_le {x y : ℚ} (hy : IsDouble y) (h : x ≤ y) : rnd x ≤ y := by
  by_contra hc
  have hc := lt_of_not_ge hc
  have := rnd_nearest (x := x) hy
  rw [abs_of_nonneg (by linarith), abs_of_nonneg (by linarith)] at this
  linarith

/-- Evaluation of a rounding: exponent and significand given. -/
theorem rnd_eval {x : ℚ} (n E : ℤ) (hE : -1022 ≤ E) (h1 : (2 : ℚ) ^ E ≤ |x|) (h2 : |x| < 2 ^ (E + 1))
    (h3 : |x / 2 ^ (E - 52) - n| < 1 / 2) : rnd x = n * 2 ^ (E - 52) := by
  have hx : x ≠ 0 := by
    intro h0; rw [h0, abs_zero] at h1; exact absurd h1 (not_le.mpr (two_zpow_pos _))
  have hlog : Int.log 2 |x| = E := by
    have a := log_le hx
    have b := lt_log (x := x)
    have c := (zpow_lt_zpow_iff_right₀ (by norm_num : (1 : ℚ) < 2)).mp (lt_of_le_of_lt a h2)
    have d := (zpow_lt_zpow_iff_right₀ (by norm_num : (1 : ℚ) < 2)).mp (lt_of_le_of_lt h1 b)
    omega
  have he : ulpExp x = E - 52 := by unfold ulpExp; rw [hlog]; omega
  rw [rnd_of_ne hx, he, roundEven_eq h3]


theorem lround_eq {x : ℚ} {n : ℤ} (h : |x - n| < 1 / 2) : lround x = n := by
  rw [abs_lt] at h
  unfold lround
  split
  · rw [Int.floor_eq_iff]; constructor <;> linarith
  · have : ⌊-x + 1 / 2⌋ = -n := by
      rw [Int.floor_eq_iff]; push_cast; constructor <;> linarith
    omega

theorem lround_int (n : ℤ) : lround n = n := lround_eq (by simp)

theorem lround_err (x : ℚ) : |(lround x : ℚ) - x| ≤ 1 / 2 := by
  unfold lround
  split
  · have h1 := Int.floor_le (x + 1 / 2)
    have h2 := Int.lt_floor_add_one (x + 1 / 2)
    rw [abs_le]; constructor <;> linarith
  · have h1 := Int.floor_le (-x + 1 / 2)
    have h2 := Int.lt_floor_add_one (-x + 1 / 2)
    push_cast
    rw [abs_le]; constructor <;> linarith

end Verif.FP
