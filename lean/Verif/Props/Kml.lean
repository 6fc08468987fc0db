import Verif.Util.Kml
import Mathlib.Tactic.Linarith
import Mathlib.Tactic.FieldSimp
import Mathlib.Tactic.Positivity
import Mathlib.Analysis.Real.Pi.Bounds
import Mathlib.Analysis.SpecialFunctions.Trigonometric.Bounds

/-!
# Coordinates for maps (C73, C74, C75)
-/

namespace Verif.Props

open Verif Verif.FP Verif.Scalar Verif.Util

/-! ## The text of a coordinate (C73) -/

/-- The number that a text of digits with a decimal point stands for. -/
def readUnsigned (t : List Char) : ℚ :=
  let whole := t.takeWhile (· ≠ '.')
  let frac := (t.dropWhile (· ≠ '.')).drop 1
  (Nat.ofDigitChars 10 whole 0 : ℚ) + (Nat.ofDigitChars 10 frac 0 : ℚ) / 10 ^ frac.length

/-- The number that a decimal text stands for. -/
def readDecimal : List Char → ℚ
  | '-' :: t => -readUnsigned t
  | t => readUnsigned t

example : readDecimal "-12.050".toList = -(12 + 1 / 20) := by decide +kernel

theorem digit_ne_point {n : ℕ} : ∀ c ∈ Nat.toDigits 10 n, (c != '.') = true := by
  intro c hc
  have := Nat.isDigit_of_mem_toDigits (b := 10) (by decide) (by decide) hc
  by_contra h
  simp at h
  subst h
  revert this
  decide

theorem readUnsigned_digits (n m : ℕ) :
    readUnsigned (Nat.toDigits 10 n ++ '.' :: Nat.toDigits 10 m) = n + m / 10 ^ (Nat.toDigits 10 m).length := by
  have h : ∀ c ∈ Nat.toDigits 10 n, (decide (c ≠ '.')) = true := by
    intro c hc
    have := digit_ne_point c hc
    simpa using this
  have h1 : (Nat.toDigits 10 n ++ '.' :: Nat.toDigits 10 m).takeWhile (· ≠ '.') = Nat.toDigits 10 n := by
    rw [List.takeWhile_append_of_pos h]; simp
  have h2 : (Nat.toDigits 10 n ++ '.' :: Nat.toDigits 10 m).dropWhile (· ≠ '.') = '.' :: Nat.toDigits 10 m := by
    rw [List.dropWhile_append_of_pos h]; simp
  unfold readUnsigned
  simp only [h1, h2, List.drop_succ_cons, List.drop_zero]
  rw [Nat.ofDigitChars_ten_toDigits, Nat.ofDigitChars_ten_toDigits]

theorem readDecimal_digits (n : ℕ) (t : List Char) : readDecimal (Nat.toDigits 10 n ++ t) =
    readUnsigned (Nat.toDigits 10 n ++ t) := by
  cases hd : Nat.toDigits 10 n with
  | nil => simp at hd
  | cons c l =>
    have hc : c.isDigit = true := Nat.isDigit_of_mem_toDigits (b := 10) (n := n) (by decide) (by decide) (by rw [hd]; simp)
    have : c ≠ '-' := by rintro rfl; revert hc; decide
    simp only [List.cons_append]
    unfold readDecimal
    split
    · rename_i heq; injection heq with h1 h2; exact absurd h1 this
    · rfl

/-- The fraction that `highPrecStr` prints. -/
theorem frac_cast {c : ℚ} (hf : 0 ≤ rnd (rnd (c - ⌊c⌋) * 10000000000)) :
    ∃ m : ℕ, ⌊rnd (rnd (c - ⌊c⌋) * 10000000000)⌋ = m := ⟨_, (Int.toNat_of_nonneg (Int.floor_nonneg.2 hf)).symm⟩

theorem isDouble_zero : IsDouble 0 := by simpa using isDouble_int (n := 0) (by norm_num)

theorem rnd_nonneg {x : ℚ} (h : 0 ≤ x) : 0 ≤ rnd x := rnd_ge isDouble_zero h

theorem read_highPrec {c : ℚ} {t : List Char} (h : highPrecStr c = .ok t) :
    ∃ m : ℕ, (m : ℤ) = ⌊rnd (rnd (c - ⌊c⌋) * 10000000000)⌋ ∧
      readDecimal t = if c < 0 then (⌊c⌋ : ℚ) - m / 10 ^ (Nat.toDigits 10 m).length
        else ⌊c⌋ + m / 10 ^ (Nat.toDigits 10 m).length := by
  have hnn : 0 ≤ rnd (rnd (c - ⌊c⌋) * 10000000000) :=
    rnd_nonneg (mul_nonneg (rnd_nonneg (sub_nonneg.2 (Int.floor_le c))) (by norm_num))
  obtain ⟨m, hm⟩ := frac_cast hnn
  refine ⟨m, hm.symm, ?_⟩
  unfold highPrecStr at h
  split at h
  · injection h with h
    subst h
    rw [hm]
    have hlm : longText (m : ℤ) = Nat.toDigits 10 m := by simp [longText]
    rw [hlm]
    by_cases hc : c < 0
    · have hf : ⌊c⌋ < 0 := Int.floor_lt.2 (by simpa using hc)
      have : ((⌊c⌋.natAbs : ℕ) : ℚ) = -(⌊c⌋ : ℚ) := by
        have := Int.ofNat_natAbs_of_nonpos hf.le
        rw [← Int.cast_natCast, this]; simp
      rw [if_pos hc]
      simp only [longText, if_pos hf, List.cons_append, readDecimal]
      rw [readUnsigned_digits, this]; ring
    · have hf : ¬ ⌊c⌋ < 0 := by rw [not_lt]; exact Int.floor_nonneg.2 (not_lt.1 hc)
      have : ((⌊c⌋.natAbs : ℕ) : ℚ) = (⌊c⌋ : ℚ) := by
        have := Int.natAbs_of_nonneg (not_lt.1 hf)
        rw [← Int.cast_natCast, this]
      rw [if_neg hc]
      simp only [longText, if_neg hf]
      rw [readDecimal_digits, readUnsigned_digits, this]
  · exact absurd h (by simp)

theorem digits_len {m k : ℕ} (hk : 0 < k) (h1 : 10 ^ k ≤ m) (h2 : m < 10 ^ (k + 1)) :
    (Nat.toDigits 10 m).length = k + 1 := by
  have a : (Nat.toDigits 10 m).length ≤ k + 1 := (Nat.length_toDigits_le_iff (by decide) (by omega)).2 h2
  have b : ¬ (Nat.toDigits 10 m).length ≤ k := by
    rw [Nat.length_toDigits_le_iff (by decide) hk]; omega
  omega

/-- The digits after the point never stand for less than a tenth, unless they are zero. -/
theorem digits_tenth {m : ℕ} (h : 0 < m) : (1 / 10 : ℚ) ≤ m / 10 ^ (Nat.toDigits 10 m).length := by
  obtain ⟨k, hk⟩ : ∃ k, (Nat.toDigits 10 m).length = k + 1 :=
    ⟨(Nat.toDigits 10 m).length - 1, by have := @Nat.length_toDigits_pos 10 m; omega⟩
  rw [hk]
  have h1 : 10 ^ k ≤ m := by
    rcases Nat.eq_zero_or_pos k with h0 | h0
    · subst h0; simp; omega
    · by_contra hc
      have := (Nat.length_toDigits_le_iff (b := 10) (n := m) (by decide) h0).2 (by omega)
      omega
  have h1' : (10 : ℚ) ^ k ≤ m := by exact_mod_cast h1
  rw [pow_succ, div_le_div_iff₀ (by norm_num) (by positivity)]
  linarith

/-- The fraction of a non-negative double is a double. -/
theorem isDouble_fract {c : ℚ} (h0 : 0 ≤ c) (h : IsDouble c) : IsDouble (c - ⌊c⌋) := by
  obtain ⟨n, e, hn, he, rfl⟩ := h
  have hpos : (0 : ℚ) < 2 ^ e := two_zpow_pos e
  have hn0 : 0 ≤ n := by
    by_contra hc
    have : (n : ℚ) < 0 := by exact_mod_cast not_le.1 hc
    have := mul_neg_of_neg_of_pos this hpos
    linarith
  by_cases hez : 0 ≤ e
  · obtain ⟨k, rfl⟩ := Int.eq_ofNat_of_zero_le hez
    have : ((n : ℚ) * 2 ^ ((k : ℕ) : ℤ)) = ((n * 2 ^ k : ℤ) : ℚ) := by push_cast; simp
    rw [this, Int.floor_intCast, sub_self]
    exact isDouble_zero
  · obtain ⟨k, hk⟩ : ∃ k : ℕ, e = -(k : ℤ) := ⟨(-e).toNat, by omega⟩
    subst hk
    have e1 : (n : ℚ) * 2 ^ (-(k : ℤ)) = (n : ℚ) / ((2 ^ k : ℤ) : ℚ) := by
      rw [zpow_neg, zpow_natCast]; push_cast; rw [div_eq_mul_inv]
    refine ⟨n % 2 ^ k, -(k : ℤ), ?_, he, ?_⟩
    · have h1 : 0 ≤ n % 2 ^ k := Int.emod_nonneg _ (by positivity)
      have h2 : n % 2 ^ k ≤ n := by
        have := Int.emod_add_mul_ediv n (2 ^ k)
        have : 0 ≤ 2 ^ k * (n / 2 ^ k) := mul_nonneg (by positivity) (Int.ediv_nonneg hn0 (by positivity))
        omega
      rw [abs_of_nonneg h1]
      rw [abs_of_nonneg hn0] at hn
      omega
    · have hfl : ⌊(n : ℚ) * 2 ^ (-(k : ℤ))⌋ = n / 2 ^ k := by
        rw [e1]
        have := Rat.floor_intCast_div_natCast n (2 ^ k)
        push_cast at this ⊢
        exact this
      rw [hfl]
      have hdm : (n : ℚ) = ((n % 2 ^ k : ℤ) : ℚ) + 2 ^ k * ((n / 2 ^ k : ℤ) : ℚ) := by
        have := Int.emod_add_mul_ediv n (2 ^ k)
        exact_mod_cast this.symm
      have h2k : (2 : ℚ) ^ k ≠ 0 := by positivity
      rw [zpow_neg, zpow_natCast]
      conv_lhs => rw [hdm]
      field_simp
      ring

/-- C73 for non-negative doubles whose fraction is at least a tenth and not within `10⁻¹⁰` of one: the text stands for a
number within a little more than `10⁻¹⁰` of the coordinate. Missing: the refuted cases below. -/
theorem C73_text_partial {c : ℚ} (hd : IsDouble c) (h0 : 0 ≤ c) (hr : c < 2 ^ 63) (h1 : (1 / 10 : ℚ) ≤ c - ⌊c⌋)
    (h2 : c - ⌊c⌋ ≤ 1 - 1 / 10 ^ 10) :
    ∃ t, highPrecStr c = .ok t ∧ |readDecimal t - c| ≤ 10001 / 10000 / 10 ^ 10 := by
  have hI : InI64 ⌊c⌋ := by
    have : ⌊c⌋ < 2 ^ 63 := Int.floor_lt.2 (by push_cast; exact hr)
    have : 0 ≤ ⌊c⌋ := Int.floor_nonneg.2 h0
    unfold InI64; constructor <;> omega
  obtain ⟨t, ht⟩ : ∃ t, highPrecStr c = .ok t := by unfold highPrecStr; rw [if_pos hI]; exact ⟨_, rfl⟩
  refine ⟨t, ht, ?_⟩
  obtain ⟨m, hm, hv⟩ := read_highPrec ht
  rw [if_neg (not_lt.2 h0)] at hv
  rw [rnd_double (isDouble_fract h0 hd)] at hm
  set f := c - ⌊c⌋ with hf
  have hlo : (10 ^ 9 : ℚ) ≤ rnd (f * 10000000000) := by
    have := rnd_ge (x := f * 10000000000) (isDouble_int (n := 10 ^ 9) (by norm_num)) (by push_cast; linarith)
    push_cast at this; exact this
  have hhi : rnd (f * 10000000000) ≤ (10 ^ 10 - 1 : ℚ) := by
    have := rnd_le (x := f * 10000000000) (isDouble_int (n := 10 ^ 10 - 1) (by norm_num))
      (by push_cast; linarith)
    push_cast at this; linarith
  have hpos : (0 : ℚ) ≤ f * 10000000000 := by linarith
  have herr := rnd_err (x := f * 10000000000) (by
    rw [abs_of_nonneg hpos]
    have : (2 : ℚ) ^ (-1022 : ℤ) ≤ 1 := by
      apply zpow_le_one_of_nonpos₀ <;> norm_num
    linarith)
  rw [abs_of_nonneg hpos, abs_le] at herr
  have hm1 : (m : ℚ) ≤ rnd (f * 10000000000) := by
    have := Int.floor_le (rnd (f * 10000000000)); rw [← hm] at this; exact_mod_cast this
  have hm2 : rnd (f * 10000000000) < (m : ℚ) + 1 := by
    have := Int.lt_floor_add_one (rnd (f * 10000000000)); rw [← hm] at this; exact_mod_cast this
  have hma : 10 ^ 9 ≤ m := by
    have : ((10 ^ 9 : ℤ)) ≤ ⌊rnd (f * 10000000000)⌋ := Int.le_floor.2 (by push_cast; exact hlo)
    rw [← hm] at this; exact_mod_cast this
  have hmb : m < 10 ^ 10 := by
    have : (m : ℚ) < 10 ^ 10 := by linarith
    exact_mod_cast this
  rw [digits_len (k := 9) (by decide) hma hmb] at hv
  rw [hv]
  have hcf : c = ⌊c⌋ + f := by rw [hf]; ring
  have e : (⌊c⌋ : ℚ) + m / 10 ^ (9 + 1) - c = (m - f * 10000000000) / 10 ^ 10 := by
    rw [hf]
    ring
  rw [e, abs_div, abs_of_pos (show (0 : ℚ) < 10 ^ 10 by norm_num)]
  apply div_le_div_of_nonneg_right _ (by norm_num)
  have hsm : f * 10000000000 / 2 ^ 53 ≤ 1 / 10000 := by
    have : f * 10000000000 ≤ 10000000000 := by linarith
    have : f * 10000000000 / 2 ^ 53 ≤ 10000000000 / 2 ^ 53 := by gcongr
    refine this.trans ?_
    norm_num
  rw [abs_le]
  constructor <;> linarith

example : IsDouble (5 + 1 / 2) ∧ (1 / 10 : ℚ) ≤ (5 + 1 / 2) - ⌊(5 + 1 / 2 : ℚ)⌋ ∧
    (5 + 1 / 2) - ⌊(5 + 1 / 2 : ℚ)⌋ ≤ (1 : ℚ) - 1 / 10 ^ 10 := by
  have h : ⌊(5 + 1 / 2 : ℚ)⌋ = 5 := by norm_num
  refine ⟨⟨11, -1, by norm_num, by norm_num, by norm_num⟩, ?_, ?_⟩ <;> rw [h] <;> norm_num

/-- C73 fails for fractions below a tenth: the leading zeros of the fraction are left out, so the text stands for a number
of at least a tenth more than the whole part. -/
theorem C73_zeros_refuted {c : ℚ} (hd : IsDouble c) (h0 : 0 ≤ c) (h1 : (1 / 10 ^ 10 : ℚ) ≤ c - ⌊c⌋)
    {t : List Char} (h : highPrecStr c = .ok t) : ⌊c⌋ + 1 / 10 ≤ readDecimal t := by
  obtain ⟨m, hm, hv⟩ := read_highPrec h
  rw [if_neg (not_lt.2 h0)] at hv
  rw [rnd_double (isDouble_fract h0 hd)] at hm
  have : (1 : ℚ) ≤ rnd ((c - ⌊c⌋) * 10000000000) := by
    have := rnd_ge (x := (c - ⌊c⌋) * 10000000000) (isDouble_int (n := 1) (by norm_num))
      (by push_cast; linarith)
    exact_mod_cast this
  have h1m : 0 < m := by
    have : (1 : ℤ) ≤ ⌊rnd ((c - ⌊c⌋) * 10000000000)⌋ := Int.le_floor.2 (by push_cast; exact this)
    omega
  have := digits_tenth h1m
  rw [hv]
  linarith

/-- 5.0625 becomes the text `5.625000000`. -/
example : highPrecStr (5 + 1 / 16) = .ok "5.625000000".toList ∧ IsDouble (5 + 1 / 16) := by
  constructor
  · have h : ⌊(5 + 1 / 16 : ℚ)⌋ = 5 := by norm_num
    have h2 : rnd (5 + 1 / 16 - 5) = 1 / 16 := by
      rw [show (5 + 1 / 16 - 5 : ℚ) = 1 / 16 by norm_num]
      exact rnd_double ⟨1, -4, by norm_num, by norm_num, by norm_num⟩
    have h3 : rnd (1 / 16 * 10000000000) = ((625000000 : ℤ) : ℚ) := by
      rw [show (1 / 16 * 10000000000 : ℚ) = ((625000000 : ℤ) : ℚ) by norm_num]
      exact rnd_int (by norm_num)
    unfold highPrecStr
    rw [h, if_pos (by unfold InI64; omega)]
    push_cast
    rw [h2, h3, Int.floor_intCast]
    decide +kernel
  · exact ⟨81, -4, by norm_num, by norm_num, by norm_num⟩

/-- C73 fails for every negative coordinate that is not nearly a whole number: the text stands for a number at least a
tenth below the whole part, so it is more than a tenth away from the coordinate. -/
theorem C73_negative_refuted {c : ℚ} (h0 : c < 0) (h1 : (1 / 2 ^ 33 : ℚ) ≤ c - ⌊c⌋)
    {t : List Char} (h : highPrecStr c = .ok t) : readDecimal t ≤ ⌊c⌋ - 1 / 10 ∧ readDecimal t < c - 1 / 10 := by
  obtain ⟨m, hm, hv⟩ := read_highPrec h
  rw [if_pos h0] at hv
  have ha : (1 / 2 ^ 33 : ℚ) ≤ rnd (c - ⌊c⌋) :=
    rnd_ge ⟨1, -33, by norm_num, by norm_num, by norm_num [zpow_neg]⟩ h1
  have : (1 : ℚ) ≤ rnd (rnd (c - ⌊c⌋) * 10000000000) := by
    have := rnd_ge (x := rnd (c - ⌊c⌋) * 10000000000) (isDouble_int (n := 1) (by norm_num))
      (by
        push_cast
        have : (1 / 2 ^ 33 : ℚ) * 10000000000 ≤ rnd (c - ⌊c⌋) * 10000000000 := by gcongr
        have h3 : (1 : ℚ) ≤ 1 / 2 ^ 33 * 10000000000 := by norm_num
        linarith)
    exact_mod_cast this
  have h1m : 0 < m := by
    have : (1 : ℤ) ≤ ⌊rnd (rnd (c - ⌊c⌋) * 10000000000)⌋ := Int.le_floor.2 (by push_cast; exact this)
    omega
  have := digits_tenth h1m
  have h2 : (0 : ℚ) < 1 / 2 ^ 33 := by norm_num
  rw [hv]
  constructor <;> linarith

/-- -6.25 is a case: its text is `-7.7500000000`. -/
example : (-(6 + 1 / 4) : ℚ) < 0 ∧ (1 / 2 ^ 33 : ℚ) ≤ -(6 + 1 / 4) - ⌊(-(6 + 1 / 4) : ℚ)⌋ ∧
    highPrecStr (-(6 + 1 / 4)) = .ok "-7.7500000000".toList := by
  have h : ⌊(-(6 + 1 / 4) : ℚ)⌋ = -7 := by norm_num
  refine ⟨by norm_num, by rw [h]; norm_num, ?_⟩
  have h2 : rnd (-(6 + 1 / 4) - ((-7 : ℤ) : ℚ)) = 3 / 4 := by
    rw [show (-(6 + 1 / 4) - ((-7 : ℤ) : ℚ) : ℚ) = 3 / 4 by norm_num]
    exact rnd_double ⟨3, -2, by norm_num, by norm_num, by norm_num⟩
  have h3 : rnd (3 / 4 * 10000000000) = ((7500000000 : ℤ) : ℚ) := by
    rw [show (3 / 4 * 10000000000 : ℚ) = ((7500000000 : ℤ) : ℚ) by norm_num]
    exact rnd_int (by norm_num)
  unfold highPrecStr
  rw [h, if_pos (by unfold InI64; omega), h2, h3, Int.floor_intCast]
  decide +kernel

/-! ## From UTM to latitude and longitude (C74) -/

theorem ecc_sq : ecc * ecc = 1 - polRad * polRad / (eqRad * eqRad) := by
  unfold ecc
  rw [Real.mul_self_sqrt]
  unfold polRad eqRad
  norm_num

theorem ei_val : ei = 21385 / 12734889 := by
  have h : Real.sqrt (1 - ecc * ecc) = polRad / eqRad := by
    rw [ecc_sq, show 1 - (1 - polRad * polRad / (eqRad * eqRad)) = (polRad / eqRad) * (polRad / eqRad) by ring]
    apply Real.sqrt_mul_self
    unfold polRad eqRad; norm_num
  unfold ei
  rw [h]
  unfold polRad eqRad; norm_num

/-- The length of a radian of the meridian in the projection. -/
theorem utmMu_scale : ∃ s : ℝ, 6364900 < s ∧ s < 6364910 ∧ ∀ n, utmMu n = n / s := by
  refine ⟨k0 * (eqRad * (1 - ecc ^ 2 / 4 - 3 * ecc ^ 4 / 64 - 5 * ecc ^ 6 / 256)), ?_, ?_, ?_⟩
  · rw [show ecc ^ 2 = ecc * ecc by ring, show ecc ^ 4 = (ecc * ecc) ^ 2 by ring,
      show ecc ^ 6 = (ecc * ecc) ^ 3 by ring, ecc_sq]
    unfold polRad eqRad k0; norm_num
  · rw [show ecc ^ 2 = ecc * ecc by ring, show ecc ^ 4 = (ecc * ecc) ^ 2 by ring,
      show ecc ^ 6 = (ecc * ecc) ^ 3 by ring, ecc_sq]
    unfold polRad eqRad k0; norm_num
  · intro n; unfold utmMu; rw [div_div]


theorem utmPhi_zero : utmPhi 0 = 0 := by
  have : utmMu 0 = 0 := by simp [utmMu]
  simp [utmPhi, this]

/-- The footpoint latitude follows the rectified latitude to within a hundred and ninetieth. -/
theorem utmPhi_lip (n m : ℝ) :
    |(utmPhi n - utmPhi m) - (utmMu n - utmMu m)| ≤ 0.0051 * |utmMu n - utmMu m| := by
  have key : ∀ k : ℝ, 0 ≤ k → |Real.sin (k * utmMu n) - Real.sin (k * utmMu m)| ≤ k * |utmMu n - utmMu m| := by
    intro k hk
    refine (Real.abs_sin_sub_sin_le _ _).trans ?_
    rw [← mul_sub, abs_mul, abs_of_nonneg hk]
  have h2 := abs_le.1 (key 2 (by norm_num))
  have h4 := abs_le.1 (key 4 (by norm_num))
  have h6 := abs_le.1 (key 6 (by norm_num))
  have h8 := abs_le.1 (key 8 (by norm_num))
  have h0 := abs_nonneg (utmMu n - utmMu m)
  unfold utmPhi
  rw [ei_val]
  simp only [show (21 / 16 : ℕ) = 1 from rfl,
    show (417 / 128 : ℕ) = 3 from rfl, show (1097 / 512 : ℕ) = 2 from rfl]
  push_cast
  rw [abs_le]
  generalize Real.sin (2 * utmMu n) = a1 at *
  generalize Real.sin (2 * utmMu m) = b1 at *
  generalize Real.sin (4 * utmMu n) = a2 at *
  generalize Real.sin (4 * utmMu m) = b2 at *
  generalize Real.sin (6 * utmMu n) = a3 at *
  generalize Real.sin (6 * utmMu m) = b3 at *
  generalize Real.sin (8 * utmMu n) = a4 at *
  generalize Real.sin (8 * utmMu m) = b4 at *
  generalize |utmMu n - utmMu m| = A at *
  constructor <;> nlinarith

theorem utmPhi_range {n : ℝ} (h0 : 0 ≤ n) (h1 : n ≤ 9900000) : 0 ≤ utmPhi n ∧ utmPhi n < Real.pi / 2 := by
  obtain ⟨s, hs1, hs2, hs⟩ := utmMu_scale
  have hl := utmPhi_lip n 0
  rw [utmPhi_zero, hs 0, hs n] at hl
  have hm0 : 0 ≤ n / s := div_nonneg h0 (by linarith)
  have hm1 : n / s ≤ 1.5555 := by
    rw [div_le_iff₀ (by linarith)]; linarith
  simp only [zero_div, sub_zero] at hl
  rw [abs_of_nonneg hm0, abs_le] at hl
  have := Real.pi_gt_d4
  constructor <;> nlinarith

theorem utmD_mid (phi : ℝ) : utmD 500000 phi = 0 := by simp [utmD]

theorem utmD_mirror (x phi : ℝ) : utmD (500000 - x) phi = -utmD (500000 + x) phi := by
  unfold utmD
  rw [← neg_div]
  congr 1
  ring

/-- C74, the meridian in the middle of a zone and the equator: an easting of 500000 has the longitude of the middle of its
zone at every northing, and northing zero has latitude zero at every easting. -/
theorem C74_axes_partial (zone : ℝ) (easting northing : ℝ) :
    utmLng 500000 northing zone = 6 * zone - 183 ∧ utmLat easting 0 true = 0 := by
  constructor
  · simp [utmLng, utmD_mid]
  · simp [utmLat, utmPhi_zero]

/-- C74, mirroring: places equally far to the east and to the west of the middle of the zone have the same latitude and
longitudes equally far from the middle. -/
theorem C74_mirror_partial (x northing zone : ℝ) (north : Bool) :
    utmLat (500000 - x) northing north = utmLat (500000 + x) northing north ∧
      (6 * zone - 183) - utmLng (500000 - x) northing zone = utmLng (500000 + x) northing zone - (6 * zone - 183) := by
  constructor
  · simp only [utmLat, utmD_mirror]
    ring
  · simp only [utmLng, utmD_mirror]
    ring

/-- C74: the same easting and northing lies six degrees further east in the next zone. -/
theorem C74_zone_partial (easting northing zone : ℝ) :
    utmLng easting northing (zone + 1) = utmLng easting northing zone + 6 := by
  simp only [utmLng]; ring

theorem utmLat_mid (n : ℝ) (north : Bool) :
    utmLat 500000 n north = (if north then 1 else -1) * (180 / Real.pi) * utmPhi n := by
  simp only [utmLat, utmD_mid]
  ring

theorem deg_bounds : (57.29 : ℝ) < 180 / Real.pi ∧ 180 / Real.pi < 57.3 := by
  have h1 := Real.pi_gt_d4
  have h2 := Real.pi_lt_d4
  constructor
  · rw [lt_div_iff₀ (by linarith)]; linarith
  · rw [div_lt_iff₀ (by linarith)]; linarith

theorem utmPhi_diff {n m : ℝ} (h : n < m) :
    (m - n) * 0.0000001563 < utmPhi m - utmPhi n ∧ utmPhi m - utmPhi n < (m - n) * 0.000000158 := by
  obtain ⟨s, hs1, hs2, hs⟩ := utmMu_scale
  have hl := utmPhi_lip m n
  rw [hs m, hs n, ← sub_div] at hl
  have hpos : 0 < (m - n) / s := div_pos (by linarith) (by linarith)
  rw [abs_of_pos hpos, abs_le] at hl
  have h1 : (m - n) * 0.00000015711 < (m - n) / s := by
    rw [lt_div_iff₀ (by linarith), mul_assoc]
    have : (0.00000015711 : ℝ) * s < 1 := by linarith
    nlinarith
  have h2 : (m - n) / s < (m - n) * 0.00000015712 := by
    rw [div_lt_iff₀ (by linarith), mul_assoc]
    have : (1 : ℝ) < 0.00000015712 * s := by linarith
    nlinarith
  constructor <;> nlinarith

/-- C74 along the middle of a zone in the northern hemisphere: going north by a metre of northing adds between 8.95 and 9.06
millionths of a degree (a degree is between 110 and 112 kilometres). -/
theorem C74_north_partial {n m : ℝ} (h : n < m) :
    (m - n) * 0.00000895 < utmLat 500000 m true - utmLat 500000 n true ∧
      utmLat 500000 m true - utmLat 500000 n true < (m - n) * 0.00000906 := by
  obtain ⟨h1, h2⟩ := utmPhi_diff h
  obtain ⟨d1, d2⟩ := deg_bounds
  rw [utmLat_mid, utmLat_mid]
  simp only [if_true, one_mul]
  rw [← mul_sub]
  generalize 180 / Real.pi = g at *
  generalize utmPhi m - utmPhi n = p at *
  have hp : 0 < p := by nlinarith
  constructor
  · have : 57.29 * p < g * p := by gcongr
    nlinarith
  · have : g * p < 57.3 * p := by gcongr
    nlinarith

/-- C74 fails in the southern hemisphere, where northings count from ten million metres south of the equator: the latitude
decreases as the northing grows, so that of two places on the middle of a zone the northern one is put further south; and
the equator itself (northing ten million) is put at the south pole. -/
theorem C74_south_refuted : (∀ n m : ℝ, n < m → utmLat 500000 m false < utmLat 500000 n false) ∧
    utmLat 500000 10000000 false < -89 := by
  obtain ⟨d1, d2⟩ := deg_bounds
  constructor
  · intro n m h
    obtain ⟨h1, h2⟩ := utmPhi_diff h
    rw [utmLat_mid, utmLat_mid]
    simp only [Bool.false_eq_true, if_false]
    have : utmPhi n < utmPhi m := by nlinarith
    have : 180 / Real.pi * utmPhi n < 180 / Real.pi * utmPhi m := by gcongr
    linarith
  · obtain ⟨h1, h2⟩ := utmPhi_diff (n := 0) (m := 10000000) (by norm_num)
    rw [utmPhi_zero] at h1 h2
    rw [utmLat_mid]
    simp only [Bool.false_eq_true, if_false]
    have : 57.29 * utmPhi 10000000 < 180 / Real.pi * utmPhi 10000000 := by
      have : 0 < utmPhi 10000000 := by linarith
      gcongr
    linarith

/-- The footpoint latitude of the published formula (the one the comment of `utm2LatLong` refers to) at the rectified
latitude `mu`. -/
noncomputable def footpoint (e mu : ℝ) : ℝ :=
  mu + (3 * e / 2 - 27 * e ^ 3 / 32) * Real.sin (2 * mu) + (21 / 16 * e ^ 2 - 55 / 32 * e ^ 4) * Real.sin (4 * mu)
    + (151 / 96 * e ^ 3 - 417 / 128 * e ^ 5) * Real.sin (6 * mu) + 1097 / 512 * e ^ 4 * Real.sin (8 * mu)

/-- C74 on the middle of a zone in the north: exactly the fractions of the five rational coefficients are lost. -/
theorem C74_foot_partial (n : ℝ) :
    utmLat 500000 n true = 180 / Real.pi * (footpoint ei (utmMu n) -
      ((5 / 16 * ei ^ 2 - 23 / 32 * ei ^ 4) * Real.sin (4 * utmMu n) +
        (55 / 96 * ei ^ 3 - 33 / 128 * ei ^ 5) * Real.sin (6 * utmMu n) + 73 / 512 * ei ^ 4 * Real.sin (8 * utmMu n))) := by
  rw [utmLat_mid]
  simp only [if_true, one_mul]
  congr 1
  unfold utmPhi footpoint
  simp only [show (21 / 16 : ℕ) = 1 from rfl, show (417 / 128 : ℕ) = 3 from rfl, show (1097 / 512 : ℕ) = 2 from rfl]
  push_cast
  ring

/-- C74 fails for the coefficients of the series, which are integer divisions: wherever `sin 4μ ≥ 1/2` the latitude on the
middle of the zone falls short of the published formula by more than two hundred-thousandths of a degree (two metres),
although ten decimals are written. -/
theorem C74_series_refuted {n : ℝ} (h : 1 / 2 ≤ Real.sin (4 * utmMu n)) :
    utmLat 500000 n true < 180 / Real.pi * footpoint ei (utmMu n) - 0.00002 := by
  obtain ⟨d1, d2⟩ := deg_bounds
  have hd : utmPhi n + 0.0000004 < footpoint ei (utmMu n) := by
    unfold utmPhi footpoint
    rw [ei_val]
    simp only [show (21 / 16 : ℕ) = 1 from rfl,
      show (417 / 128 : ℕ) = 3 from rfl, show (1097 / 512 : ℕ) = 2 from rfl]
    push_cast
    have h6 := Real.neg_one_le_sin (6 * utmMu n)
    have h8 := Real.neg_one_le_sin (8 * utmMu n)
    generalize Real.sin (2 * utmMu n) = a1 at *
    generalize Real.sin (4 * utmMu n) = a2 at *
    generalize Real.sin (6 * utmMu n) = a3 at *
    generalize Real.sin (8 * utmMu n) = a4 at *
    nlinarith
  rw [utmLat_mid]
  simp only [if_true, one_mul]
  have : 180 / Real.pi * (utmPhi n + 0.0000004) < 180 / Real.pi * footpoint ei (utmMu n) := by gcongr
  have : 57.29 * 0.0000004 < 180 / Real.pi * 0.0000004 := by gcongr
  linarith

example : ∃ n, 0 < n ∧ n < 9900000 ∧ 1 / 2 ≤ Real.sin (4 * utmMu n) := by
  obtain ⟨s, hs1, hs2, hs⟩ := utmMu_scale
  have h1 := Real.pi_gt_d4
  have h2 := Real.pi_lt_d4
  refine ⟨s * (Real.pi / 8), by positivity, by nlinarith, ?_⟩
  rw [hs, show 4 * (s * (Real.pi / 8) / s) = Real.pi / 2 by field_simp; ring, Real.sin_pi_div_two]
  norm_num

theorem utmC_range (phi : ℝ) : 0 ≤ utmC phi ∧ utmC phi ≤ 0.007 := by
  unfold utmC
  rw [ecc_sq]
  have h1 := Real.cos_sq_le_one phi
  have h0 := sq_nonneg (Real.cos phi)
  unfold polRad eqRad
  constructor <;> nlinarith

/-- C74: at any northing up to 9.9 million metres, places further east have greater longitudes. -/
theorem C74_east_partial {n zone e f : ℝ} (h0 : 0 ≤ n) (h1 : n ≤ 9900000) (h : e < f) :
    utmLng e n zone < utmLng f n zone := by
  obtain ⟨p0, p1⟩ := utmPhi_range h0 h1
  have hcos : 0 < Real.cos (utmPhi n) := Real.cos_pos_of_mem_Ioo ⟨by linarith [Real.pi_pos], p1⟩
  obtain ⟨c0, c1⟩ := utmC_range (utmPhi n)
  have hE : 0 ≤ ecc * ecc / (1 - ecc * ecc) := by
    rw [ecc_sq]; unfold polRad eqRad; norm_num
  have hq : 0 < 1 - (ecc * Real.sin (utmPhi n)) ^ 2 := by
    rw [mul_pow, show ecc ^ 2 = ecc * ecc by ring, ecc_sq]
    have h1 := Real.sin_sq_le_one (utmPhi n)
    have h0 := sq_nonneg (Real.sin (utmPhi n))
    unfold polRad eqRad
    nlinarith
  have hdd : utmD f (utmPhi n) < utmD e (utmPhi n) := by
    unfold utmD
    apply div_lt_div_of_pos_right (by linarith)
    apply div_pos
    · unfold k0 eqRad; norm_num
    · exact Real.sqrt_pos.2 hq
  have h3 : utmD f (utmPhi n) ^ 3 < utmD e (utmPhi n) ^ 3 := Odd.strictMono_pow (by decide) hdd
  have h5 : utmD f (utmPhi n) ^ 5 < utmD e (utmPhi n) ^ 5 := Odd.strictMono_pow (by decide) hdd
  simp only [utmLng]
  have hA : 0 < 1 + 2 * Real.tan (utmPhi n) ^ 2 + utmC (utmPhi n) := by positivity
  have hB : 0 < 5 - 2 * utmC (utmPhi n) + 28 * Real.tan (utmPhi n) ^ 2 - 3 * utmC (utmPhi n) * utmC (utmPhi n)
      + 24 * Real.tan (utmPhi n) ^ 4 + 8 * (ecc * ecc / (1 - ecc * ecc)) := by
    have : 0 ≤ Real.tan (utmPhi n) ^ 2 := by positivity
    have : 0 ≤ Real.tan (utmPhi n) ^ 4 := by positivity
    nlinarith
  generalize 1 + 2 * Real.tan (utmPhi n) ^ 2 + utmC (utmPhi n) = A at *
  generalize 5 - 2 * utmC (utmPhi n) + 28 * Real.tan (utmPhi n) ^ 2 - 3 * utmC (utmPhi n) * utmC (utmPhi n)
      + 24 * Real.tan (utmPhi n) ^ 4 + 8 * (ecc * ecc / (1 - ecc * ecc)) = B at *
  have hcp : 0 < Real.cos (utmPhi n) * Real.pi := mul_pos hcos Real.pi_pos
  have hA3 : A * utmD f (utmPhi n) ^ 3 < A * utmD e (utmPhi n) ^ 3 := by gcongr
  have hB5 : B * utmD f (utmPhi n) ^ 5 < B * utmD e (utmPhi n) ^ 5 := by gcongr
  have := div_lt_div_of_pos_right (c := Real.cos (utmPhi n) * Real.pi)
    (show 180 * (utmD f (utmPhi n) + A * utmD f (utmPhi n) ^ 3 / 6 + B * utmD f (utmPhi n) ^ 5 / 120) <
      180 * (utmD e (utmPhi n) + A * utmD e (utmPhi n) ^ 3 / 6 + B * utmD e (utmPhi n) ^ 5 / 120) by linarith) hcp
  linarith

example : utmLng 300000 5000000 31 < 3 ∧ 3 < utmLng 700000 5000000 31 := by
  have h := C74_east_partial (n := 5000000) (zone := 31) (e := 300000) (f := 500000)
    (by norm_num) (by norm_num) (by norm_num)
  have h' := C74_east_partial (n := 5000000) (zone := 31) (e := 500000) (f := 700000)
    (by norm_num) (by norm_num) (by norm_num)
  rw [(C74_axes_partial 31 0 5000000).1] at h h'
  constructor <;> linarith

/-! ### Comparison with the published series -/

/-- Squared eccentricity of an ellipsoid with half-axes `a` and `b`. -/
noncomputable def ecc2 (a b : ℝ) : ℝ := 1 - b ^ 2 / a ^ 2
/-- Radius of curvature across the meridian. -/
noncomputable def curveN (a b phi : ℝ) : ℝ := a / Real.sqrt (1 - ecc2 a b * Real.sin phi ^ 2)
/-- Radius of curvature along the meridian. -/
noncomputable def curveM (a b phi : ℝ) : ℝ := a * (1 - ecc2 a b) / Real.sqrt (1 - ecc2 a b * Real.sin phi ^ 2) ^ 3

/-- Longitude by the published series (J. P. Snyder, Map Projections, equation 8-18) in degrees: `lon0` of the middle
meridian, `phi` the footpoint latitude, `x` metres east of the meridian. -/
noncomputable def seriesLng (a b k lon0 phi x : ℝ) : ℝ :=
  let ep := ecc2 a b / (1 - ecc2 a b)
  let T := Real.tan phi ^ 2
  let C := ep * Real.cos phi ^ 2
  let D := x / (curveN a b phi * k)
  lon0 + 180 / Real.pi * ((D - (1 + 2 * T + C) * D ^ 3 / 6
    + (5 - 2 * C + 28 * T - 3 * C ^ 2 + 8 * ep + 24 * T ^ 2) * D ^ 5 / 120) / Real.cos phi)

/-- Latitude by the published series (equation 8-17) in degrees. -/
noncomputable def seriesLat (a b k phi x : ℝ) : ℝ :=
  let ep := ecc2 a b / (1 - ecc2 a b)
  let T := Real.tan phi ^ 2
  let C := ep * Real.cos phi ^ 2
  let D := x / (curveN a b phi * k)
  180 / Real.pi * (phi - curveN a b phi * Real.tan phi / curveM a b phi *
    (D ^ 2 / 2 - (5 + 3 * T + 10 * C - 4 * C ^ 2 - 9 * ep) * D ^ 4 / 24
      + (61 + 90 * T + 298 * C + 45 * T ^ 2 - 252 * ep - 3 * C ^ 2) * D ^ 6 / 720))

theorem ecc_ecc2 : ecc * ecc = ecc2 6378137 6356752 := by
  rw [ecc_sq]; unfold ecc2 polRad eqRad; norm_num

theorem flat_pos (phi : ℝ) : 0 < 1 - ecc2 6378137 6356752 * Real.sin phi ^ 2 := by
  have := Real.sin_sq_le_one phi
  have h : ecc2 6378137 6356752 < 1 / 2 := by unfold ecc2; norm_num
  nlinarith [sq_nonneg (Real.sin phi)]

theorem utmD_series (x phi : ℝ) :
    utmD (500000 + x) phi = -(x / (curveN 6378137 6356752 phi * 0.9996)) := by
  unfold utmD curveN k0 eqRad
  rw [mul_pow, sq ecc, ecc_ecc2, ← neg_div]
  congr 1
  · ring
  · ring

/-- C74: at the footpoint latitude `φ` the longitude is that of the published series for an ellipsoid with the half-axes
of the code but for one term: that in the third power has the wrong sign. -/
theorem C74_lng_partial (x northing zone : ℝ) :
    let phi := utmPhi northing
    let C := ecc2 6378137 6356752 / (1 - ecc2 6378137 6356752) * Real.cos phi ^ 2
    let D := x / (curveN 6378137 6356752 phi * 0.9996)
    utmLng (500000 + x) northing zone = seriesLng 6378137 6356752 0.9996 (6 * zone - 183) phi x +
      180 / Real.pi * ((1 + 2 * Real.tan phi ^ 2 + C) * D ^ 3 / 3 / Real.cos phi) := by
  intro phi C D
  have hD : utmD (500000 + x) phi = -D := utmD_series x phi
  unfold utmLng seriesLng
  simp only
  change _ - 180 * (utmD (500000 + x) phi + (1 + 2 * Real.tan phi ^ 2 + utmC phi) * utmD (500000 + x) phi ^ 3 / 6 +
    (5 - 2 * utmC phi + _ - 3 * utmC phi * utmC phi + _ + _) * utmD (500000 + x) phi ^ 5 / 120) / _ = _
  rw [hD, show utmC phi = C from by unfold utmC; rw [ecc_ecc2], ecc_ecc2]
  change _ = 6 * zone - 183 + 180 / Real.pi * ((D - (1 + 2 * _ + C) * D ^ 3 / 6 + (5 - 2 * C + _ - 3 * C ^ 2 + _ + _) * D ^ 5 / 120) / _) + _
  generalize Real.cos phi = y
  generalize Real.tan phi = t
  generalize Real.pi = p
  generalize ecc2 6378137 6356752 / (1 - ecc2 6378137 6356752) = e
  clear_value C D
  rw [mul_comm y p, ← div_div, mul_div_assoc]
  ring

/-- C74: the latitude in the north is that of the published series but for two terms: that in the fourth power has the
wrong sign, and that in the sixth has `298 T²` in place of `298 C + 45 T²`. -/
theorem C74_lat_partial (x northing : ℝ) :
    let phi := utmPhi northing
    let ep := ecc2 6378137 6356752 / (1 - ecc2 6378137 6356752)
    let T := Real.tan phi ^ 2
    let C := ep * Real.cos phi ^ 2
    let D := x / (curveN 6378137 6356752 phi * 0.9996)
    utmLat (500000 + x) northing true = seriesLat 6378137 6356752 0.9996 phi x -
      180 / Real.pi * (curveN 6378137 6356752 phi * Real.tan phi / curveM 6378137 6356752 phi *
        ((5 + 3 * T + 10 * C - 4 * C ^ 2 - 9 * ep) * D ^ 4 / 12 + (253 * T ^ 2 - 298 * C) * D ^ 6 / 720)) := by
  intro phi ep T C D
  have hD : utmD (500000 + x) phi = -D := utmD_series x phi
  have hNM : (1 - (ecc * Real.sin phi) ^ 2) * Real.tan phi / (1 - ecc * ecc) =
      curveN 6378137 6356752 phi * Real.tan phi / curveM 6378137 6356752 phi := by
    have hp := flat_pos phi
    have h1 : 1 - ecc2 6378137 6356752 ≠ 0 := by unfold ecc2; norm_num
    rw [mul_pow, sq ecc, ecc_ecc2]
    unfold curveN curveM
    have hs : Real.sqrt (1 - ecc2 6378137 6356752 * Real.sin phi ^ 2) ^ 2 = 1 - ecc2 6378137 6356752 * Real.sin phi ^ 2 :=
      Real.sq_sqrt hp.le
    have hs0 := (Real.sqrt_pos.mpr hp).ne'
    generalize Real.sqrt (1 - ecc2 6378137 6356752 * Real.sin phi ^ 2) = s at *
    rw [← hs]
    field_simp
  unfold utmLat seriesLat
  simp only [if_true]
  change _ / _ * (phi - (1 - (ecc * Real.sin phi) ^ 2) * Real.tan phi / (1 - ecc * ecc) *
    (utmD (500000 + x) phi * utmD (500000 + x) phi / 2 + (5 + _ + 10 * utmC phi - 4 * utmC phi * utmC phi - _) *
      utmD (500000 + x) phi ^ 4 / 24 + (_ - 3 * utmC phi * utmC phi) * utmD (500000 + x) phi ^ 6 / 720)) = _
  rw [hNM, hD, show utmC phi = C from by unfold utmC; rw [ecc_ecc2], ecc_ecc2]
  change _ = 180 / Real.pi * (phi - _ * (D ^ 2 / 2 - (5 + 3 * T + 10 * C - 4 * C ^ 2 - 9 * ep) * D ^ 4 / 24 +
    (61 + 90 * T + 298 * C + 45 * T ^ 2 - 252 * ep - 3 * C ^ 2) * D ^ 6 / 720)) - _
  change _ * (phi - _ * (_ + (5 + 3 * T + 10 * C - 4 * C * C - 9 * ep) * (-D) ^ 4 / 24 +
    (61 + 90 * T + 298 * Real.tan phi ^ 4 - 252 * ep - 3 * C * C) * (-D) ^ 6 / 720)) = _
  rw [show Real.tan phi ^ 4 = T ^ 2 by show _ = (Real.tan phi ^ 2) ^ 2; ring]
  generalize curveN 6378137 6356752 phi * Real.tan phi / curveM 6378137 6356752 phi = q
  clear_value T C D ep
  ring

/-- C74 fails by that: at a quarter of a million metres or more to the east of the middle of the zone the longitude is
more than a thousandth of a degree further east than the published series. -/
theorem C74_signs_refuted {n x : ℝ} (zone : ℝ) (h0 : 0 ≤ n) (h1 : n ≤ 9900000) (hx : 250000 ≤ x) :
    seriesLng 6378137 6356752 0.9996 (6 * zone - 183) (utmPhi n) x + 0.001 < utmLng (500000 + x) n zone := by
  have h := C74_lng_partial x n zone
  simp only at h
  rw [h]
  clear h
  obtain ⟨p0, p1⟩ := utmPhi_range h0 h1
  have hcos : 0 < Real.cos (utmPhi n) := Real.cos_pos_of_mem_Ioo ⟨by linarith [Real.pi_pos], p1⟩
  have hcos1 := Real.cos_le_one (utmPhi n)
  obtain ⟨d1, d2⟩ := deg_bounds
  have hN : curveN 6378137 6356752 (utmPhi n) ≤ 6400000 := by
    unfold curveN
    have hp := flat_pos (utmPhi n)
    rw [div_le_iff₀ (Real.sqrt_pos.mpr hp)]
    have : 6378137 / 6400000 ≤ Real.sqrt (1 - ecc2 6378137 6356752 * Real.sin (utmPhi n) ^ 2) := by
      apply Real.le_sqrt_of_sq_le
      have := Real.sin_sq_le_one (utmPhi n)
      have h2 := sq_nonneg (Real.sin (utmPhi n))
      have he : ecc2 6378137 6356752 ≤ 0.0067 := by unfold ecc2; norm_num
      nlinarith
    linarith
  have hN0 : 0 < curveN 6378137 6356752 (utmPhi n) := by
    unfold curveN
    exact div_pos (by norm_num) (Real.sqrt_pos.mpr (flat_pos _))
  have hD : 0.039 ≤ x / (curveN 6378137 6356752 (utmPhi n) * 0.9996) := by
    rw [le_div_iff₀ (by positivity)]
    nlinarith
  have hC : 0 ≤ ecc2 6378137 6356752 / (1 - ecc2 6378137 6356752) * Real.cos (utmPhi n) ^ 2 := by
    apply mul_nonneg _ (sq_nonneg _)
    unfold ecc2; norm_num
  have hT := sq_nonneg (Real.tan (utmPhi n))
  generalize x / (curveN 6378137 6356752 (utmPhi n) * 0.9996) = D at *
  generalize ecc2 6378137 6356752 / (1 - ecc2 6378137 6356752) * Real.cos (utmPhi n) ^ 2 = C at *
  generalize Real.tan (utmPhi n) ^ 2 = T at *
  generalize Real.cos (utmPhi n) = y at *
  have hD3 : (0.000059 : ℝ) < D ^ 3 := by
    have := pow_le_pow_left₀ (by norm_num) hD 3
    norm_num at this ⊢
    linarith
  have h2 : 0.000059 / 3 < (1 + 2 * T + C) * D ^ 3 / 3 / y := by
    rw [lt_div_iff₀ hcos]
    have : D ^ 3 ≤ (1 + 2 * T + C) * D ^ 3 := by nlinarith
    nlinarith
  have h3 : 57.29 * (0.000059 / 3) < 180 / Real.pi * ((1 + 2 * T + C) * D ^ 3 / 3 / y) := by
    have h57 : (0:ℝ) < 57.29 := by norm_num
    nlinarith
  norm_num at h3 ⊢
  linarith

example : (0 : ℝ) ≤ 5900000 ∧ (5900000 : ℝ) ≤ 9900000 ∧ (250000 : ℝ) ≤ 300000 := by norm_num

/-! ## The line of a file (C75) -/

/-- A position as a map expects it: longitude first. -/
def IsLonLat (p : ℝ × ℝ) (lon lat : ℝ) : Prop := p = (lon, lat)

/-- C75 for files in UTM coordinates with a zone given: each end of the line is written with the longitude first and the
latitude second, and no message is printed. Missing: see the refutations. -/
theorem C75_utm_partial (north : Bool) (z : ℝ) (m : Corners) (h : 180 < m.xmin) :
    IsLonLat (kmlLine (kmlCorners (some (north, z)) m).1).1 (utmLng m.xmin m.ymin z) (utmLat m.xmin m.ymin north) ∧
      IsLonLat (kmlLine (kmlCorners (some (north, z)) m).1).2 (utmLng m.xmax m.ymax z) (utmLat m.xmax m.ymax north) ∧
      (kmlCorners (some (north, z)) m).2 = false := by
  simp [kmlCorners, h, kmlLine, IsLonLat]

example : 180 < (Corners.mk 400000 600000 5000000 5100000).xmin := by norm_num

/-- C75 fails for files that hold longitudes (x) and latitudes (y), with or without a zone: the latitude is written first,
so that an end is put in the right place only if its longitude equals its latitude. -/
theorem C75_order_refuted (zone : Option (Bool × ℝ)) (m : Corners) (hx : m.xmin ≤ 180) :
    (IsLonLat (kmlLine (kmlCorners zone m).1).1 m.xmin m.ymin ↔ m.xmin = m.ymin) ∧
      (IsLonLat (kmlLine (kmlCorners zone m).1).2 m.xmax m.ymax ↔ m.xmax = m.ymax) := by
  have : (kmlCorners zone m).1 = m := by
    unfold kmlCorners
    rcases zone with _ | ⟨north, z⟩
    · rfl
    · simp only; rw [if_neg (not_lt.2 hx)]
  rw [this]
  simp only [kmlLine, IsLonLat, Prod.mk.injEq]
  constructor
  · exact ⟨fun h => h.2, fun h => ⟨h.symm, h⟩⟩
  · exact ⟨fun h => h.2, fun h => ⟨h.symm, h⟩⟩

example : (Corners.mk (-9) (-8) 53 54).xmin ≤ 180 ∧ (Corners.mk (-9) (-8) 53 54).xmin ≠ (Corners.mk (-9) (-8) 53 54).ymin := by
  norm_num

/-- C75: without a zone the message that the coordinates are invalid is printed for every file, also for one whose
coordinates are latitudes and longitudes; with a zone it is never printed. -/
theorem C75_message_refuted (m : Corners) (zone : Option (Bool × ℝ)) :
    (kmlCorners zone m).2 = true ↔ zone = none := by
  unfold kmlCorners
  rcases zone with _ | ⟨north, z⟩
  · simp
  · simp only [reduceCtorEq, iff_false]
    split <;> simp

/-- C75 fails to show places of the survey: the ends of the line are corners of the bounding box, and no trace need be
there, even if the order of the two numbers is put right. Here all traces lie on a line that falls from the north-west to the south-east, and the line drawn is the other
diagonal. -/
theorem C75_diagonal_refuted : ∃ l : List (ℝ × ℝ), 2 ≤ l.length ∧ ∀ m : Corners,
    (∀ p ∈ l, m.xmin ≤ p.1 ∧ p.1 ≤ m.xmax ∧ m.ymin ≤ p.2 ∧ p.2 ≤ m.ymax) →
    (kmlLine (kmlCorners none m).1).1.swap ∉ l ∧ (kmlLine (kmlCorners none m).1).2.swap ∉ l := by
  refine ⟨[(0, 1), (1, 0)], by simp, ?_⟩
  intro m h
  have h1 := h (0, 1) (by simp)
  have h2 := h (1, 0) (by simp)
  simp only at h1 h2
  constructor
  · intro hm
    simp only [kmlLine, kmlCorners, Prod.swap, List.mem_cons, Prod.mk.injEq, List.not_mem_nil, or_false] at hm
    rcases hm with ⟨a, b⟩ | ⟨a, b⟩ <;> linarith
  · intro hm
    simp only [kmlLine, kmlCorners, Prod.swap, List.mem_cons, Prod.mk.injEq, List.not_mem_nil, or_false] at hm
    rcases hm with ⟨a, b⟩ | ⟨a, b⟩ <;> linarith

end Verif.Props
