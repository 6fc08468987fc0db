import Verif.Scalar.Model
import Mathlib.Tactic.LinearCombination
/-!
# Lemmas on coordinate scalars
-/
namespace Verif.Scalar
open Verif.FP

theorem trunc_neg (x : ℚ) : trunc (-x) = -trunc x := by
  unfold trunc
  rcases lt_trichotomy x 0 with h | h | h
  · rw [if_pos (by linarith), if_neg (by linarith)]; simp
  · subst h; simp
  · rw [if_neg (by linarith), if_pos (by linarith)]; simp

theorem trunc_err (x : ℚ) : |x - trunc x| < 1 := by
  unfold trunc
  split
  · have h1 := Int.floor_le x
    have h2 := Int.lt_floor_add_one x
    rw [abs_lt]; constructor <;> linarith
  · have h1 := Int.floor_le (-x)
    have h2 := Int.lt_floor_add_one (-x)
    push_cast
    rw [abs_lt]; constructor <;> linarith

/-- Error of a rounding, subnormal results included. -/
theorem rnd_err_all (x : ℚ) : |rnd x - x| ≤ |x| / 2 ^ 53 + 1 / 2 ^ 100 := by
  by_cases h : (2 : ℚ) ^ (-1022 : ℤ) ≤ |x|
  · have := rnd_err h
    have h2 : (0 : ℚ) < 1 / 2 ^ 100 := by positivity
    linarith
  · have h := lt_of_not_ge h
    have h0 : 0 ≤ |x| / 2 ^ 53 := by positivity
    by_cases hx : x = 0
    · subst hx; rw [rnd_zero]; simp
    · have h1 := rnd_err_ulp hx
      have h2 : ulpExp x ≤ -1022 := ulpExp_le (E := -1022) (lt_of_lt_of_le h
        (zpow_le_zpow_right₀ (by norm_num) (by norm_num))) (by norm_num) hx
      have h3 : (2 : ℚ) ^ ulpExp x ≤ 2 ^ (-100 : ℤ) :=
        zpow_le_zpow_right₀ (by norm_num) (by omega)
      have h4 : (2 : ℚ) ^ (-100 : ℤ) = 1 / 2 ^ 100 := by
        rw [zpow_neg]; norm_num
      have h5 := two_zpow_pos (ulpExp x)
      rw [h4] at h3
      generalize (2 : ℚ) ^ ulpExp x = w at *
      linarith

/-! ## Units -/

/-- Scalars the code writes. -/
def Accepted (s : BitVec 16) : Prop :=
  s = 1#16 ∨ s = 10#16 ∨ s = 100#16 ∨ s = 1000#16 ∨ s = 10000#16 ∨
  s = BitVec.ofInt 16 (-10) ∨ s = BitVec.ofInt 16 (-100) ∨ s = BitVec.ofInt 16 (-1000) ∨
  s = BitVec.ofInt 16 (-10000)

theorem toInt_bounds (s : BitVec 16) : -2 ^ 15 ≤ s.toInt ∧ s.toInt < 2 ^ 15 := by
  have h1 := BitVec.le_toInt s
  have h2 := BitVec.toInt_lt (x := s)
  simp at h1 h2 ⊢
  omega

/-- For every 16-bit scalar. -/
theorem unit_bounds (s : BitVec 16) : 1 / 2 ^ 15 ≤ unit s ∧ unit s ≤ 2 ^ 15 := by
  obtain ⟨h1, h2⟩ := toInt_bounds s
  unfold unit
  split
  · norm_num
  · split
    · have a : (1 : ℚ) ≤ s.toInt := by exact_mod_cast (by omega : (1 : ℤ) ≤ s.toInt)
      have b : (s.toInt : ℚ) ≤ 2 ^ 15 := by
        have : s.toInt ≤ 2 ^ 15 := by omega
        exact_mod_cast this
      constructor
      · refine le_trans ?_ a; norm_num
      · exact b
    · have a : (1 : ℚ) ≤ (-s.toInt : ℤ) := by exact_mod_cast (by omega : (1 : ℤ) ≤ -s.toInt)
      have b : ((-s.toInt : ℤ) : ℚ) ≤ 2 ^ 15 := by
        have : -s.toInt ≤ 2 ^ 15 := by omega
        exact_mod_cast this
      constructor
      · exact one_div_le_one_div_of_le (by linarith) b
      · rw [div_le_iff₀ (by linarith)]; nlinarith

theorem unit_pos (s : BitVec 16) : 0 < unit s := lt_of_lt_of_le (by positivity) (unit_bounds s).1

/-- The double used for a scalar is its unit up to one rounding. -/
theorem parse_err (s : BitVec 16) : |parseScalar s - unit s| ≤ unit s / 2 ^ 53 := by
  have hb := unit_bounds s
  have hp := unit_pos s
  unfold parseScalar unit at *
  split
  · simp
  · rename_i h0
    rw [if_neg h0] at hb hp
    split
    · rename_i h1
      rw [if_pos h1] at hb hp
      rw [sub_self, abs_zero]; positivity
    · rename_i h1
      rw [if_neg h1] at hb hp
      have := rnd_err (x := 1 / ((-s.toInt : ℤ) : ℚ)) (by
        rw [abs_of_pos hp]
        refine le_trans ?_ hb.1
        have : (1 : ℚ) / 2 ^ 15 = 2 ^ (-15 : ℤ) := by rw [zpow_neg]; norm_num
        rw [this]
        exact zpow_le_zpow_right₀ (by norm_num) (by norm_num))
      rw [abs_of_pos hp] at this
      exact this

theorem parse_pos (s : BitVec 16) : 0 < parseScalar s := by
  have h := parse_err s
  have hp := unit_pos s
  rw [abs_le] at h
  have : unit s / 2 ^ 53 < unit s := by rw [div_lt_iff₀ (by positivity)]; nlinarith
  linarith

/-- Division by a scalar: exact quotient up to small relative error. -/
theorem div_err (v : ℚ) (s : BitVec 16) :
    |rnd (v / parseScalar s) - v / unit s| ≤ |v / unit s| / 2 ^ 51 + 1 / 2 ^ 100 := by
  have hq := parse_pos s
  have hu := unit_pos s
  have he := parse_err s
  generalize parseScalar s = q at *
  generalize unit s = u at *
  have h1 : |v / q - v / u| ≤ |v / u| * (1 / 2 ^ 52) := by
    have hqu : u * (1 - 1 / 2 ^ 53) ≤ q := by rw [abs_le] at he; linarith [he.1]
    have : v / q - v / u = (v / u) * ((u - q) / q) := by field_simp
    rw [this, abs_mul]
    refine mul_le_mul_of_nonneg_left ?_ (abs_nonneg _)
    rw [abs_div, abs_of_pos hq, div_le_iff₀ hq, abs_sub_comm]
    refine le_trans he ?_
    nlinarith
  have h2 := rnd_err_all (v / q)
  have h3 : |v / q| ≤ |v / u| * 2 := by
    have := abs_sub_abs_le_abs_sub (v / q) (v / u)
    have h0 := abs_nonneg (v / u)
    nlinarith
  have h4 := abs_sub_le (rnd (v / q)) (v / q) (v / u)
  have h0 := abs_nonneg (v / u)
  linarith

/-- Multiplication by a scalar. -/
theorem mul_err (n : ℤ) (s : BitVec 16) (hn : InI32 n) :
    |rnd (parseScalar s * n) - unit s * n| ≤ |unit s * n| / 2 ^ 51 := by
  by_cases h0 : n = 0
  · subst h0; simp [rnd_zero]
  have hq := parse_pos s
  have hu := unit_pos s
  have hb := (unit_bounds s).1
  have he := parse_err s
  generalize parseScalar s = q at *
  generalize unit s = u at *
  have h1 : |q * n - u * n| ≤ |u * n| * (1 / 2 ^ 53) := by
    rw [← sub_mul, abs_mul, abs_mul, abs_of_pos hu]
    have := mul_le_mul_of_nonneg_right he (abs_nonneg (n : ℚ))
    linarith
  have hn1 : (1 : ℚ) ≤ |(n : ℚ)| := by
    have : 1 ≤ |n| := Int.one_le_abs h0
    exact_mod_cast this
  have h3 : |u * n| / 2 ≤ |q * n| ∧ |q * n| ≤ |u * n| * 2 := by
    have a := abs_sub_abs_le_abs_sub (q * n) (u * n)
    have b := abs_sub_abs_le_abs_sub (u * n) (q * n)
    rw [abs_sub_comm] at b
    have c := abs_nonneg (u * (n : ℚ))
    constructor <;> nlinarith
  have h2 : |rnd (q * n) - q * n| ≤ |q * n| / 2 ^ 53 := by
    apply rnd_err
    have : (2 : ℚ) ^ (-1022 : ℤ) ≤ 2 ^ (-16 : ℤ) := zpow_le_zpow_right₀ (by norm_num) (by norm_num)
    have e : (2 : ℚ) ^ (-16 : ℤ) = 1 / 2 ^ 16 := by rw [zpow_neg]; norm_num
    have : |u * n| ≥ 1 / 2 ^ 15 := by
      rw [abs_mul, abs_of_pos hu]
      nlinarith
    refine le_trans ‹_› (le_trans ?_ h3.1)
    rw [e]
    linarith
  have h4 := abs_sub_le (rnd (q * n)) (q * n) (u * n)
  linarith [h3.2]

/-! ## Decimals -/

/-- `v` is a double approximating `k / 10^4` (at least as large if that is an
integer). -/
def Near (v : ℚ) (k : ℤ) : Prop :=
  |v - k / 10000| ≤ |(k : ℚ) / 10000| / 2 ^ 50 ∧
  (10000 ∣ k → |(k : ℚ) / 10000| ≤ |v|)

theorem Near.neg {v : ℚ} {k : ℤ} (h : Near v k) : Near (-v) (-k) := by
  refine ⟨?_, fun hd => ?_⟩
  · have := h.1
    push_cast
    rw [show -v - -(k : ℚ) / 10000 = -(v - k / 10000) by ring, abs_neg,
      show -(k : ℚ) / 10000 = -(k / 10000) by ring, abs_neg]
    exact this
  · have := h.2 (by omega)
    push_cast
    rw [show -(k : ℚ) / 10000 = -(k / 10000) by ring, abs_neg, abs_neg]
    exact this

theorem near_rnd (k : ℤ) (hk : |k| < 2 ^ 60) : Near (rnd (k / 10000)) k := by
  by_cases h0 : k = 0
  · subst h0; simp [Near, rnd_zero]
  refine ⟨?_, fun hd => ?_⟩
  · have h1 : (1 : ℚ) ≤ |(k : ℚ)| := by
      have : 1 ≤ |k| := Int.one_le_abs h0
      exact_mod_cast this
    have := rnd_err (x := (k : ℚ) / 10000) (by
      rw [abs_div]
      have : (2 : ℚ) ^ (-1022 : ℤ) ≤ 2 ^ (-16 : ℤ) := zpow_le_zpow_right₀ (by norm_num) (by norm_num)
      have e : (2 : ℚ) ^ (-16 : ℤ) = 1 / 2 ^ 16 := by rw [zpow_neg]; norm_num
      have f : |(10000 : ℚ)| = 10000 := by norm_num
      rw [f]
      have : (1 : ℚ) / 10000 ≤ |(k : ℚ)| / 10000 := by gcongr
      refine le_trans ?_ this
      rw [e] at *
      refine le_trans ‹_› ?_
      norm_num)
    have h2 := abs_nonneg ((k : ℚ) / 10000)
    refine le_trans this ?_
    have : (2 : ℚ) ^ 53 = 8 * 2 ^ 50 := by norm_num
    rw [this]
    have : |(k : ℚ) / 10000| / (8 * 2 ^ 50) = |(k : ℚ) / 10000| / 2 ^ 50 / 8 := by ring
    rw [this]
    have : 0 ≤ |(k : ℚ) / 10000| / 2 ^ 50 := by positivity
    linarith
  · obtain ⟨n, rfl⟩ := hd
    have e : ((10000 * n : ℤ) : ℚ) / 10000 = n := by push_cast; field_simp
    rw [e, rnd_int]
    rw [abs_lt] at hk ⊢
    constructor <;> omega

theorem near_trunc_nonneg {v : ℚ} {k : ℤ} (h : Near v k) (hk : |k| < 2 ^ 46) (h0 : 0 ≤ k) :
    trunc v = k / 10000 := by
  obtain ⟨h1, h2⟩ := h
  have hk0 : (0 : ℚ) ≤ k := by exact_mod_cast h0
  have hk1 : (k : ℚ) < 2 ^ 46 := by
    rw [abs_lt] at hk
    exact_mod_cast hk.2
  have hdm : (k : ℚ) = 10000 * ((k / 10000 : ℤ) : ℚ) + ((k % 10000 : ℤ) : ℚ) := by
    exact_mod_cast (Int.mul_ediv_add_emod k 10000).symm
  rw [abs_of_nonneg (by positivity : (0 : ℚ) ≤ k / 10000)] at h1 h2
  rw [abs_le] at h1
  have hv0 : 0 ≤ v := by
    have : (k : ℚ) / 10000 / 2 ^ 50 ≤ k / 10000 := by
      rw [div_le_iff₀ (by positivity)]
      have : (0 : ℚ) ≤ k / 10000 := by positivity
      nlinarith
    linarith [h1.1]
  unfold trunc
  rw [if_pos hv0, Int.floor_eq_iff]
  have hr0 : (0 : ℚ) ≤ ((k % 10000 : ℤ) : ℚ) := by exact_mod_cast Int.emod_nonneg k (by norm_num)
  have hr1 : ((k % 10000 : ℤ) : ℚ) ≤ 9999 := by
    have := Int.emod_lt_of_pos k (by norm_num : (0 : ℤ) < 10000)
    exact_mod_cast (by omega : k % 10000 ≤ 9999)
  constructor
  · by_cases hr : k % 10000 = 0
    · have := h2 (Int.dvd_of_emod_eq_zero hr)
      rw [abs_of_nonneg hv0] at this
      rw [hr] at hdm
      push_cast at hdm
      rw [hdm] at this
      linarith
    · have : (1 : ℚ) ≤ ((k % 10000 : ℤ) : ℚ) := by
        have := Int.emod_nonneg k (by norm_num : (10000 : ℤ) ≠ 0)
        exact_mod_cast (by omega : 1 ≤ k % 10000)
      linarith [h1.1]
  · linarith [h1.2]

theorem near_trunc {v : ℚ} {k : ℤ} (h : Near v k) (hk : |k| < 2 ^ 46) : trunc v = k.tdiv 10000 := by
  rcases le_total 0 k with h0 | h0
  · rw [near_trunc_nonneg h hk h0, Int.tdiv_eq_ediv_of_nonneg h0]
  · have := near_trunc_nonneg h.neg (by rwa [abs_neg]) (by omega)
    rw [trunc_neg] at this
    have e : (-k).tdiv 10000 = -k / 10000 := Int.tdiv_eq_ediv_of_nonneg (by omega)
    rw [Int.neg_tdiv] at e
    omega

theorem near_digits {v : ℚ} {k : ℤ} (h : Near v k) (hk : |k| < 2 ^ 46) : lround (rnd (v * 10000)) = k := by
  apply lround_eq
  have h1 := h.1
  have hk1 : |(k : ℚ)| < 2 ^ 46 := by
    have : ((|k| : ℤ) : ℚ) < ((2 ^ 46 : ℤ) : ℚ) := by exact_mod_cast hk
    rw [Int.cast_abs] at this
    push_cast at this
    exact this
  have h2 := rnd_err_all (v * 10000)
  rw [abs_div, abs_of_pos (by norm_num : (0 : ℚ) < 10000)] at h1
  have h3 : |v * 10000 - k| ≤ |(k : ℚ)| / 2 ^ 50 := by
    have : v * 10000 - k = (v - k / 10000) * 10000 := by field_simp
    rw [this, abs_mul, abs_of_pos (by norm_num : (0 : ℚ) < 10000)]
    linarith
  have h4 : |v * 10000| ≤ |(k : ℚ)| * 2 := by
    have := abs_sub_abs_le_abs_sub (v * 10000) k
    have h0 := abs_nonneg (k : ℚ)
    linarith
  have h5 := abs_sub_le (rnd (v * 10000)) (v * 10000) k
  have : (1 : ℚ) / 2 ^ 100 < 1 / 2 ^ 10 := by norm_num
  linarith

/-- The stored integer of a decimal that is a multiple of the unit. -/
theorem near_encode {v : ℚ} {k M : ℤ} {s : BitVec 16} (h : Near v k) (hM : |M| < 2 ^ 46)
    (hu : unit s * M = k / 10000) : lround (rnd (v / parseScalar s)) = M := by
  apply lround_eq
  have hp := unit_pos s
  have h1 := div_err v s
  have h2 : |v / unit s - M| ≤ |(M : ℚ)| / 2 ^ 50 := by
    have e : v / unit s - M = (v - k / 10000) / unit s := by rw [← hu]; field_simp
    rw [e, abs_div, abs_of_pos hp, div_le_iff₀ hp]
    have := h.1
    rw [← hu, abs_mul, abs_of_pos hp] at this
    rw [← hu]
    linarith
  have hM1 : |(M : ℚ)| < 2 ^ 46 := by
    have : ((|M| : ℤ) : ℚ) < ((2 ^ 46 : ℤ) : ℚ) := by exact_mod_cast hM
    rw [Int.cast_abs] at this
    push_cast at this
    exact this
  have h4 : |v / unit s| ≤ |(M : ℚ)| * 2 := by
    have := abs_sub_abs_le_abs_sub (v / unit s) M
    have h0 := abs_nonneg (M : ℚ)
    linarith
  have h5 := abs_sub_le (rnd (v / parseScalar s)) (v / unit s) M
  have : (1 : ℚ) / 2 ^ 100 < 1 / 2 ^ 10 := by norm_num
  linarith

theorem wrap32_of_in {n : ℤ} (h : InI32 n) : wrap32 n = n := by
  unfold wrap32
  exact Int.bmod_eq_of_le (by have := h.1; norm_num; omega) (by have := h.2; norm_num; omega)

theorem ofInt32_toInt {n : ℤ} (h : InI32 n) : (BitVec.ofInt 32 n).toInt = n := by
  rw [BitVec.toInt_ofInt]; exact wrap32_of_in h

theorem unit_neg10 : unit (BitVec.ofInt 16 (-10)) = 1 / 10 := by
  have : (BitVec.ofInt 16 (-10)).toInt = -10 := by decide
  simp [unit]
theorem unit_neg100 : unit (BitVec.ofInt 16 (-100)) = 1 / 100 := by
  have : (BitVec.ofInt 16 (-100)).toInt = -100 := by decide
  simp [unit]
theorem unit_neg1000 : unit (BitVec.ofInt 16 (-1000)) = 1 / 1000 := by
  have : (BitVec.ofInt 16 (-1000)).toInt = -1000 := by decide
  simp [unit]
theorem unit_neg10000 : unit (BitVec.ofInt 16 (-10000)) = 1 / 10000 := by
  have : (BitVec.ofInt 16 (-10000)).toInt = -10000 := by decide
  simp [unit]
theorem unit_one : unit 1#16 = 1 := by
  have : (1#16).toInt = 1 := by decide
  simp [unit]

/-- The test of one negative scalar succeeds if the scaled value fits. -/
theorem test_ok {v : ℚ} {k M D : ℤ} {s : BitVec 16} (h : Near v k) (hM : InI32 M)
    (hu : unit s * M = k / 10000) (hD : 0 < D) (hs : unit s = 1 / D) :
    (wrap32 (lround (rnd (v / parseScalar s)))).tdiv D = k.tdiv 10000 := by
  have hM' : |M| < 2 ^ 46 := by obtain ⟨a, b⟩ := hM; rw [abs_lt]; omega
  rw [near_encode h hM' hu, wrap32_of_in hM]
  have e : M * 10000 = k * D := by
    rw [hs] at hu
    have hD' : (D : ℚ) ≠ 0 := by exact_mod_cast (by omega : D ≠ 0)
    field_simp at hu
    have : M * 10000 = D * k := by exact_mod_cast hu
    rw [this, mul_comm]
  have e1 : (M * 10000).tdiv (D * 10000) = M.tdiv D := Int.mul_tdiv_mul_of_pos_left M D (by norm_num)
  have e2 : (k * D).tdiv (10000 * D) = k.tdiv 10000 := Int.mul_tdiv_mul_of_pos_left k 10000 hD
  rw [← e1, e, mul_comm D, e2]

theorem tmod_eq_zero {a b : ℤ} : a.tmod b = 0 ↔ b ∣ a := (Int.dvd_iff_tmod_eq_zero).symm

/-- **find_scalar on decimals.** -/
theorem find_decimal {v : ℚ} {k : ℤ} (h : Near v k) {d M : ℤ} (hd : d = 1 ∨ d = 10 ∨ d = 100 ∨ d = 1000 ∨ d = 10000)
    (hM : InI32 M) (hk : k * d = M * 10000) :
    ∃ s N, Accepted s ∧ findScalar v = .ok s ∧ unit s * (N : ℤ) = k / 10000 ∧ InI32 N ∧ s.toInt ≤ 1 := by
  have hkb : |k| < 2 ^ 46 := by
    obtain ⟨a, b⟩ := hM
    rw [abs_lt]
    rcases hd with rfl | rfl | rfl | rfl | rfl <;> omega
  have ht := near_trunc h hkb
  have hg := near_digits h hkb
  have hip : InI32 (k.tdiv 10000) := by
    obtain ⟨a, b⟩ := hM
    have h1 := Int.mul_tdiv_add_tmod k 10000
    have h2 := Int.tmod_lt_of_pos k (by norm_num : (0 : ℤ) < 10000)
    have h3 := Int.lt_tmod_of_pos k (by norm_num : (0 : ℤ) < 10000)
    unfold InI32
    rcases hd with rfl | rfl | rfl | rfl | rfl <;> omega
  have hip' : InI64 (k.tdiv 10000) := by obtain ⟨a, b⟩ := hip; unfold InI64; omega
  have hf : findScalar v = .ok (smallLoop v (k.tdiv 10000) (k - k.tdiv 10000 * 10000) [1, 10, 100, 1000]) := by
    unfold findScalar
    simp only [ht, hg, if_pos hip, if_pos hip']
  rw [hf]
  have q10000 : Int.tdiv (-10000) 1 = -10000 := by decide
  have q1000 : Int.tdiv (-10000) 10 = -1000 := by decide
  have q100 : Int.tdiv (-10000) 100 = -100 := by decide
  have q10 : Int.tdiv (-10000) 1000 = -10 := by decide
  have c : ∀ (s : BitVec 16) (a : ℤ) (b : ℤ) (D : ℤ), unit s = 1 / D → 0 < D → a * D = 10000 * 1 → k = a * b →
      unit s * (b : ℚ) = (k : ℚ) / 10000 := by
    intro s a b D hs hD h1 h2
    rw [hs, h2]
    have hD' : (D : ℚ) ≠ 0 := by exact_mod_cast (by omega : D ≠ 0)
    have h1' : (a : ℚ) * D = 10000 := by exact_mod_cast (by omega : a * D = 10000)
    push_cast
    field_simp
    linear_combination (-(b : ℚ)) * h1'
  generalize hdg : k - k.tdiv 10000 * 10000 = dg
  by_cases h1 : (10 : ℤ) ∣ k
  · by_cases h2 : (100 : ℤ) ∣ k
    · by_cases h3 : (1000 : ℤ) ∣ k
      · by_cases h4 : (10000 : ℤ) ∣ k
        · obtain ⟨N, hN⟩ := h4
          refine ⟨1#16, N, Or.inl rfl, ?_, c _ 10000 N 1 (by rw [unit_one]; norm_num) (by norm_num) (by norm_num) hN, ?_, by decide⟩
          · have e : ∀ i : ℤ, i ∣ 10000 → dg.tmod i = 0 := by
              intro i hi
              rw [tmod_eq_zero, ← hdg, hN]
              exact dvd_sub (Dvd.dvd.mul_right hi _) (Dvd.dvd.mul_left hi _)
            simp [smallLoop, e 10 (by norm_num), e 100 (by norm_num), e 1000 (by norm_num), e 10000 (by norm_num)]
          · unfold InI32 at *
            rcases hd with rfl | rfl | rfl | rfl | rfl <;> omega
        · obtain ⟨N, hN⟩ := h3
          have hu := c (BitVec.ofInt 16 (-10)) 1000 N 10 (by rw [unit_neg10]; norm_num) (by norm_num) (by norm_num) hN
          have hI : InI32 N := by
            unfold InI32 at *
            rcases hd with rfl | rfl | rfl | rfl | rfl <;> omega
          refine ⟨BitVec.ofInt 16 (-10), N, by simp [Accepted], ?_, hu, hI, by decide⟩
          have e1 : dg.tmod 10 = 0 := tmod_eq_zero.mpr (by omega)
          have e2 : dg.tmod 100 = 0 := tmod_eq_zero.mpr (by omega)
          have e3 : dg.tmod 1000 = 0 := tmod_eq_zero.mpr (by omega)
          have e4 : dg.tmod 10000 ≠ 0 := fun h => h4 (by have := tmod_eq_zero.mp h; omega)
          have t := test_ok (D := 10) h hI hu (by norm_num) (by rw [unit_neg10]; norm_num)
          simp only [BitVec.reduceOfInt, Int.reduceNeg] at t
          simp [smallLoop, e1, e2, e3, e4, q10, t]
      · obtain ⟨N, hN⟩ := h2
        have hu := c (BitVec.ofInt 16 (-100)) 100 N 100 (by rw [unit_neg100]; norm_num) (by norm_num) (by norm_num) hN
        have hI : InI32 N := by
          unfold InI32 at *
          rcases hd with rfl | rfl | rfl | rfl | rfl <;> omega
        refine ⟨BitVec.ofInt 16 (-100), N, by simp [Accepted], ?_, hu, hI, by decide⟩
        have e1 : dg.tmod 10 = 0 := tmod_eq_zero.mpr (by omega)
        have e2 : dg.tmod 100 = 0 := tmod_eq_zero.mpr (by omega)
        have e3 : dg.tmod 1000 ≠ 0 := fun h => h3 (by have := tmod_eq_zero.mp h; omega)
        have t := test_ok (D := 100) h hI hu (by norm_num) (by rw [unit_neg100]; norm_num)
        simp only [BitVec.reduceOfInt, Int.reduceNeg] at t
        simp [smallLoop, e1, e2, e3, q100, t]
    · obtain ⟨N, hN⟩ := h1
      have hu := c (BitVec.ofInt 16 (-1000)) 10 N 1000 (by rw [unit_neg1000]; norm_num) (by norm_num) (by norm_num) hN
      have hI : InI32 N := by
        unfold InI32 at *
        rcases hd with rfl | rfl | rfl | rfl | rfl <;> omega
      refine ⟨BitVec.ofInt 16 (-1000), N, by simp [Accepted], ?_, hu, hI, by decide⟩
      have e1 : dg.tmod 10 = 0 := tmod_eq_zero.mpr (by omega)
      have e2 : dg.tmod 100 ≠ 0 := fun h => h2 (by have := tmod_eq_zero.mp h; omega)
      have t := test_ok (D := 1000) h hI hu (by norm_num) (by rw [unit_neg1000]; norm_num)
      simp only [BitVec.reduceOfInt, Int.reduceNeg] at t
      simp [smallLoop, e1, e2, q1000, t]
  · have hu := c (BitVec.ofInt 16 (-10000)) 1 k 10000 (by rw [unit_neg10000]; norm_num) (by norm_num) (by norm_num) (by omega)
    have hI : InI32 k := by
      unfold InI32 at *
      rcases hd with rfl | rfl | rfl | rfl | rfl <;> omega
    refine ⟨BitVec.ofInt 16 (-10000), k, by simp [Accepted], ?_, hu, hI, by decide⟩
    have e1 : dg.tmod 10 ≠ 0 := fun h => h1 (by have := tmod_eq_zero.mp h; omega)
    have t := test_ok (D := 10000) h hI hu (by norm_num) (by rw [unit_neg10000]; norm_num)
    simp only [BitVec.reduceOfInt, Int.reduceNeg] at t
    simp [smallLoop, e1, q10000, t]

/-! ## Any value -/

theorem smallLoop_spec (v : ℚ) (ip dg : ℤ) (l : List ℤ) :
    smallLoop v ip dg l = 1#16 ∨ ∃ i ∈ l, dg.tmod (i * 10) ≠ 0 ∧
      smallLoop v ip dg l = BitVec.ofInt 16 (Int.tdiv (-10000) i) ∧
      (wrap32 (lround (rnd (v / parseScalar (BitVec.ofInt 16 (Int.tdiv (-10000) i)))))).tdiv
        (-(Int.tdiv (-10000) i)) = ip := by
  induction l with
  | nil => exact Or.inl rfl
  | cons i l ih =>
    unfold smallLoop
    have lift : (smallLoop v ip dg l = 1#16 ∨ ∃ j ∈ i :: l, dg.tmod (j * 10) ≠ 0 ∧
      smallLoop v ip dg l = BitVec.ofInt 16 (Int.tdiv (-10000) j) ∧
      (wrap32 (lround (rnd (v / parseScalar (BitVec.ofInt 16 (Int.tdiv (-10000) j)))))).tdiv
        (-(Int.tdiv (-10000) j)) = ip) := by
      rcases ih with h | ⟨j, hj, h⟩
      · exact Or.inl h
      · exact Or.inr ⟨j, List.mem_cons_of_mem _ hj, h⟩
    by_cases hd : dg.tmod (i * 10) ≠ 0
    · rw [if_pos hd]
      by_cases ht : (wrap32 (lround (rnd (v / parseScalar (BitVec.ofInt 16 (Int.tdiv (-10000) i)))))).tdiv
        (-(Int.tdiv (-10000) i)) = ip
      · simp only [ht, if_true]
        exact Or.inr ⟨i, List.mem_cons_self, hd, rfl, ht⟩
      · simp only [ht, if_false]
        exact lift
    · rw [if_neg hd]
      exact lift

/-- A scaled value whose wrapped form passes the test was not wrapped. -/
theorem test_fits {v : ℚ} {D : ℤ} {s : BitVec 16} (hv : |v| ≤ 2 ^ 31) (hD : 1 ≤ D) (hD' : D ≤ 10000)
    (hs : unit s = 1 / D)
    (h : (wrap32 (lround (rnd (v / parseScalar s)))).tdiv D = trunc v) :
    InI32 (lround (rnd (v / parseScalar s))) := by
  have h1 := lround_err (rnd (v / parseScalar s))
  have h2 := div_err v s
  generalize lround (rnd (v / parseScalar s)) = L at *
  have hDq : (1 : ℚ) ≤ D := by exact_mod_cast hD
  have hDq' : (D : ℚ) ≤ 10000 := by exact_mod_cast hD'
  have e : v / unit s = v * D := by rw [hs]; field_simp
  rw [e] at h2
  have hvD : |v * D| ≤ 2 ^ 31 * 10000 := by
    rw [abs_mul, abs_of_pos (by linarith : (0 : ℚ) < D)]
    nlinarith [abs_nonneg v]
  have h3 : |(L : ℚ) - v * D| ≤ 1 := by
    have := abs_sub_le (L : ℚ) (rnd (v / parseScalar s)) (v * D)
    have : (1 : ℚ) / 2 ^ 100 < 1 / 2 ^ 10 := by norm_num
    linarith
  have h4 := trunc_err v
  have h5 : |v * D - trunc v * D| < D := by
    rw [← sub_mul, abs_mul, abs_of_pos (by linarith : (0 : ℚ) < D)]
    nlinarith
  have h6 : |((L - trunc v * D : ℤ) : ℚ)| < 10002 := by
    push_cast
    have := abs_sub_le (L : ℚ) (v * D) (trunc v * D)
    linarith
  have h7 : |L - trunc v * D| < 10002 := by
    rw [← Int.cast_abs] at h6
    exact_mod_cast h6
  have h8 := Int.mul_tdiv_add_tmod (wrap32 L) D
  have h9 := Int.tmod_lt_of_pos (wrap32 L) (by omega : 0 < D)
  have h10 := Int.lt_tmod_of_pos (wrap32 L) (by omega : 0 < D)
  rw [h] at h8
  rw [mul_comm] at h8
  generalize trunc v * D = w at *
  rw [abs_lt] at h7
  have h11 : wrap32 L = L ∨ 2 ^ 32 ≤ L - wrap32 L ∨ 2 ^ 32 ≤ wrap32 L - L := by
    have hm : (wrap32 L) % (2 ^ 32) = L % (2 ^ 32) := by
      unfold wrap32; exact Int.bmod_emod
    omega
  have hL : wrap32 L = L := by
    rcases h11 with h | h | h
    · exact h
    · omega
    · omega
  have a := Int.le_bmod (x := L) (m := 2 ^ 32) (by norm_num)
  have b := Int.bmod_lt (x := L) (m := 2 ^ 32) (by norm_num)
  unfold wrap32 at hL
  rw [hL] at a b
  norm_num at a b
  exact ⟨by omega, by omega⟩

theorem trunc_bounds {v : ℚ} {B : ℤ} (h : |v| ≤ B) : |trunc v| ≤ B := by
  have h1 := trunc_err v
  have hB : (0 : ℚ) ≤ B := le_trans (abs_nonneg v) h
  unfold trunc at *
  rw [abs_le] at h ⊢
  split
  · rename_i h0
    constructor
    · have : 0 ≤ ⌊v⌋ := Int.floor_nonneg.mpr h0
      have : 0 ≤ B := by exact_mod_cast hB
      omega
    · have := Int.floor_le v
      have : (⌊v⌋ : ℚ) ≤ B := by linarith
      exact_mod_cast this
  · rename_i h0
    have h0' : 0 ≤ -v := by linarith
    constructor
    · have := Int.floor_le (-v)
      have : (⌊-v⌋ : ℚ) ≤ B := by linarith
      have : ⌊-v⌋ ≤ B := by exact_mod_cast this
      omega
    · have : 0 ≤ ⌊-v⌋ := Int.floor_nonneg.mpr h0'
      have : 0 ≤ B := by exact_mod_cast hB
      omega

/-- The integer stored for `v` with scalar `s`. -/
theorem encode_err {v : ℚ} {s : BitVec 16} (h : |v / unit s| ≤ 2 ^ 31 - 1) :
    ∃ n, encode v s = .ok n ∧ |unit s * n.toInt - v| ≤ unit s / 2 + (|v| + unit s) / 2 ^ 50 := by
  have h1 := lround_err (rnd (v / parseScalar s))
  have h2 := div_err v s
  have hp := unit_pos s
  have h3 : |((lround (rnd (v / parseScalar s)) : ℤ) : ℚ) - v / unit s| ≤
      1 / 2 + |v / unit s| / 2 ^ 51 + 1 / 2 ^ 100 := by
    have := abs_sub_le ((lround (rnd (v / parseScalar s)) : ℤ) : ℚ) (rnd (v / parseScalar s)) (v / unit s)
    linarith
  unfold encode
  simp only
  generalize lround (rnd (v / parseScalar s)) = L at *
  have hL : InI32 L := by
    have a := abs_sub_abs_le_abs_sub (L : ℚ) (v / unit s)
    have : (1 : ℚ) / 2 ^ 100 < 1 / 2 ^ 10 := by norm_num
    have b : |(L : ℚ)| < 2 ^ 31 := by linarith
    have c : |L| < 2 ^ 31 := by
      have : ((|L| : ℤ) : ℚ) < ((2 ^ 31 : ℤ) : ℚ) := by rw [Int.cast_abs]; push_cast; exact b
      exact_mod_cast this
    rw [abs_lt] at c
    exact ⟨by omega, c.2⟩
  have hL' : InI64 L := ⟨by have := hL.1; omega, by have := hL.2; omega⟩
  rw [if_pos hL']
  refine ⟨_, rfl, ?_⟩
  rw [ofInt32_toInt hL]
  have e : unit s * L - v = unit s * (L - v / unit s) := by field_simp
  rw [e, abs_mul, abs_of_pos hp]
  have e2 : |v| = unit s * |v / unit s| := by rw [abs_div, abs_of_pos hp]; field_simp
  rw [e2]
  have := mul_le_mul_of_nonneg_left h3 (le_of_lt hp)
  have h0 := abs_nonneg (v / unit s)
  have h00 : 0 ≤ unit s * |v / unit s| := by positivity
  refine le_trans this ?_
  have : (1 : ℚ) / 2 ^ 100 ≤ 1 / 2 ^ 50 := by norm_num
  nlinarith

theorem accepted_cases {i : ℤ} (h : i ∈ [(1 : ℤ), 10, 100, 1000]) :
    Accepted (BitVec.ofInt 16 (Int.tdiv (-10000) i)) ∧ (BitVec.ofInt 16 (Int.tdiv (-10000) i)).toInt ≤ 1 ∧
    ∃ D : ℤ, 1 ≤ D ∧ D ≤ 10000 ∧ unit (BitVec.ofInt 16 (Int.tdiv (-10000) i)) = 1 / D ∧
      -(Int.tdiv (-10000) i) = D := by
  simp only [List.mem_cons, List.not_mem_nil, or_false] at h
  rcases h with rfl | rfl | rfl | rfl
  · rw [show Int.tdiv (-10000) 1 = -10000 by decide]
    exact ⟨by simp [Accepted], by decide, 10000, by norm_num, by norm_num, by rw [unit_neg10000]; norm_num, rfl⟩
  · rw [show Int.tdiv (-10000) 10 = -1000 by decide]
    exact ⟨by simp [Accepted], by decide, 1000, by norm_num, by norm_num, by rw [unit_neg1000]; norm_num, rfl⟩
  · rw [show Int.tdiv (-10000) 100 = -100 by decide]
    exact ⟨by simp [Accepted], by decide, 100, by norm_num, by norm_num, by rw [unit_neg100]; norm_num, rfl⟩
  · rw [show Int.tdiv (-10000) 1000 = -10 by decide]
    exact ⟨by simp [Accepted], by decide, 10, by norm_num, by norm_num, by rw [unit_neg10]; norm_num, rfl⟩

end Verif.Scalar
