import Verif.Props.FilterSingle
import Mathlib.Analysis.SpecialFunctions.Trigonometric.Arctan
import Mathlib.Analysis.SpecialFunctions.Trigonometric.Bounds
import Mathlib.Analysis.Real.Pi.Bounds
import Mathlib.RingTheory.Polynomial.Vieta
import Mathlib.Analysis.Normed.Ring.InfiniteSum
import Mathlib.Topology.Algebra.InfiniteSum.Real

/-!
C99, the coefficients: what rounding them to floats does to the filter designed.
-/

namespace Verif.Signal

open Verif.FP32 Verif.FP32.F32 Finset

/-- A float with the largest exponent that its value allows is at least a unit away from every other float. -/
theorem single_gap {n e : ℤ} (h1 : 2 ^ 23 < |n|) {f : ℚ} (hf : IsSingle f)
    (hne : f ≠ n * 2 ^ e) : (2 : ℚ) ^ e ≤ |f - n * 2 ^ e| := by
  obtain ⟨m, k, hm, _, rfl⟩ := hf
  have h2e : (0 : ℚ) < 2 ^ e := by positivity
  rcases le_or_gt e k with hk | hk
  · obtain ⟨d, rfl⟩ : ∃ d : ℕ, k = e + d := ⟨(k - e).toNat, by omega⟩
    rw [zpow_add₀ (by norm_num), zpow_natCast] at hne ⊢
    have hz : m * 2 ^ d - n ≠ 0 := by
      intro h0
      apply hne
      have : (m : ℚ) * 2 ^ d = n := by exact_mod_cast sub_eq_zero.mp h0
      rw [← this]; ring
    have h1' : (1 : ℚ) ≤ |((m * 2 ^ d - n : ℤ) : ℚ)| := by
      rw [← Int.cast_abs]; exact_mod_cast Int.one_le_abs hz
    rw [show (m : ℚ) * (2 ^ e * 2 ^ d) - n * 2 ^ e = ((m * 2 ^ d - n : ℤ) : ℚ) * 2 ^ e by push_cast; ring, abs_mul,
      abs_of_pos h2e]
    nlinarith
  · have hk' : (2 : ℚ) ^ k ≤ 2 ^ (e - 1) := zpow_le_zpow_right₀ (by norm_num) (by omega)
    have he : (2 : ℚ) ^ (e - 1) * 2 = 2 ^ e := by rw [← zpow_add_one₀ (by norm_num)]; congr 1; omega
    have hkp : (0 : ℚ) < 2 ^ k := by positivity
    have hm' : |(m : ℚ)| ≤ 2 ^ 24 := by rw [← Int.cast_abs]; exact_mod_cast hm.le
    have hn' : (2 : ℚ) ^ 23 + 1 ≤ |(n : ℚ)| := by rw [← Int.cast_abs]; exact_mod_cast h1
    have e1 : |(m : ℚ) * 2 ^ k| ≤ 2 ^ 23 * 2 ^ e := by
      rw [abs_mul, abs_of_pos hkp]
      calc |(m : ℚ)| * 2 ^ k ≤ 2 ^ 24 * 2 ^ (e - 1) := mul_le_mul hm' hk' hkp.le (by norm_num)
        _ = 2 ^ 23 * 2 ^ e := by rw [← he]; ring
    have e2 : (2 ^ 23 + 1) * (2 : ℚ) ^ e ≤ |(n : ℚ) * 2 ^ e| := by
      rw [abs_mul, abs_of_pos h2e]
      exact mul_le_mul_of_nonneg_right hn' h2e.le
    have e3 := abs_sub_abs_le_abs_sub ((n : ℚ) * 2 ^ e) (m * 2 ^ k)
    rw [abs_sub_comm] at e3
    nlinarith

/-- `q` is a float, and none is nearer to `x`. -/
def Nearest (q : ℚ) (x : ℝ) : Prop := IsSingle q ∧ ∀ f, IsSingle f → |(q : ℝ) - x| ≤ |(f : ℝ) - x|

theorem nearest_of {n e : ℤ} (he : -149 ≤ e) (h1 : 2 ^ 23 < |n|) (h2 : |n| < 2 ^ 24) {x : ℝ}
    (hx : |(n : ℝ) * 2 ^ e - x| ≤ 2 ^ e / 2) : Nearest (n * 2 ^ e) x := by
  refine ⟨⟨n, e, h2, he, rfl⟩, fun f hf => ?_⟩
  push_cast
  by_cases h : f = n * 2 ^ e
  · rw [h]; push_cast; exact le_rfl
  · have hg := (Rat.cast_le (K := ℝ)).2 (single_gap h1 hf h)
    push_cast at hg
    have tri : |(f : ℝ) - n * 2 ^ e| ≤ |(f : ℝ) - x| + |(n : ℝ) * 2 ^ e - x| := by
      rw [show (f : ℝ) - n * 2 ^ e = (f - x) - (n * 2 ^ e - x) by ring]; exact abs_sub _ _
    linarith

/-! ### The denominator of order four -/

theorem pole_cs (N i : Nat) (θ : ℝ) (h : Real.pi * (1 + 2 * i - N) / (2 * N) = θ) :
    pole N i = -((Real.cos θ : ℂ) + Real.sin θ * Complex.I) := by
  unfold pole
  rw [show Complex.I * Real.pi * ((1 + 2 * i - N : ℝ) : ℂ) / ((2 * N : ℝ) : ℂ) = (θ : ℂ) * Complex.I by
    rw [← h]; push_cast; ring, Complex.exp_mul_I, ← Complex.ofReal_cos, ← Complex.ofReal_sin]

/-- The product over the four poles. -/
theorem poles4 (u v : ℂ) : ∏ i ∈ range 4, (u - pole 4 i * v) =
    (u ^ 2 + 2 * Real.sin (Real.pi / 8) * u * v + v ^ 2) * (u ^ 2 + 2 * Real.cos (Real.pi / 8) * u * v + v ^ 2) := by
  have c3 : Real.cos (3 * Real.pi / 8) = Real.sin (Real.pi / 8) := by
    rw [← Real.cos_pi_div_two_sub]; congr 1; ring
  have s3 : Real.sin (3 * Real.pi / 8) = Real.cos (Real.pi / 8) := by
    rw [← Real.sin_pi_div_two_sub]; congr 1; ring
  have p0 : pole 4 0 = -((Real.sin (Real.pi / 8) : ℂ) - Real.cos (Real.pi / 8) * Complex.I) := by
    rw [pole_cs 4 0 (-(3 * Real.pi / 8)) (by push_cast; ring), Real.cos_neg, Real.sin_neg, c3, s3]
    push_cast; ring
  have p1 : pole 4 1 = -((Real.cos (Real.pi / 8) : ℂ) - Real.sin (Real.pi / 8) * Complex.I) := by
    rw [pole_cs 4 1 (-(Real.pi / 8)) (by push_cast; ring), Real.cos_neg, Real.sin_neg]
    push_cast; ring
  have p2 : pole 4 2 = -((Real.cos (Real.pi / 8) : ℂ) + Real.sin (Real.pi / 8) * Complex.I) :=
    pole_cs 4 2 _ (by push_cast; ring)
  have p3 : pole 4 3 = -((Real.sin (Real.pi / 8) : ℂ) + Real.cos (Real.pi / 8) * Complex.I) := by
    rw [pole_cs 4 3 (3 * Real.pi / 8) (by push_cast; ring), c3, s3]
  rw [prod_range_succ, prod_range_succ, prod_range_succ, prod_range_one, p0, p1, p2, p3]
  have h1 : (Real.sin (Real.pi / 8) : ℂ) ^ 2 + (Real.cos (Real.pi / 8) : ℂ) ^ 2 = 1 := by
    rw [← Complex.ofReal_pow, ← Complex.ofReal_pow, ← Complex.ofReal_add, Real.sin_sq_add_cos_sq, Complex.ofReal_one]
  have hI := Complex.I_sq
  generalize (Real.sin (Real.pi / 8) : ℂ) = s at *
  generalize (Real.cos (Real.pi / 8) : ℂ) = c at *
  have e1 : (u - -(s - c * Complex.I) * v) * (u - -(s + c * Complex.I) * v) = u ^ 2 + 2 * s * u * v + v ^ 2 := by
    linear_combination v ^ 2 * h1 - c ^ 2 * v ^ 2 * hI
  have e2 : (u - -(c - s * Complex.I) * v) * (u - -(c + s * Complex.I) * v) = u ^ 2 + 2 * c * u * v + v ^ 2 := by
    linear_combination v ^ 2 * h1 - s ^ 2 * v ^ 2 * hI
  rw [← e1, ← e2]
  ring

/-- Twice the sum of the two constants. -/
noncomputable def cS : ℝ := 2 * Real.sin (Real.pi / 8) + 2 * Real.cos (Real.pi / 8)

theorem cS_sq : cS ^ 2 = 4 + 2 * √2 := by
  have h := Real.sin_sq_add_cos_sq (Real.pi / 8)
  have h2 := Real.sin_two_mul (Real.pi / 8)
  rw [show 2 * (Real.pi / 8) = Real.pi / 4 by ring, Real.sin_pi_div_four] at h2
  unfold cS
  nlinarith

theorem two_prod : 4 * Real.sin (Real.pi / 8) * Real.cos (Real.pi / 8) = √2 := by
  have h2 := Real.sin_two_mul (Real.pi / 8)
  rw [show 2 * (Real.pi / 8) = Real.pi / 4 by ring, Real.sin_pi_div_four] at h2
  linarith

theorem sqrt2_lo : (1.41421356237 : ℝ) < √2 := Real.lt_sqrt_of_sq_lt (by norm_num)
theorem sqrt2_hi : √2 < (1.41421356238 : ℝ) := (Real.sqrt_lt' (by norm_num)).mpr (by norm_num)
theorem cS_pos : 0 < cS := by
  unfold cS
  have h1 : 0 < Real.sin (Real.pi / 8) := Real.sin_pos_of_pos_of_lt_pi (by positivity) (by linarith [Real.pi_pos])
  have h2 : 0 < Real.cos (Real.pi / 8) := Real.cos_pos_of_mem_Ioo ⟨by linarith [Real.pi_pos], by linarith [Real.pi_pos]⟩
  linarith
theorem cS_lo : (2.61312592973 : ℝ) < cS := by
  have := cS_sq; have := sqrt2_lo; have := cS_pos
  nlinarith
theorem cS_hi : cS < (2.61312592977 : ℝ) := by
  have := cS_sq; have := sqrt2_hi; have := cS_pos
  nlinarith

/-- The design of order four with the corner at `4 t` after warping: the denominator. -/
theorem den4 (sq : ℂ → ℂ) (fs c t : ℝ) (ht : 0 < t) (hw : warp fs c = 4 * t) :
    ∃ b a, makeFilter sq .lowpass 4 fs c 0 = .ok (b, a) ∧ a.length = 5 ∧
      sig a 0 = 1 ∧
      sig a 1 * (1 + cS * t + (2 + √2) * t ^ 2 + cS * t ^ 3 + t ^ 4) = -4 - 2 * cS * t + 2 * cS * t ^ 3 + 4 * t ^ 4 ∧
      sig a 2 * (1 + cS * t + (2 + √2) * t ^ 2 + cS * t ^ 3 + t ^ 4) = 6 - 2 * (2 + √2) * t ^ 2 + 6 * t ^ 4 ∧
      sig a 3 * (1 + cS * t + (2 + √2) * t ^ 2 + cS * t ^ 3 + t ^ 4) = -4 + 2 * cS * t - 2 * cS * t ^ 3 + 4 * t ^ 4 ∧
      sig a 4 * (1 + cS * t + (2 + √2) * t ^ 2 + cS * t ^ 3 + t ^ 4) =
        1 - cS * t + (2 + √2) * t ^ 2 - cS * t ^ 3 + t ^ 4 := by
  obtain ⟨b, a, e, lb, la, a0, hb, ha⟩ := (low_delivers sq 4 (by norm_num) fs c).ex
  refine ⟨b, a, e, la, a0, ?_⟩
  have key : ∀ w : ℝ, (1 + sig a 1 * w + sig a 2 * w ^ 2 + sig a 3 * w ^ 3 + sig a 4 * w ^ 4) *
      (1 + cS * t + (2 + √2) * t ^ 2 + cS * t ^ 3 + t ^ 4) =
      (1 - w) ^ 4 + cS * t * (1 - w) ^ 3 * (1 + w) + (2 + √2) * t ^ 2 * (1 - w) ^ 2 * (1 + w) ^ 2 +
        cS * t ^ 3 * (1 - w) * (1 + w) ^ 3 + t ^ 4 * (1 + w) ^ 4 := by
    intro w
    have h := ha (w : ℂ)
    have hW : 0 < warp fs c := by rw [hw]; linarith
    have hpoly : polyAt a (w : ℂ) =
        ((1 + sig a 1 * w + sig a 2 * w ^ 2 + sig a 3 * w ^ 3 + sig a 4 * w ^ 4 : ℝ) : ℂ) := by
      unfold polyAt
      rw [la, sum_range_succ, sum_range_succ, sum_range_succ, sum_range_succ, sum_range_one, a0]
      unfold sig
      push_cast
      ring
    have hden : ∀ y : ℂ, ∏ i ∈ range 4, (4 * (1 - y) - pole 4 i * warp fs c * (1 + y)) =
        256 * (((1 - y) ^ 2 + 2 * Real.sin (Real.pi / 8) * (1 - y) * (t * (1 + y)) + (t * (1 + y)) ^ 2) *
          ((1 - y) ^ 2 + 2 * Real.cos (Real.pi / 8) * (1 - y) * (t * (1 + y)) + (t * (1 + y)) ^ 2)) := by
      intro y
      rw [prod_congr rfl (g := fun i => 4 * ((1 - y) - pole 4 i * (t * (1 + y)))) (fun i _ => by rw [hw]; push_cast; ring),
        prod_mul_distrib, prod_const, card_range, poles4]
      norm_num
    rw [hpoly] at h
    have h' : ∏ i ∈ range 4, (1 - filDiv (pole 4 i * warp fs c) * (w : ℂ)) =
        (∏ i ∈ range 4, (4 * (1 - (w : ℂ)) - pole 4 i * warp fs c * (1 + w))) /
          ∏ i ∈ range 4, (4 - pole 4 i * (warp fs c : ℂ)) := by
      rw [← prod_div_distrib]
      exact prod_congr rfl fun i hi => den_factor (low_re (mem_range.mp hi) hW) _
    have h0 := hden 0
    simp only [sub_zero, add_zero, mul_one] at h0
    have hne : ∏ i ∈ range 4, (4 - pole 4 i * (warp fs c : ℂ)) ≠ 0 := prod_ne fun i hi => four_sub_ne (low_re hi hW)
    rw [h', eq_div_iff hne, hden, h0] at h
    have h256 : ((1 + sig a 1 * w + sig a 2 * w ^ 2 + sig a 3 * w ^ 3 + sig a 4 * w ^ 4 : ℝ)) *
        ((1 + 2 * Real.sin (Real.pi / 8) * t + t ^ 2) * (1 + 2 * Real.cos (Real.pi / 8) * t + t ^ 2)) =
        ((1 - w) ^ 2 + 2 * Real.sin (Real.pi / 8) * (1 - w) * (t * (1 + w)) + (t * (1 + w)) ^ 2) *
          ((1 - w) ^ 2 + 2 * Real.cos (Real.pi / 8) * (1 - w) * (t * (1 + w)) + (t * (1 + w)) ^ 2) := by
      have h2 : ((1 + sig a 1 * w + sig a 2 * w ^ 2 + sig a 3 * w ^ 3 + sig a 4 * w ^ 4 : ℝ) : ℂ) *
        ((1 + 2 * Real.sin (Real.pi / 8) * t + t ^ 2) * (1 + 2 * Real.cos (Real.pi / 8) * t + t ^ 2)) =
        ((1 - w) ^ 2 + 2 * Real.sin (Real.pi / 8) * (1 - w) * (t * (1 + w)) + (t * (1 + w)) ^ 2) *
          ((1 - w) ^ 2 + 2 * Real.cos (Real.pi / 8) * (1 - w) * (t * (1 + w)) + (t * (1 + w)) ^ 2) := by
        linear_combination (1 / 256) * h
      exact_mod_cast h2
    have hp := two_prod
    have e1 : (1 + 2 * Real.sin (Real.pi / 8) * t + t ^ 2) * (1 + 2 * Real.cos (Real.pi / 8) * t + t ^ 2) =
        1 + cS * t + (2 + √2) * t ^ 2 + cS * t ^ 3 + t ^ 4 := by
      unfold cS; linear_combination t ^ 2 * hp
    rw [e1] at h256
    rw [h256]
    unfold cS
    linear_combination t ^ 2 * (1 - w) ^ 2 * (1 + w) ^ 2 * hp
  have k1 := key 1
  have k2 := key (-1)
  have k3 := key 2
  have k4 := key (-2)
  refine ⟨?_, ?_, ?_, ?_⟩
  · linear_combination (8 / 12) * (k1 - k2) - (1 / 12) * (k3 - k4)
  · linear_combination (16 / 24) * (k1 + k2) - (1 / 24) * (k3 + k4)
  · linear_combination (1 / 12) * (k3 - k4) - (2 / 12) * (k1 - k2)
  · linear_combination (1 / 24) * (k3 + k4) - (4 / 24) * (k1 + k2)

/-- The floats of the example: those nearest to the denominator of order four with the corner near 2 Hz at 1 kHz. -/
def floats4 : List ℚ := [1, (-16639492 : ℤ) * 2 ^ (-22 : ℤ), (12377454 : ℤ) * 2 ^ (-21 : ℤ), (-16368535 : ℤ) * 2 ^ (-22 : ℤ),
  (16235260 : ℤ) * 2 ^ (-24 : ℤ)]

/-- The corner of the example. -/
noncomputable def corner4 : ℝ := 1000 / Real.pi * Real.arctan 0.006283

theorem corner4_hi : corner4 < 2 := by
  have h1 : Real.arctan 0.006283 < 0.006283 := by
    have := Real.lt_tan (x := Real.arctan 0.006283) (Real.arctan_pos.mpr (by norm_num)) (Real.arctan_lt_pi_div_two _)
    rwa [Real.tan_arctan] at this
  have h2 := Real.pi_gt_d4
  unfold corner4
  rw [div_mul_eq_mul_div, div_lt_iff₀ Real.pi_pos]
  linarith

theorem corner4_lo : 1.99 < corner4 := by
  have h2 := Real.pi_lt_d4
  have hp := Real.pi_pos
  have h1 : Real.pi * 0.00199 < Real.arctan 0.006283 := by
    have hb : Real.pi * 0.00199 < Real.pi / 2 := by linarith
    rw [← Real.arctan_tan (by linarith) hb]
    apply Real.arctan_lt_arctan_iff.mpr
    have hs := Real.sin_lt (x := Real.pi * 0.00199) (by positivity)
    have hc := Real.one_sub_sq_div_two_le_cos (x := Real.pi * 0.00199)
    have hx : Real.pi * 0.00199 < 0.00626 := by linarith
    have hx0 : 0 < Real.pi * 0.00199 := by positivity
    generalize Real.pi * 0.00199 = y at *
    have hc' : 0.999 < Real.cos y := by nlinarith
    rw [Real.tan_eq_sin_div_cos, div_lt_iff₀ (by linarith)]
    nlinarith
  unfold corner4
  rw [div_mul_eq_mul_div, lt_div_iff₀ hp]
  linarith

theorem corner4_warp : warp 1000 corner4 = 4 * 0.006283 := by
  rw [warp_eq _ _ (by norm_num)]
  congr 1
  rw [show Real.pi * corner4 / 1000 = Real.arctan 0.006283 by
    unfold corner4
    have := Real.pi_pos.ne'
    field_simp]
  exact Real.tan_arctan _

theorem floats4_sum : (floats4.map num).tail.foldl (· + ·) 1 = num 0 := by
  have r1 : rnd (1 + (-16639492 : ℤ) * 2 ^ (-22 : ℤ)) = (-12445188 : ℤ) * 2 ^ (-22 : ℤ) := by
    rw [← rnd_single (x := (-12445188 : ℤ) * 2 ^ (-22 : ℤ)) ⟨_, _, by norm_num, by norm_num, rfl⟩]
    congr 1; norm_num
  have r2 : rnd ((-12445188 : ℤ) * 2 ^ (-22 : ℤ) + (12377454 : ℤ) * 2 ^ (-21 : ℤ)) = (12309720 : ℤ) * 2 ^ (-22 : ℤ) := by
    rw [← rnd_single (x := (12309720 : ℤ) * 2 ^ (-22 : ℤ)) ⟨_, _, by norm_num, by norm_num, rfl⟩]
    congr 1; norm_num
  have r3 : rnd ((12309720 : ℤ) * 2 ^ (-22 : ℤ) + (-16368535 : ℤ) * 2 ^ (-22 : ℤ)) = (-4058815 : ℤ) * 2 ^ (-22 : ℤ) := by
    rw [← rnd_single (x := (-4058815 : ℤ) * 2 ^ (-22 : ℤ)) ⟨_, _, by norm_num, by norm_num, rfl⟩]
    congr 1; norm_num
  have r4 : rnd ((-4058815 : ℤ) * 2 ^ (-22 : ℤ) + (16235260 : ℤ) * 2 ^ (-24 : ℤ)) = 0 := by
    rw [← rnd_zero]
    congr 1; norm_num
  show (((1 + num _) + num _) + num _) + num _ = _
  rw [one_def, num_add, of_fin (by rw [r1]; norm_num [abs_of_neg]), r1, num_add, of_fin (by rw [r2]; norm_num [abs_of_pos]), r2,
    num_add, of_fin (by rw [r3]; norm_num [abs_of_neg]), r3, num_add, of_fin (by rw [r4]; norm_num), r4]

theorem near_quot {x d c q h : ℝ} (e : x * d = c) (hd : 0 < d) (h1 : (q - h) * d ≤ c) (h2 : c ≤ (q + h) * d) : |q - x| ≤ h := by
  rw [← e] at h1 h2
  have h1 := le_of_mul_le_mul_right h1 hd
  have h2 := le_of_mul_le_mul_right h2 hd
  exact abs_le.mpr ⟨by linarith, by linarith⟩

/-- C99 fails: there is a low pass of order four, with a corner of almost 2 Hz at a sampling frequency of 1 kHz, whose
denominator in the nearest floats adds up to zero. Then for every numerator, every padding that is accepted and every trace,
no sample of the result is a number. -/
theorem C99_nan_refuted (sq : ℂ → ℂ) : ∃ c : ℝ, 1.99 < c ∧ c < 2 ∧
    ∃ b a, makeFilter sq .lowpass 4 1000 c 0 = .ok (b, a) ∧
    ∃ a' : List ℚ, a'.length = 5 ∧ a.length = 5 ∧ (∀ j, j < 5 → Nearest (sig a' j) (sig a j)) ∧
    ∀ (p : Pad) (nw : Nat) (trc b' : List F32), PadOk p nw 4 → 1 ≤ nw → trc.length = nw → b'.length = 5 →
      nw + 30 < 2 ^ 64 → ∃ out, filterTime p nw trc 4 b' (a'.map num) = .ok out ∧ out.length = nw ∧
        ∀ v ∈ out, ∀ q, v ≠ num q := by
  obtain ⟨b, a, e, la, a0, a1, a2, a3, a4⟩ := den4 sq 1000 corner4 0.006283 (by norm_num) corner4_warp
  have hS1 := cS_lo
  have hS2 := cS_hi
  have hP1 := sqrt2_lo
  have hP2 := sqrt2_hi
  refine ⟨corner4, corner4_lo, corner4_hi, b, a, e, floats4, rfl, la, ?_, ?_⟩
  · have hd : 0 < 1 + cS * (0.006283 : ℝ) + (2 + √2) * 0.006283 ^ 2 + cS * 0.006283 ^ 3 + 0.006283 ^ 4 := by positivity
    intro j hj
    interval_cases j
    · rw [a0]
      refine ⟨isSingle_one, fun f _ => ?_⟩
      show |((1 : ℚ) : ℝ) - 1| ≤ _
      rw [Rat.cast_one, sub_self, abs_zero]
      exact abs_nonneg _
    · refine nearest_of (n := -16639492) (e := -22) (by norm_num) (by norm_num) (by norm_num) (near_quot a1 hd ?_ ?_) <;>
        norm_num at hd ⊢ <;> linarith
    · refine nearest_of (n := 12377454) (e := -21) (by norm_num) (by norm_num) (by norm_num) (near_quot a2 hd ?_ ?_) <;>
        norm_num at hd ⊢ <;> linarith
    · refine nearest_of (n := -16368535) (e := -22) (by norm_num) (by norm_num) (by norm_num) (near_quot a3 hd ?_ ?_) <;>
        norm_num at hd ⊢ <;> linarith
    · refine nearest_of (n := 16235260) (e := -24) (by norm_num) (by norm_num) (by norm_num) (near_quot a4 hd ?_ ?_) <;>
        norm_num at hd ⊢ <;> linarith
  · intro p nw trc b' hp hnw hl hb h64
    obtain ⟨out, h1, h2, h3⟩ := filter_notNum p nw trc 4 b' (floats4.map num) hp (by norm_num) hnw hl hb rfl (by omega) floats4_sum
    exact ⟨out, h1, h2, h3⟩

/-! ### Low corners -/

theorem low_tables (sq : ℂ → ℂ) (N : Nat) (hN : 1 ≤ N) (fs c : ℝ) :
    makeFilter sq .lowpass N fs c 0 = tables N (fun _ => -1) (fun i => filDiv (pole N i * warp fs c))
      (warp fs c ^ N / (∏ i ∈ range N, (4 - pole N i * warp fs c)).re) := by
  unfold makeFilter
  simp only [↓reduceIte]
  rw [poles_tab N N le_rfl, Res.ok_bind, replicate_tab,
    tab_congr (h := pole N) (fun k hk => if_pos hk), lowpass_tab, Res.ok_bind]
  exact finish N hN _ _ _

theorem norm_four_sub {x : ℂ} (hx : x.re < 0) : 4 ≤ ‖4 - x‖ := by
  have h1 := Complex.re_le_norm (4 - x)
  have h2 : (4 - x).re = 4 - x.re := by simp
  linarith

/-- The poles of a low corner are near one. -/
theorem filDiv_near {x : ℂ} (hx : x.re < 0) : ‖filDiv x - 1‖ ≤ ‖x‖ / 2 := by
  have h4 := four_sub_ne hx
  have h5 := norm_four_sub hx
  have e : filDiv x - 1 = 2 * x / (4 - x) := by unfold filDiv; field_simp; ring
  rw [e, norm_div, norm_mul, div_le_div_iff₀ (by linarith) two_pos]
  have : ‖(2 : ℂ)‖ = 2 := by norm_num
  rw [this]
  nlinarith [norm_nonneg x]

theorem prod_near {ι : Type} [DecidableEq ι] (p : ι → ℂ) (d : ℝ) (hd : 0 ≤ d) (t : Finset ι) (h : ∀ i ∈ t, ‖p i - 1‖ ≤ d) :
    ‖∏ i ∈ t, p i - 1‖ ≤ (1 + d) ^ t.card - 1 := by
  induction t using Finset.induction_on with
  | empty => simp
  | insert i t hi ih =>
    rw [prod_insert hi, card_insert_of_notMem hi, pow_succ]
    have h1 := ih fun j hj => h j (mem_insert_of_mem hj)
    have h2 := h i (mem_insert_self i t)
    rw [show p i * ∏ j ∈ t, p j - 1 = (p i - 1) * (∏ j ∈ t, p j - 1) + (p i - 1) + (∏ j ∈ t, p j - 1) by ring]
    refine (norm_add₃_le).trans ?_
    rw [norm_mul]
    have h3 : ‖p i - 1‖ * ‖∏ j ∈ t, p j - 1‖ ≤ d * ((1 + d) ^ t.card - 1) := mul_le_mul h2 h1 (norm_nonneg _) hd
    nlinarith

/-- The coefficients of a polynomial with roots near one are near binomial coefficients. -/
theorem coeff_near (n : Nat) (p : Nat → ℂ) (d : ℝ) (hd : 0 ≤ d) (h : ∀ i, i < n → ‖p i - 1‖ ≤ d) (j : Nat) (hj : j ≤ n) :
    ‖(fromRoots n p).coeff (n - j) - (-1) ^ j * (n.choose j : ℂ)‖ ≤ n.choose j * ((1 + d) ^ n - 1) := by
  have e : fromRoots n p = ∏ i ∈ range n, (Polynomial.X + Polynomial.C (-p i)) := by
    unfold fromRoots
    refine prod_congr rfl fun i _ => ?_
    rw [Polynomial.C_neg, sub_eq_add_neg]
  rw [e, Finset.prod_X_add_C_coeff _ _ (by rw [card_range]; omega), card_range, Nat.sub_sub_self hj]
  have hc : (n.choose j : ℂ) = ∑ _t ∈ (range n).powersetCard j, 1 := by
    rw [sum_const, card_powersetCard, card_range, nsmul_eq_mul, mul_one]
  rw [hc, mul_sum, ← sum_sub_distrib]
  refine (norm_sum_le _ _).trans ?_
  have hb : ∀ t ∈ (range n).powersetCard j, ‖∏ i ∈ t, -p i - (-1) ^ j * 1‖ ≤ (1 + d) ^ n - 1 := by
    intro t ht
    rw [mem_powersetCard] at ht
    rw [prod_neg, ht.2, ← mul_sub, norm_mul, norm_pow, norm_neg, norm_one, one_pow, one_mul]
    refine (prod_near p d hd t fun i hi => h i (mem_range.mp (ht.1 hi))).trans ?_
    have : (1 + d) ^ t.card ≤ (1 + d) ^ n := pow_le_pow_right₀ (by linarith) (by omega)
    linarith
  refine (sum_le_sum hb).trans ?_
  rw [sum_const, card_powersetCard, card_range, nsmul_eq_mul]

/-- The coefficients of a low pass with a low corner are near binomial coefficients. -/
theorem low_near (sq : ℂ → ℂ) (N : Nat) (hN : 1 ≤ N) (fs c : ℝ) (hW : 0 < warp fs c)
    {b a : List ℝ} (e : makeFilter sq .lowpass N fs c 0 = .ok (b, a)) (j : Nat)
    (hj : j ≤ N) : |sig a j - (-1) ^ j * (N.choose j : ℝ)| ≤ N.choose j * ((1 + warp fs c / 2) ^ N - 1) := by
  rw [low_tables sq N hN] at e
  unfold tables at e
  rw [Res.ok.injEq, Prod.mk.injEq] at e
  have ha : sig a j = ((fromRoots N fun i => filDiv (pole N i * warp fs c)).coeff (N - j)).re :=
    sig_of (by rw [← e.2]; simp [show j < N + 1 by omega])
  have h := coeff_near N (fun i => filDiv (pole N i * warp fs c)) (warp fs c / 2) (by linarith) (fun i hi => by
    refine (filDiv_near (low_re hi hW)).trans ?_
    rw [norm_mul, pole_norm, Complex.norm_real, Real.norm_eq_abs, abs_of_pos hW, one_mul]) j hj
  generalize (fromRoots N fun i => filDiv (pole N i * warp fs c)).coeff (N - j) = z at *
  rw [ha]
  refine le_trans ?_ h
  have := Complex.abs_re_le_norm (z - (-1) ^ j * (N.choose j : ℂ))
  have e2 : (z - (-1) ^ j * (N.choose j : ℂ)).re = z.re - (-1) ^ j * (N.choose j : ℝ) := by
    have : ((-1) ^ j * (N.choose j : ℂ)) = (((-1) ^ j * (N.choose j : ℝ) : ℝ) : ℂ) := by push_cast; ring
    rw [this, Complex.sub_re, Complex.ofReal_re]
  rwa [e2] at this

theorem abs_sign (j : Nat) (n : ℕ) : |(-1) ^ j * (n : ℝ)| = n := by
  rw [abs_mul, abs_pow, abs_neg, abs_one, one_pow, one_mul, abs_of_nonneg (Nat.cast_nonneg n)]

/-- The coefficients of a low pass with a low corner are not small. -/
theorem low_coeff (sq : ℂ → ℂ) (N : Nat) (hN : 1 ≤ N) (fs c : ℝ) (hW : 0 < warp fs c)
    (hq : (1 + warp fs c / 2) ^ N ≤ 27 / 16) {b a : List ℝ} (e : makeFilter sq .lowpass N fs c 0 = .ok (b, a)) (j : Nat)
    (hj : j ≤ N) : 5 / 16 ≤ |sig a j| := by
  have hre := low_near sq N hN fs c hW e j hj
  have hc : (1 : ℝ) ≤ N.choose j := by exact_mod_cast Nat.choose_pos hj
  have h3 := abs_sub_abs_le_abs_sub ((-1) ^ j * (N.choose j : ℝ)) (sig a j)
  rw [abs_sub_comm, abs_sign] at h3
  nlinarith

/-- The sum of the numerator of a low pass. -/
theorem low_numer (sq : ℂ → ℂ) (N : Nat) (hN : 1 ≤ N) (fs c : ℝ) (hW : 0 < warp fs c) {b a : List ℝ}
    (e : makeFilter sq .lowpass N fs c 0 = .ok (b, a)) : |∑ j ∈ range (N + 1), sig b j| ≤ (warp fs c / 2) ^ N := by
  obtain ⟨b', a', e', lb, la, a0, hb, ha⟩ := (low_delivers sq N hN fs c).ex
  rw [e, Res.ok.injEq, Prod.mk.injEq] at e'
  obtain ⟨rfl, rfl⟩ := e'
  have h1 := hb 1
  have hp : polyAt b 1 = ((∑ j ∈ range (N + 1), sig b j : ℝ) : ℂ) := by
    unfold polyAt
    rw [lb, Complex.ofReal_sum]
    refine sum_congr rfl fun j _ => ?_
    rw [one_pow, mul_one]; rfl
  have hreal := prod_real N (fun i => 4 - pole N i * warp fs c) (fun i hi => by
    rw [map_sub, map_mul, pole_conj N i hi, Complex.conj_ofReal, map_ofNat])
  rw [hp, prod_const, card_range, show ((1 : ℂ) - -1) = 2 by norm_num, Complex.ofReal_div, hreal] at h1
  have h2 := congrArg norm h1
  rw [Complex.norm_real, Real.norm_eq_abs, norm_mul, norm_div, norm_prod, norm_pow, Complex.norm_real, Real.norm_eq_abs,
    abs_of_pos (pow_pos hW N)] at h2
  have h3 : (4 : ℝ) ^ N ≤ ∏ i ∈ range N, ‖4 - pole N i * (warp fs c : ℂ)‖ := by
    have : (4 : ℝ) ^ N = ∏ _i ∈ range N, (4 : ℝ) := by rw [prod_const, card_range]
    rw [this]
    exact prod_le_prod (fun _ _ => by norm_num) fun i hi => norm_four_sub (low_re (mem_range.mp hi) hW)
  rw [h2, show ‖(2 : ℂ)‖ = 2 by norm_num]
  have h4 : warp fs c ^ N / ∏ i ∈ range N, ‖4 - pole N i * (warp fs c : ℂ)‖ ≤ warp fs c ^ N / 4 ^ N :=
    div_le_div_of_nonneg_left (pow_pos hW N).le (by positivity) h3
  calc _ ≤ warp fs c ^ N / 4 ^ N * 2 ^ N := mul_le_mul_of_nonneg_right h4 (by positivity)
    _ = (warp fs c / 2) ^ N := by
      rw [← div_pow, ← mul_pow]; congr 1; ring

/-- Floats of at least a quarter are multiples of `2^-25`. -/
theorem single_grid {q : ℚ} (hq : IsSingle q) (h : 1 / 4 ≤ |q|) : ∃ n : ℤ, q = n * 2 ^ (-25 : ℤ) := by
  obtain ⟨m, e, hm, _, rfl⟩ := hq
  have he : -25 ≤ e := by
    by_contra hlt
    have h1 : (2 : ℚ) ^ e ≤ 2 ^ (-26 : ℤ) := zpow_le_zpow_right₀ (by norm_num) (by omega)
    have h2 : |(m : ℚ)| < 2 ^ 24 := by rw [← Int.cast_abs]; exact_mod_cast hm
    have h3 : (0 : ℚ) < 2 ^ e := by positivity
    rw [abs_mul, abs_of_pos h3] at h
    have h4 : |(m : ℚ)| * 2 ^ e < 2 ^ 24 * 2 ^ (-26 : ℤ) := by
      calc |(m : ℚ)| * 2 ^ e < 2 ^ 24 * 2 ^ e := mul_lt_mul_of_pos_right h2 h3
        _ ≤ _ := mul_le_mul_of_nonneg_left h1 (by norm_num)
    norm_num at h4
    linarith
  obtain ⟨d, rfl⟩ : ∃ d : ℕ, e = -25 + d := ⟨(e + 25).toNat, by omega⟩
  refine ⟨m * 2 ^ d, ?_⟩
  rw [zpow_add₀ (by norm_num), zpow_natCast]
  push_cast
  ring

theorem sum_grid (N : Nat) (a : Nat → ℚ) (h : ∀ j, j < N → ∃ n : ℤ, a j = n * 2 ^ (-25 : ℤ)) :
    ∃ n : ℤ, ∑ j ∈ range N, a j = n * 2 ^ (-25 : ℤ) := by
  induction N with
  | zero => exact ⟨0, by simp⟩
  | succ N ih =>
    obtain ⟨n, hn⟩ := ih fun j hj => h j (by omega)
    obtain ⟨m, hm⟩ := h N (by omega)
    refine ⟨n + m, ?_⟩
    rw [sum_range_succ, hn, hm]
    push_cast
    ring

/-- With a zero of the denominator in the unit disc the response to an impulse is not absolutely summable. -/
theorem not_summable (N : Nat) (a h : Nat → ℚ) (h0 : h 0 = 1)
    (hrec : ∀ n, h (n + 1) = -∑ j ∈ range (min (n + 1) N), a (j + 1) * h (n - j)) (w : ℝ) (hw0 : 0 ≤ w) (hw1 : w ≤ 1)
    (hroot : 1 + ∑ j ∈ range N, (a (j + 1) : ℝ) * w ^ (j + 1) = 0) (H : ℚ) : ∃ n, H < ∑ k ∈ range n, |h k| := by
  by_contra hcon
  simp only [not_exists, not_lt] at hcon
  let A : Nat → ℝ := fun j => if j = 0 then 1 else if j ≤ N then (a j : ℝ) else 0
  have hsum : Summable fun k => |(h k : ℝ)| := by
    refine summable_of_sum_range_le (c := (H : ℝ)) (fun k => abs_nonneg _) fun n => ?_
    have := (Rat.cast_le (K := ℝ)).2 (hcon n)
    push_cast at this
    exact this
  have hg : Summable fun k => ‖(h k : ℝ) * w ^ k‖ := by
    refine Summable.of_nonneg_of_le (fun k => norm_nonneg _) (fun k => ?_) hsum
    rw [norm_mul, Real.norm_eq_abs, norm_pow, Real.norm_eq_abs, abs_of_nonneg hw0]
    exact mul_le_of_le_one_right (abs_nonneg _) (pow_le_one₀ hw0 hw1)
  have hAz : ∀ j, j ∉ range (N + 1) → A j * w ^ j = 0 := by
    intro j hj
    rw [mem_range] at hj
    show (if j = 0 then 1 else if j ≤ N then (a j : ℝ) else 0) * _ = 0
    rw [if_neg (by omega), if_neg (by omega), zero_mul]
  have hf : Summable fun j => ‖A j * w ^ j‖ := by
    refine summable_of_ne_finset_zero (s := range (N + 1)) fun j hj => ?_
    rw [hAz j hj, norm_zero]
  have hA : ∑' j, A j * w ^ j = 0 := by
    rw [tsum_eq_sum (s := range (N + 1)) (fun j hj => hAz j hj), sum_range_succ', ← hroot, add_comm]
    congr 1
    · show (if 0 = 0 then 1 else _) * _ = _
      rw [if_pos rfl, pow_zero, mul_one]
    · refine sum_congr rfl fun j hj => ?_
      rw [mem_range] at hj
      show (if j + 1 = 0 then 1 else if j + 1 ≤ N then (a (j + 1) : ℝ) else 0) * _ = _
      rw [if_neg (by omega), if_pos (by omega)]
  have hprod := tsum_mul_tsum_eq_tsum_sum_range_of_summable_norm hf hg
  rw [hA, zero_mul] at hprod
  have hterm : ∀ n, ∑ k ∈ range (n + 1), A k * w ^ k * ((h (n - k) : ℝ) * w ^ (n - k)) = if n = 0 then 1 else 0 := by
    intro n
    have e1 : ∑ k ∈ range (n + 1), A k * w ^ k * ((h (n - k) : ℝ) * w ^ (n - k)) =
        (∑ k ∈ range (n + 1), A k * (h (n - k) : ℝ)) * w ^ n := by
      rw [sum_mul]
      refine sum_congr rfl fun k hk => ?_
      rw [mem_range] at hk
      have : w ^ n = w ^ k * w ^ (n - k) := by rw [← pow_add]; congr 1; omega
      rw [this]; ring
    rw [e1, sum_range_succ']
    have e2 : A 0 = 1 := rfl
    rw [e2, one_mul, Nat.sub_zero]
    cases n with
    | zero => simp [h0]
    | succ n =>
      rw [if_neg (by omega)]
      have e3 : ∑ k ∈ range (n + 1), A (k + 1) * (h (n + 1 - (k + 1)) : ℝ) =
          ∑ j ∈ range (min (n + 1) N), (a (j + 1) : ℝ) * (h (n - j) : ℝ) := by
        rw [← sum_subset (range_subset_range.mpr (Nat.min_le_left (n + 1) N))]
        · refine sum_congr rfl fun j hj => ?_
          rw [mem_range] at hj
          show (if j + 1 = 0 then 1 else if j + 1 ≤ N then (a (j + 1) : ℝ) else 0) * _ = _
          rw [if_neg (by omega), if_pos (by omega), Nat.add_sub_add_right]
        · intro j hj hj'
          rw [mem_range] at hj hj'
          show (if j + 1 = 0 then 1 else if j + 1 ≤ N then (a (j + 1) : ℝ) else 0) * _ = _
          rw [if_neg (by omega), if_neg (by omega), zero_mul]
      rw [e3, hrec]
      push_cast
      ring
  simp only [hterm] at hprod
  rw [tsum_eq_single 0 (fun n hn => if_neg hn)] at hprod
  simp at hprod

/-- C99 fails for every low corner. For every order and corner such that `(1 + W/2)^N ≤ 27/16` and `(W/2)^N ≤ 2^-27` with
`W/2 = 2 tan(πc/fs)`, and all floats within `1/16` of the denominator designed, with the first one and a numerator whose sum
is at most twice that designed: the response of the denominator in floats to an impulse is not summable, so that the filter
is not stable, or the gain for constants, one in the design, is at most one half. -/
theorem C99_unstable_refuted (sq : ℂ → ℂ) (N : Nat) (hN : 1 ≤ N) (fs c : ℝ) (h0 : 0 < c) (h1 : c < fs / 2)
    (hq : (1 + 2 * Real.tan (Real.pi * c / fs)) ^ N ≤ 27 / 16) (hs : (2 * Real.tan (Real.pi * c / fs)) ^ N ≤ 1 / 2 ^ 27)
    (b' a' : List ℚ) (ha0 : sig a' 0 = 1) (hfl : ∀ j, j ≤ N → IsSingle (sig a' j)) :
    ∃ b a, makeFilter sq .lowpass N fs c 0 = .ok (b, a) ∧
      ((∀ j, j ≤ N → |((sig a' j : ℚ) : ℝ) - sig a j| ≤ 1 / 16) →
       |((∑ j ∈ range (N + 1), sig b' j : ℚ) : ℝ)| ≤ 2 * |∑ j ∈ range (N + 1), sig b j| →
        (∀ h : Nat → ℚ, h 0 = 1 → (∀ n, h (n + 1) = -∑ j ∈ range (min (n + 1) N), sig a' (j + 1) * h (n - j)) →
          ∀ H : ℚ, ∃ n, H < ∑ k ∈ range n, |h k|) ∨
        0 < ∑ j ∈ range (N + 1), sig a' j ∧
          |(∑ j ∈ range (N + 1), sig b' j) / (∑ j ∈ range (N + 1), sig a' j)| ≤ 1 / 2) := by
  have hfs : 0 < fs := by linarith
  have hW : 0 < warp fs c := by rw [warp_eq fs c hfs]; linarith [tan_corner h0 h1]
  have hd : warp fs c / 2 = 2 * Real.tan (Real.pi * c / fs) := by rw [warp_eq fs c hfs]; ring
  rw [← hd] at hq hs
  obtain ⟨b, a, e, _⟩ := (low_delivers sq N hN fs c).ex
  refine ⟨b, a, e, fun hna hnb => ?_⟩
  have hcoef := low_coeff sq N hN fs c hW hq e
  have hnum := low_numer sq N hN fs c hW e
  have hgrid : ∀ j, j < N + 1 → ∃ n : ℤ, sig a' j = n * 2 ^ (-25 : ℤ) := by
    intro j hj
    refine single_grid (hfl j (by omega)) ?_
    have k1 := hcoef j (by omega)
    have k2 := hna j (by omega)
    have k3 := abs_sub_abs_le_abs_sub (sig a j) ((sig a' j : ℚ) : ℝ)
    rw [abs_sub_comm] at k3
    have k4 : (1 / 4 : ℝ) ≤ |((sig a' j : ℚ) : ℝ)| := by linarith
    have : (((1 / 4 : ℚ)) : ℝ) ≤ ((|sig a' j| : ℚ) : ℝ) := by push_cast; linarith
    exact (Rat.cast_le (K := ℝ)).1 this
  obtain ⟨n, hn⟩ := sum_grid (N + 1) (sig a') hgrid
  rcases le_or_gt n 0 with hneg | hpos
  · left
    have hsum0 : (1 : ℝ) + ∑ j ∈ range N, ((sig a' (j + 1) : ℚ) : ℝ) ≤ 0 := by
      have : ∑ j ∈ range (N + 1), sig a' j ≤ 0 := by
        rw [hn]
        exact mul_nonpos_of_nonpos_of_nonneg (by exact_mod_cast hneg) (by positivity)
      rw [sum_range_succ', ha0] at this
      have h2 := (Rat.cast_le (K := ℝ)).2 this
      push_cast at h2
      linarith
    have hcont : ContinuousOn (fun w : ℝ => 1 + ∑ j ∈ range N, ((sig a' (j + 1) : ℚ) : ℝ) * w ^ (j + 1)) (Set.Icc 0 1) := by
      fun_prop
    have hiv := intermediate_value_Icc' (zero_le_one) hcont
    have hmem : (0 : ℝ) ∈ Set.Icc ((fun w : ℝ => 1 + ∑ j ∈ range N, ((sig a' (j + 1) : ℚ) : ℝ) * w ^ (j + 1)) 1)
        ((fun w : ℝ => 1 + ∑ j ∈ range N, ((sig a' (j + 1) : ℚ) : ℝ) * w ^ (j + 1)) 0) := by
      constructor
      · simpa using hsum0
      · simp
    obtain ⟨w, ⟨hw0, hw1⟩, hw⟩ := hiv hmem
    intro h hh0 hrec H
    exact not_summable N (sig a') h hh0 hrec w hw0 hw1 hw H
  · right
    have hA : (1 : ℚ) / 2 ^ 25 ≤ ∑ j ∈ range (N + 1), sig a' j := by
      rw [hn]
      have : (1 : ℚ) ≤ n := by exact_mod_cast hpos
      norm_num
      linarith
    have hApos : 0 < ∑ j ∈ range (N + 1), sig a' j := lt_of_lt_of_le (by norm_num) hA
    refine ⟨hApos, ?_⟩
    rw [abs_div, abs_of_pos hApos, div_le_iff₀ hApos]
    have hB : |∑ j ∈ range (N + 1), sig b' j| ≤ 1 / 2 ^ 26 := by
      have : ((|∑ j ∈ range (N + 1), sig b' j| : ℚ) : ℝ) ≤ ((1 / 2 ^ 26 : ℚ) : ℝ) := by
        push_cast at hnb ⊢
        linarith
      exact (Rat.cast_le (K := ℝ)).1 this
    linarith

/-- The hypotheses of `C99_unstable_refuted` are met: order 8, a corner of about a hundredth of the sampling frequency, the
denominator to the next sixteenth below and any numerator that is not too large. -/
example (sq : ℂ → ℂ) : ∃ (c : ℝ) (b a : List ℝ) (b' a' : List ℚ), 0 < c ∧ c < 500 / 2 ∧
    (1 + 2 * Real.tan (Real.pi * c / 500)) ^ 8 ≤ 27 / 16 ∧ (2 * Real.tan (Real.pi * c / 500)) ^ 8 ≤ 1 / 2 ^ 27 ∧
    makeFilter sq .lowpass 8 500 c 0 = .ok (b, a) ∧ sig a' 0 = 1 ∧ (∀ j, j ≤ 8 → IsSingle (sig a' j)) ∧
    (∀ j, j ≤ 8 → |((sig a' j : ℚ) : ℝ) - sig a j| ≤ 1 / 16) ∧
    |((∑ j ∈ range (8 + 1), sig b' j : ℚ) : ℝ)| ≤ 2 * |∑ j ∈ range (8 + 1), sig b j| := by
  have hpi := Real.pi_pos
  have hat : 0 < Real.arctan 0.0314 := Real.arctan_pos.mpr (by norm_num)
  have ht : Real.tan (Real.pi * (500 / Real.pi * Real.arctan 0.0314) / 500) = 0.0314 := by
    rw [show Real.pi * (500 / Real.pi * Real.arctan 0.0314) / 500 = Real.arctan 0.0314 by field_simp]
    exact Real.tan_arctan _
  have hc : 0 < 500 / Real.pi * Real.arctan 0.0314 := by positivity
  have hc2 : 500 / Real.pi * Real.arctan 0.0314 < 500 / 2 := by
    rw [div_mul_eq_mul_div, div_lt_iff₀ hpi]
    linarith [Real.arctan_lt_pi_div_two 0.0314]
  generalize 500 / Real.pi * Real.arctan 0.0314 = c at *
  obtain ⟨b, a, e, lb, la, a0, _⟩ := (low_delivers sq 8 (by norm_num) 500 c).ex
  have hw : warp 500 c = 4 * 0.0314 := by rw [warp_eq _ _ (by norm_num), ht]
  obtain ⟨q, hq⟩ : ∃ q : ℚ, |(q : ℝ)| ≤ 2 * |∑ j ∈ range (8 + 1), sig b j| := ⟨0, by simp⟩
  have hget : ∀ j, j ≤ 8 → sig (a.map fun v => ((⌊16 * v⌋ : ℤ) : ℚ) * 2 ^ (-4 : ℤ)) j = ((⌊16 * sig a j⌋ : ℤ) : ℚ) * 2 ^ (-4 : ℤ) := by
    intro j hj
    have h := List.getElem?_eq_getElem (l := a) (i := j) (by omega)
    rw [sig_of h, sig_of (by rw [List.getElem?_map, h]; rfl)]
  have hfl : ∀ v : ℝ, 16 * v - 1 < (⌊16 * v⌋ : ℤ) ∧ ((⌊16 * v⌋ : ℤ) : ℝ) ≤ 16 * v := fun v =>
    ⟨Int.sub_one_lt_floor _, Int.floor_le _⟩
  refine ⟨c, b, a, [q], a.map fun v => ((⌊16 * v⌋ : ℤ) : ℚ) * 2 ^ (-4 : ℤ), hc, hc2,
    by rw [ht]; norm_num, by rw [ht]; norm_num, e, ?_, ?_, ?_, ?_⟩
  · rw [hget 0 (by norm_num), show sig a 0 = 1 from a0]
    norm_num
  · intro j hj
    rw [hget j hj]
    refine ⟨_, _, ?_, by norm_num, rfl⟩
    have h1 := low_near sq 8 (by norm_num) 500 c (by rw [hw]; norm_num) e j hj
    have h2 := abs_sub_abs_le_abs_sub (sig a j) ((-1) ^ j * ((Nat.choose 8 j : ℕ) : ℝ))
    rw [abs_sign] at h2
    have h3 : ((Nat.choose 8 j : ℕ) : ℝ) ≤ 70 := by
      have : Nat.choose 8 j ≤ 70 := by interval_cases j <;> decide
      exact_mod_cast this
    have h4 : (1 + warp 500 c / 2) ^ 8 - 1 ≤ (1 : ℝ) := by rw [hw]; norm_num
    have h4' : 0 ≤ (1 + warp 500 c / 2) ^ 8 - 1 := by rw [hw]; norm_num
    have h5 : |sig a j| ≤ 140 := by nlinarith [Nat.cast_nonneg (α := ℝ) (Nat.choose 8 j)]
    have h6 := hfl (sig a j)
    have h7 := abs_le.mp h5
    have h8 : |((⌊16 * sig a j⌋ : ℤ) : ℝ)| < 2 ^ 24 := by
      rw [abs_lt]; constructor <;> norm_num <;> linarith
    exact_mod_cast h8
  · intro j hj
    rw [hget j hj]
    have h6 := hfl (sig a j)
    push_cast
    rw [abs_le]
    norm_num
    constructor <;> linarith
  · have : ∑ j ∈ range (8 + 1), sig [q] j = q := by
      simp [sum_range_succ, sig]
    rw [this]
    exact hq

end Verif.Signal
