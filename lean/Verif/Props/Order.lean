import Verif.Props.Design
import Mathlib.Analysis.SpecialFunctions.Trigonometric.Bounds
import Mathlib.Analysis.SpecialFunctions.Trigonometric.Arctan
import Mathlib.Analysis.Real.Pi.Irrational
import Mathlib.Analysis.Real.Pi.Bounds

/-!
C67 (order chosen from the corners), C68 (frequency domain).
-/

namespace Verif.Signal

open Finset

/-- What the order is made for: the ratio of the attenuations, `99 / (10^0.3 - 1)`. -/
noncomputable def attRatio : ℝ := 99 / ((10 : ℝ) ^ (0.3 : ℝ) - 1)

theorem ten_pow_le : (10 : ℝ) ^ (0.3 : ℝ) ≤ 2 := by
  have h : ((10 : ℝ) ^ (0.3 : ℝ)) ^ (10 : ℕ) = 1000 := by
    rw [← Real.rpow_natCast, ← Real.rpow_mul (by norm_num)]; norm_num
  by_contra hc
  have := pow_lt_pow_left₀ (not_le.mp hc) (by norm_num) (n := 10) (by norm_num)
  rw [h] at this
  norm_num at this

theorem ten_pow_ge : (1.99 : ℝ) ≤ (10 : ℝ) ^ (0.3 : ℝ) := by
  have h : ((10 : ℝ) ^ (0.3 : ℝ)) ^ (10 : ℕ) = 1000 := by
    rw [← Real.rpow_natCast, ← Real.rpow_mul (by norm_num)]; norm_num
  by_contra hc
  have := pow_lt_pow_left₀ (not_le.mp hc) (by positivity) (n := 10) (by norm_num)
  rw [h] at this
  norm_num at this

theorem attRatio_ge : 99 ≤ attRatio := by
  unfold attRatio
  rw [le_div_iff₀ (by linarith [ten_pow_ge])]
  linarith [ten_pow_le]

theorem attRatio_le : attRatio ≤ 100 := by
  unfold attRatio
  rw [div_le_iff₀ (by linarith [ten_pow_ge])]
  linarith [ten_pow_ge]

theorem tan_one {c : ℝ} (h0 : 0 < c) (h1 : c < 1 / 2) : 0 < Real.tan (Real.pi * c) := by
  have := tan_corner (fs := 1) h0 h1
  rwa [div_one] at this

theorem tan_one_lt {c d : ℝ} (h0 : 0 < c) (h1 : c < d) (h2 : d < 1 / 2) : Real.tan (Real.pi * c) < Real.tan (Real.pi * d) := by
  have := tan_corners (fs := 1) h0 h1 h2
  rwa [div_one, div_one] at this

/-- Corners in the order for which the order comes out positive. -/
theorem order_up {p s : ℝ} (h0 : 0 < p) (h1 : p < s) (h2 : s < 1 / 2) :
    ∃ N, 1 ≤ N ∧ filterOrder p s = .ok N ∧
      attRatio ≤ (Real.tan (Real.pi * s) / Real.tan (Real.pi * p)) ^ (2 * N) ∧
      ∀ M, M < N → (Real.tan (Real.pi * s) / Real.tan (Real.pi * p)) ^ (2 * M) < attRatio := by
  have hp := tan_one h0 (by linarith)
  have hps := tan_one_lt h0 h1 h2
  have hr : 1 < Real.tan (Real.pi * s) / Real.tan (Real.pi * p) := by rwa [one_lt_div hp]
  unfold filterOrder orderQuot
  generalize Real.tan (Real.pi * s) / Real.tan (Real.pi * p) = r at hr
  have hl : 0 < Real.log r := Real.log_pos hr
  have ha : 0 < Real.log attRatio := Real.log_pos (by linarith [attRatio_ge])
  have hq : 0 < 0.5 * Real.log attRatio / Real.log r := by positivity
  have hc : 0 < ⌈0.5 * Real.log attRatio / Real.log r⌉ := Int.ceil_pos.mpr hq
  have hcast : ((⌈0.5 * Real.log attRatio / Real.log r⌉.toNat : ℕ) : ℝ) = (⌈0.5 * Real.log attRatio / Real.log r⌉ : ℝ) := by
    exact_mod_cast Int.toNat_of_nonneg hc.le
  have hpow : ∀ M : ℕ, attRatio ≤ r ^ (2 * M) ↔ 0.5 * Real.log attRatio / Real.log r ≤ M := by
    intro M
    rw [div_le_iff₀ hl, ← Real.log_le_log_iff (by linarith [attRatio_ge]) (by positivity), Real.log_pow]
    push_cast
    constructor <;> intro h <;> linarith
  refine ⟨_, ?_, by rw [if_neg hl.ne']; exact if_neg (not_lt.mpr hc.le), ?_, ?_⟩
  · show 1 ≤ ⌈0.5 * Real.log attRatio / Real.log r⌉.toNat
    omega
  · rw [hpow]
    show _ ≤ ((⌈0.5 * Real.log attRatio / Real.log r⌉.toNat : ℕ) : ℝ)
    rw [hcast]; exact Int.le_ceil _
  · intro M hM
    have hM : M < ⌈0.5 * Real.log attRatio / Real.log r⌉.toNat := hM
    rw [← not_le, hpow, not_le]
    have : (M : ℤ) < ⌈0.5 * Real.log attRatio / Real.log r⌉ := by omega
    simpa using Int.lt_ceil.mp this

/-- Corners in the other order. -/
theorem order_down {p s : ℝ} (h0 : 0 < s) (h1 : s < p) (h2 : p < 1 / 2) : filterOrder p s = .ub ∨ filterOrder p s = .ok 0 := by
  have hs := tan_one h0 (by linarith)
  have hps := tan_one_lt h0 h1 h2
  have hr : Real.tan (Real.pi * s) / Real.tan (Real.pi * p) < 1 := by rw [div_lt_one (hs.trans hps)]; exact hps
  have hr0 : 0 < Real.tan (Real.pi * s) / Real.tan (Real.pi * p) := div_pos hs (hs.trans hps)
  unfold filterOrder orderQuot
  generalize Real.tan (Real.pi * s) / Real.tan (Real.pi * p) = r at hr hr0
  have hl : Real.log r < 0 := Real.log_neg hr0 hr
  have ha : 0 < Real.log attRatio := Real.log_pos (by linarith [attRatio_ge])
  have hq : 0.5 * Real.log attRatio / Real.log r ≤ 0 := div_nonpos_of_nonneg_of_nonpos (by positivity) hl.le
  have hc : ⌈0.5 * Real.log attRatio / Real.log r⌉ ≤ 0 := Int.ceil_le.mpr (by simpa using hq)
  rw [if_neg hl.ne]
  change (if ⌈0.5 * Real.log attRatio / Real.log r⌉ < 0 then _ else Res.ok ⌈0.5 * Real.log attRatio / Real.log r⌉.toNat) = _ ∨
    (if ⌈0.5 * Real.log attRatio / Real.log r⌉ < 0 then _ else Res.ok ⌈0.5 * Real.log attRatio / Real.log r⌉.toNat) = _
  by_cases h : ⌈0.5 * Real.log attRatio / Real.log r⌉ < 0
  · left; rw [if_pos h]
  · right; rw [if_neg h, show ⌈0.5 * Real.log attRatio / Real.log r⌉ = 0 by omega]; rfl

/-- The design with an order chosen from the corners (`temporalfilter.cc` 243-292 and 501-502): what a caller of the
function without an order gets. -/
noncomputable def autoFilter (sq : ℂ → ℂ) (type : Fltr) (fs : ℝ) (corner : List ℝ) : Res (List ℝ × List ℝ) := do
  let r ← chooseOrder type corner
  makeFilter sq type r.2.2 fs r.1 r.2.1

/-- C67 (partial). Low pass filters of traces sampled once per unit of time: for all corners `p < s` below one half the
power is halved at the first and at most a hundredth is left at the second; no smaller order would do for the
attenuation the formula asks for.

The full claim is for every type and sampling frequency: `C67_rate_refuted`, `C67_highpass_refuted`,
`C67_band_refuted`. -/
theorem C67_lowpass_partial (sq : ℂ → ℂ) (p s : ℝ) (h0 : 0 < p) (h1 : p < s) (h2 : s < 1 / 2) :
    ∃ N b a, 1 ≤ N ∧ chooseOrder .lowpass [p, s] = .ok (p, 0, N) ∧ autoFilter sq .lowpass 1 [p, s] = .ok (b, a) ∧
      a.length = N + 1 ∧
      ‖polyAt b (delay 1 p) / polyAt a (delay 1 p)‖ ^ 2 = 1 / 2 ∧
      ‖polyAt b (delay 1 s) / polyAt a (delay 1 s)‖ ^ 2 ≤ 1 / 100 ∧
      ∀ M, M < N → 1 / (1 + attRatio) < gain2 M (Real.tan (Real.pi * p)) (Real.tan (Real.pi * s)) := by
  obtain ⟨N, hN, e, hat, hmin⟩ := order_up h0 h1 h2
  have ec : chooseOrder .lowpass [p, s] = .ok (p, 0, N) := by
    unfold chooseOrder
    simp only [readAt, List.getElem?_cons_zero, List.getElem?_cons_succ, Res.ok_bind, e]
  obtain ⟨b, a, ef, _, la, _, hg⟩ := C65_lowpass sq N hN 1 p h0 (by linarith)
  have hp := tan_one h0 (by linarith)
  have hs := tan_one (by linarith : 0 < s) h2
  have hgain : ∀ M, gain2 M (Real.tan (Real.pi * p)) (Real.tan (Real.pi * s)) =
      1 / (1 + (Real.tan (Real.pi * s) / Real.tan (Real.pi * p)) ^ (2 * M)) := by
    intro M
    unfold gain2
    rw [div_pow]
    have := pow_pos hp (2 * M)
    have := pow_pos hs (2 * M)
    field_simp
  refine ⟨N, b, a, hN, ec, by unfold autoFilter; rw [ec, Res.ok_bind]; exact ef, la, ?_, ?_, fun M hM => ?_⟩
  · rw [hg p (cos_freq (by rw [abs_of_pos h0]; linarith)).ne']
    exact gain2_same N _ (by rw [div_one]; exact hp.ne')
  · rw [hg s (cos_freq (by rw [abs_of_pos (by linarith)]; linarith)).ne', div_one, div_one, hgain]
    exact one_div_le_one_div_of_le (by norm_num) (by linarith [attRatio_ge])
  · rw [hgain]
    have := hmin M hM
    exact one_div_lt_one_div_of_lt (by positivity) (by linarith)

/-- The order for a tenth and a fifth of a cycle per sample. -/
example : (0 : ℝ) < 1 / 10 ∧ (1 / 10 : ℝ) < 1 / 5 ∧ (1 / 5 : ℝ) < 1 / 2 := by norm_num

/-- C67 fails for other sampling frequencies: the order does not depend on it.  At two samples per unit of time, with
the corners a quarter and `arctan(10)/π` (about 0.468), the order is one and more than a tenth of the power is left at
the second corner instead of a hundredth. -/
theorem C67_rate_refuted (sq : ℂ → ℂ) : ∃ p s b a, 0 < p ∧ p < s ∧ s < (2 : ℝ) / 2 ∧
    chooseOrder .lowpass [p, s] = .ok (p, 0, 1) ∧ autoFilter sq .lowpass 2 [p, s] = .ok (b, a) ∧
    1 / 10 < ‖polyAt b (delay 2 s) / polyAt a (delay 2 s)‖ ^ 2 := by
  have hpi := Real.pi_pos
  have hat := Real.arctan_lt_pi_div_two 10
  have hs : Real.arctan 10 / Real.pi < 1 / 2 := by
    rw [div_lt_div_iff₀ hpi two_pos]; linarith
  have h14 : 1 / 4 < Real.arctan 10 / Real.pi := by
    rw [lt_div_iff₀ hpi]
    have : Real.arctan 1 < Real.arctan 10 := Real.arctan_strictMono (by norm_num)
    rw [Real.arctan_one] at this
    linarith
  obtain ⟨N, hN, e, -, hmin⟩ := order_up (by norm_num : (0 : ℝ) < 1 / 4) h14 hs
  have hts : Real.tan (Real.pi * (Real.arctan 10 / Real.pi)) = 10 := by
    rw [mul_div_cancel₀ _ hpi.ne', Real.tan_arctan]
  have htp : Real.tan (Real.pi * (1 / 4)) = 1 := by
    rw [show Real.pi * (1 / 4) = Real.pi / 4 by ring, Real.tan_pi_div_four]
  have hN1 : N = 1 := by
    by_contra hne
    have := hmin 1 (by omega)
    rw [hts, htp] at this
    norm_num at this
    linarith [attRatio_le]
  subst hN1
  have ec : chooseOrder .lowpass [1 / 4, Real.arctan 10 / Real.pi] = .ok (1 / 4, 0, 1) := by
    unfold chooseOrder
    simp only [readAt, List.getElem?_cons_zero, List.getElem?_cons_succ, Res.ok_bind, e]
  obtain ⟨b, a, ef, _, _, _, hg⟩ := C65_lowpass sq 1 le_rfl 2 (1 / 4) (by norm_num) (by norm_num)
  refine ⟨1 / 4, Real.arctan 10 / Real.pi, b, a, by norm_num, h14, by linarith, ec,
    by unfold autoFilter; rw [ec, Res.ok_bind]; exact ef, ?_⟩
  rw [hg _ (cos_freq (by rw [abs_of_pos (by linarith)]; linarith)).ne']
  have h1 : 0.39 < Real.tan (Real.pi * (1 / 4) / 2) := by
    have := Real.lt_tan (x := Real.pi * (1 / 4) / 2) (by positivity) (by linarith)
    linarith [Real.pi_gt_d2]
  have h2 : Real.tan (Real.pi * (Real.arctan 10 / Real.pi) / 2) < 1 := by
    rw [← Real.tan_pi_div_four]
    apply Real.tan_lt_tan_of_nonneg_of_lt_pi_div_two
    · have : 0 < Real.arctan 10 / Real.pi := by linarith
      positivity
    · linarith
    · rw [mul_div_cancel₀ _ hpi.ne']; linarith
  have h3 : 0 < Real.tan (Real.pi * (Real.arctan 10 / Real.pi) / 2) := by
    apply Real.tan_pos_of_pos_of_lt_pi_div_two
    · have : 0 < Real.arctan 10 / Real.pi := by linarith
      positivity
    · rw [mul_div_cancel₀ _ hpi.ne']; linarith
  unfold gain2
  generalize Real.tan (Real.pi * (1 / 4) / 2) = u at *
  generalize Real.tan (Real.pi * (Real.arctan 10 / Real.pi) / 2) = v at *
  rw [lt_div_iff₀ (by positivity)]
  nlinarith

/-- C67 fails for every high pass filter: whatever the corners, the logarithm has the wrong sign, so that the order is
negative (converting it to an unsigned number is undefined) or zero (the design reads outside its arrays). -/
theorem C67_highpass_refuted (sq : ℂ → ℂ) (fs s p : ℝ) (h0 : 0 < s) (h1 : s < p) (h2 : p < 1 / 2) :
    autoFilter sq .highpass fs [s, p] = .ub := by
  unfold autoFilter chooseOrder
  simp only [readAt, List.getElem?_cons_zero, List.getElem?_cons_succ, Res.ok_bind]
  rcases order_down h0 h1 h2 with e | e
  · rw [e]; rfl
  · rw [e]
    simp only [Res.ok_bind]
    exact C66_zero sq .highpass fs p 0

example : (0 : ℝ) < 1 / 20 ∧ (1 / 20 : ℝ) < 1 / 10 ∧ (1 / 10 : ℝ) < 1 / 2 := by norm_num

/-- C67 fails for every band pass and band stop filter of a set: `Set::temporalFilter` (`src/Flow/Set.cc` 759) asserts
that there are two corners, the design reads a third and a fourth. -/
theorem C67_band_refuted (sq : ℂ → ℂ) (fs c0 c1 : ℝ) :
    autoFilter sq .bandpass fs [c0, c1] = .ub ∧ autoFilter sq .bandstop fs [c0, c1] = .ub := ⟨rfl, rfl⟩

/-! ### Four corners -/

/-- Corners in the order for which the logarithm is negative: undefined unless a filter of the first order would do. -/
theorem order_neg {p s : ℝ} (h0 : 0 < s) (h1 : s < p) (h2 : p < 1 / 2) :
    ((Real.tan (Real.pi * p) / Real.tan (Real.pi * s)) ^ 2 ≤ attRatio → filterOrder p s = .ub) ∧
    (attRatio < (Real.tan (Real.pi * p) / Real.tan (Real.pi * s)) ^ 2 → filterOrder p s = .ok 0) := by
  have hs := tan_one h0 (by linarith)
  have hps := tan_one_lt h0 h1 h2
  have hr1 : 1 < Real.tan (Real.pi * p) / Real.tan (Real.pi * s) := by rwa [one_lt_div hs]
  unfold filterOrder orderQuot
  rw [← inv_div (Real.tan (Real.pi * p))]
  generalize Real.tan (Real.pi * p) / Real.tan (Real.pi * s) = r at hr1
  have hl : 0 < Real.log r := Real.log_pos hr1
  have ha : 0 < Real.log attRatio := Real.log_pos (by linarith [attRatio_ge])
  change (_ → (if _ then _ else if ⌈0.5 * Real.log attRatio / Real.log r⁻¹⌉ < 0 then _ else
    Res.ok ⌈0.5 * Real.log attRatio / Real.log r⁻¹⌉.toNat) = _) ∧ (_ → (if _ then _ else if ⌈0.5 * Real.log attRatio / Real.log r⁻¹⌉ < 0 then _ else
    Res.ok ⌈0.5 * Real.log attRatio / Real.log r⁻¹⌉.toNat) = _)
  rw [Real.log_inv, if_neg (neg_ne_zero.mpr hl.ne'), div_neg]
  have hq : 0 < 0.5 * Real.log attRatio / Real.log r := by positivity
  have key : r ^ 2 ≤ attRatio ↔ 1 ≤ 0.5 * Real.log attRatio / Real.log r := by
    rw [le_div_iff₀ hl, ← Real.log_le_log_iff (by positivity) (by linarith [attRatio_ge]), Real.log_pow]
    push_cast
    constructor <;> intro h <;> linarith
  constructor
  · intro h
    have h := key.mp h
    rw [if_pos]
    have : ⌈-(0.5 * Real.log attRatio / Real.log r)⌉ ≤ -1 := Int.ceil_le.mpr (by push_cast; linarith)
    omega
  · intro h
    have h := not_le.mp (fun hc => absurd (key.mpr hc) (not_le.mpr h))
    have : ⌈-(0.5 * Real.log attRatio / Real.log r)⌉ = 0 := Int.ceil_eq_iff.mpr ⟨by push_cast; linarith, by push_cast; linarith⟩
    rw [this]; rfl

/-- A response that is small enough. -/
theorem gain2_small {N : Nat} {x y : ℝ} (hx : x ≠ 0) (h : attRatio ≤ (y / x) ^ (2 * N)) : gain2 N x y ≤ 1 / 100 := by
  have hp : 0 < x ^ (2 * N) := by rw [pow_mul]; positivity
  unfold gain2
  rw [div_pow, le_div_iff₀ hp] at h
  have := attRatio_ge
  have hy : 0 ≤ y ^ (2 * N) := by rw [pow_mul]; positivity
  rw [div_le_iff₀ (by positivity)]
  nlinarith

theorem pow_more {r q : ℝ} {N : Nat} (h0 : 0 ≤ r) (h : r ≤ q) (ha : attRatio ≤ r ^ (2 * N)) : attRatio ≤ q ^ (2 * N) :=
  ha.trans (pow_le_pow_left₀ h0 h _)

theorem pow_one_more {r q : ℝ} {N : Nat} (hN : 1 ≤ N) (h1 : 1 ≤ r) (h : r ≤ q) (ha : attRatio ≤ r ^ 2) :
    attRatio ≤ q ^ (2 * N) :=
  ha.trans ((pow_le_pow_right₀ h1 (by omega)).trans (pow_le_pow_left₀ (by linarith) h _))

/-- C67 (partial), band pass with four corners `c0 < c1 < c2 < c3` at one sample per unit of time.  If a filter of the
first order would be enough at the lower side, the power is halved at the two inner corners and at most a hundredth is
left at the two outer ones.

The full claim has no such condition: `C67_bandpass_refuted`. -/
theorem C67_bandpass_partial (sq : ℂ → ℂ) (hsq : ∀ z, sq z ^ 2 = z) (c0 c1 c2 c3 : ℝ) (h0 : 0 < c0) (h1 : c0 < c1)
    (h2 : c1 < c2) (h3 : c2 < c3) (h4 : c3 < 1 / 2)
    (hw : attRatio < (Real.tan (Real.pi * c1) / Real.tan (Real.pi * c0)) ^ 2) :
    ∃ b a, autoFilter sq .bandpass 1 [c0, c1, c2, c3] = .ok (b, a) ∧
      ‖polyAt b (delay 1 c1) / polyAt a (delay 1 c1)‖ ^ 2 = 1 / 2 ∧
      ‖polyAt b (delay 1 c2) / polyAt a (delay 1 c2)‖ ^ 2 = 1 / 2 ∧
      ‖polyAt b (delay 1 c0) / polyAt a (delay 1 c0)‖ ^ 2 ≤ 1 / 100 ∧
      ‖polyAt b (delay 1 c3) / polyAt a (delay 1 c3)‖ ^ 2 ≤ 1 / 100 := by
  obtain ⟨N, hN, e, hat, -⟩ := order_up (by linarith : 0 < c2) h3 h4
  have ec : chooseOrder .bandpass [c0, c1, c2, c3] = .ok (c1, c2, N) := by
    unfold chooseOrder
    simp only [readAt, List.getElem?_cons_zero, List.getElem?_cons_succ, Res.ok_bind, e,
      (order_neg h0 h1 (by linarith : c1 < 1 / 2)).2 hw, Nat.zero_max]
  have hadm : Admissible .bandpass 1 c1 c2 := ⟨by linarith, h2, by linarith⟩
  obtain ⟨b, a, ef, _, _, _, hg⟩ := C65_bandpass sq hsq N hN 1 c1 c2 (by linarith) h2 (by linarith)
  obtain ⟨b', a', ef', hc⟩ := C65_corners sq hsq .bandpass N hN 1 c1 c2 hadm
  rw [ef, Res.ok.injEq, Prod.mk.injEq] at ef'
  obtain ⟨rfl, rfl⟩ := ef'
  have t0 := tan_one h0 (by linarith)
  have t01 := tan_one_lt h0 h1 (by linarith)
  have t12 := tan_one_lt (by linarith) h2 (by linarith)
  have t23 := tan_one_lt (by linarith) h3 h4
  refine ⟨b, a, by unfold autoFilter; rw [ec, Res.ok_bind]; exact ef, hc c1 (.inl rfl), hc c2 (.inr ⟨rfl, by linarith⟩), ?_, ?_⟩
  · rw [hg c0 (cos_freq (by rw [abs_of_pos h0]; linarith)).ne']
    simp only [div_one]
    generalize Real.tan (Real.pi * c0) = t at *
    generalize Real.tan (Real.pi * c1) = u at *
    generalize Real.tan (Real.pi * c2) = v at *
    have hd : 0 < (v - u) * t := mul_pos (by linarith) t0
    refine gain2_small hd.ne' ?_
    rw [← (even_two_mul N).neg_pow, ← neg_div]
    refine pow_one_more hN ((one_le_div t0).mpr t01.le) ?_ hw.le
    rw [div_le_div_iff₀ t0 hd]
    nlinarith [mul_pos t0 (sub_pos.mpr t01)]
  · rw [hg c3 (cos_freq (by rw [abs_of_pos (by linarith)]; linarith)).ne']
    simp only [div_one]
    generalize Real.tan (Real.pi * c0) = t at *
    generalize Real.tan (Real.pi * c1) = u at *
    generalize Real.tan (Real.pi * c2) = v at *
    generalize Real.tan (Real.pi * c3) = w at *
    have hu : 0 < u := by linarith
    have hv : 0 < v := by linarith
    have hw' : 0 < w := by linarith
    have hd : 0 < (v - u) * w := mul_pos (by linarith) hw'
    refine gain2_small hd.ne' (pow_more (by positivity) ?_ hat)
    rw [div_le_div_iff₀ hv hd]
    nlinarith [mul_pos (mul_pos hu (sub_pos.mpr t23)) (add_pos hv hw')]

/-- C67 (partial), band stop with four corners: the power is halved at the two outer corners and at most a hundredth is
left at the two inner ones, if a filter of the first order would be enough at the upper side.

The full claim has no such condition: `C67_bandstop_refuted`. -/
theorem C67_bandstop_partial (sq : ℂ → ℂ) (hsq : ∀ z, sq z ^ 2 = z) (c0 c1 c2 c3 : ℝ) (h0 : 0 < c0) (h1 : c0 < c1)
    (h2 : c1 < c2) (h3 : c2 < c3) (h4 : c3 < 1 / 2)
    (hw : attRatio < (Real.tan (Real.pi * c3) / Real.tan (Real.pi * c2)) ^ 2) :
    ∃ b a, autoFilter sq .bandstop 1 [c0, c1, c2, c3] = .ok (b, a) ∧
      ‖polyAt b (delay 1 c0) / polyAt a (delay 1 c0)‖ ^ 2 = 1 / 2 ∧
      ‖polyAt b (delay 1 c3) / polyAt a (delay 1 c3)‖ ^ 2 = 1 / 2 ∧
      ‖polyAt b (delay 1 c1) / polyAt a (delay 1 c1)‖ ^ 2 ≤ 1 / 100 ∧
      ‖polyAt b (delay 1 c2) / polyAt a (delay 1 c2)‖ ^ 2 ≤ 1 / 100 := by
  obtain ⟨N, hN, e, hat, -⟩ := order_up h0 h1 (by linarith : c1 < 1 / 2)
  have ec : chooseOrder .bandstop [c0, c1, c2, c3] = .ok (c0, c3, N) := by
    unfold chooseOrder
    simp only [readAt, List.getElem?_cons_zero, List.getElem?_cons_succ, Res.ok_bind, e,
      (order_neg (by linarith : 0 < c2) h3 h4).2 hw, Nat.max_zero]
  have hadm : Admissible .bandstop 1 c0 c3 := ⟨by linarith, by linarith, by linarith⟩
  obtain ⟨b, a, ef, _, _, _, hg⟩ := C65_bandstop sq hsq N hN 1 c0 c3 h0 (by linarith) (by linarith)
  obtain ⟨b', a', ef', hc⟩ := C65_corners sq hsq .bandstop N hN 1 c0 c3 hadm
  rw [ef, Res.ok.injEq, Prod.mk.injEq] at ef'
  obtain ⟨rfl, rfl⟩ := ef'
  have t0 := tan_one h0 (by linarith)
  have t01 := tan_one_lt h0 h1 (by linarith)
  have t12 := tan_one_lt (by linarith) h2 (by linarith)
  have t23 := tan_one_lt (by linarith) h3 h4
  have g1 := hg c1 (cos_freq (by rw [abs_of_pos (by linarith)]; linarith)).ne'
  have g2 := hg c2 (cos_freq (by rw [abs_of_pos (by linarith)]; linarith)).ne'
  simp only [div_one] at g1 g2
  refine ⟨b, a, by unfold autoFilter; rw [ec, Res.ok_bind]; exact ef, hc c0 (.inl rfl), hc c3 (.inr ⟨rfl, by linarith⟩), ?_, ?_⟩
  · rw [g1]
    clear g1 g2 hg hc ef ec e
    generalize Real.tan (Real.pi * c0) = t at *
    generalize Real.tan (Real.pi * c1) = u at *
    generalize Real.tan (Real.pi * c2) = v at *
    generalize Real.tan (Real.pi * c3) = w at *
    have hu : 0 < u := by linarith
    have hv : 0 < v := by linarith
    have hw' : 0 < w := by linarith
    rcases lt_trichotomy (u ^ 2) (t * w) with h | h | h
    · refine gain2_small (by linarith [h] : u ^ 2 - t * w < 0).ne ?_
      rw [← (even_two_mul N).neg_pow, ← div_neg]
      refine pow_more (by positivity) ?_ hat
      rw [div_le_div_iff₀ t0 (by linarith)]
      nlinarith [mul_pos hu (mul_pos (sub_pos.mpr t01) (add_pos t0 hu))]
    · unfold gain2
      rw [sub_eq_zero.mpr h, zero_pow (by omega)]
      norm_num
    · refine gain2_small (by linarith [h] : 0 < u ^ 2 - t * w).ne' ?_
      refine pow_one_more hN ((one_le_div hv).mpr t23.le) ?_ hw.le
      rw [div_le_div_iff₀ hv (by linarith)]
      have hz : u ^ 2 < w * v := by nlinarith
      nlinarith [mul_pos hw' (mul_pos hu (sub_pos.mpr t12)), mul_pos t0 (mul_pos hw' (sub_pos.mpr t12)), mul_pos t0 hw', mul_pos hu hv, mul_pos t0 (mul_pos hw' hw')]
  · rw [g2]
    clear g1 g2 hg hc ef ec e
    generalize Real.tan (Real.pi * c0) = t at *
    generalize Real.tan (Real.pi * c1) = u at *
    generalize Real.tan (Real.pi * c2) = v at *
    generalize Real.tan (Real.pi * c3) = w at *
    have hu : 0 < u := by linarith
    have hv : 0 < v := by linarith
    have hw' : 0 < w := by linarith
    rcases lt_trichotomy (v ^ 2) (t * w) with h | h | h
    · refine gain2_small (by linarith [h] : v ^ 2 - t * w < 0).ne ?_
      rw [← (even_two_mul N).neg_pow, ← div_neg]
      refine pow_more (by positivity) ?_ hat
      rw [div_le_div_iff₀ t0 (by linarith)]
      have e1 := mul_pos (sub_pos.mpr t12) (sub_pos.mpr h)
      have e2 := mul_pos hv (mul_pos (by linarith : 0 < v - t) (by linarith : 0 < v + t))
      nlinarith
    · unfold gain2
      rw [sub_eq_zero.mpr h, zero_pow (by omega)]
      norm_num
    · refine gain2_small (by linarith [h] : 0 < v ^ 2 - t * w).ne' ?_
      refine pow_one_more hN ((one_le_div hv).mpr t23.le) ?_ hw.le
      rw [div_le_div_iff₀ hv (by linarith)]
      nlinarith [mul_pos t0 (mul_pos (sub_pos.mpr t23) (add_pos hv hw'))]

/-- Corners for which the two theorems above apply, with tangents 1/20 and 1, and 1 and 20. -/
example : ∃ t v : ℝ, 0 < t ∧ t < 1 / 4 ∧ 1 / 4 < v ∧ v < 1 / 2 ∧
    attRatio < (Real.tan (Real.pi * (1 / 4)) / Real.tan (Real.pi * t)) ^ 2 ∧
    attRatio < (Real.tan (Real.pi * v) / Real.tan (Real.pi * (1 / 4))) ^ 2 := by
  have hpi := Real.pi_pos
  have h14 : Real.tan (Real.pi * (1 / 4)) = 1 := by
    rw [show Real.pi * (1 / 4) = Real.pi / 4 by ring, Real.tan_pi_div_four]
  have hm : ∀ x : ℝ, Real.tan (Real.pi * (Real.arctan x / Real.pi)) = x := fun x => by
    rw [mul_div_cancel₀ _ hpi.ne', Real.tan_arctan]
  refine ⟨Real.arctan (1 / 20) / Real.pi, Real.arctan 20 / Real.pi, div_pos (Real.arctan_pos.mpr (by norm_num)) hpi, ?_, ?_, ?_, ?_, ?_⟩
  · rw [div_lt_div_iff₀ hpi (by norm_num)]
    have : Real.arctan (1 / 20) < Real.arctan 1 := Real.arctan_strictMono (by norm_num)
    rw [Real.arctan_one] at this
    linarith
  · rw [div_lt_div_iff₀ (by norm_num) hpi]
    have : Real.arctan 1 < Real.arctan 20 := Real.arctan_strictMono (by norm_num)
    rw [Real.arctan_one] at this
    linarith
  · rw [div_lt_div_iff₀ hpi two_pos]
    linarith [Real.arctan_lt_pi_div_two 20]
  · rw [h14, hm]; norm_num; linarith [attRatio_le]
  · rw [h14, hm]; norm_num; linarith [attRatio_le]

/-- C67 fails for band pass filters: corners for which a filter of the first order would not be enough at the lower
side are undefined behaviour. -/
theorem C67_bandpass_refuted (sq : ℂ → ℂ) (fs c0 c1 c2 c3 : ℝ) (h0 : 0 < c0) (h1 : c0 < c1) (h2 : c1 < 1 / 2)
    (hw : (Real.tan (Real.pi * c1) / Real.tan (Real.pi * c0)) ^ 2 ≤ attRatio) :
    autoFilter sq .bandpass fs [c0, c1, c2, c3] = .ub := by
  unfold autoFilter chooseOrder
  simp only [readAt, List.getElem?_cons_zero, List.getElem?_cons_succ, Res.ok_bind, (order_neg h0 h1 h2).1 hw]
  rfl

/-- C67 fails for band stop filters: the same at the upper side. -/
theorem C67_bandstop_refuted (sq : ℂ → ℂ) (fs c0 c1 c2 c3 : ℝ) (h0 : 0 < c0) (h1 : c0 < c1) (h2 : c1 < c2) (h3 : c2 < c3)
    (h4 : c3 < 1 / 2) (hw : (Real.tan (Real.pi * c3) / Real.tan (Real.pi * c2)) ^ 2 ≤ attRatio) :
    autoFilter sq .bandstop fs [c0, c1, c2, c3] = .ub := by
  obtain ⟨N, hN, e, -⟩ := order_up h0 h1 (by linarith : c1 < 1 / 2)
  unfold autoFilter chooseOrder
  simp only [readAt, List.getElem?_cons_zero, List.getElem?_cons_succ, Res.ok_bind, e,
    (order_neg (by linarith : 0 < c2) h3 h4).1 hw]
  rfl

/-- Corners for which the refutations apply: tangents 1 and 2. -/
example : ∃ v : ℝ, 1 / 4 < v ∧ v < 1 / 2 ∧ (Real.tan (Real.pi * v) / Real.tan (Real.pi * (1 / 4))) ^ 2 ≤ attRatio := by
  have hpi := Real.pi_pos
  have h14 : Real.tan (Real.pi * (1 / 4)) = 1 := by
    rw [show Real.pi * (1 / 4) = Real.pi / 4 by ring, Real.tan_pi_div_four]
  refine ⟨Real.arctan 2 / Real.pi, ?_, ?_, ?_⟩
  · rw [div_lt_div_iff₀ (by norm_num) hpi]
    have : Real.arctan 1 < Real.arctan 2 := Real.arctan_strictMono (by norm_num)
    rw [Real.arctan_one] at this
    linarith
  · rw [div_lt_div_iff₀ hpi two_pos]
    linarith [Real.arctan_lt_pi_div_two 2]
  · rw [h14, mul_div_cancel₀ _ hpi.ne', Real.tan_arctan]; norm_num; linarith [attRatio_ge]

/-! ### The frequency domain -/

theorem factor_eq (nss : Nat) (fs : ℝ) (N : Nat) (b a : List ℝ) (hb : b.length = N + 1) (ha : a.length = N + 1) (i : Nat) :
    let w := Complex.exp (-Complex.I * ((fs * (i : ℝ) / (nss : ℝ) : ℝ) : ℂ))
    freqFactor nss fs N b a i = .ok ⟨|(polyAt b w / polyAt a w).re|, |(polyAt b w / polyAt a w).im|⟩ := by
  intro w
  unfold freqFactor
  obtain ⟨s, e, hs⟩ := forRange_inv (fun j (s : ℂ × ℂ) => do
      let b ← readAt b j
      let a ← readAt a j
      let v := Complex.exp (-Complex.I * ((fs * ((j * i : Nat) : ℝ) / (nss : ℝ) : ℝ) : ℂ))
      Res.ok (s.1 + b * v, s.2 + a * v))
    (fun k s => s = (∑ j ∈ range k, ((b.getD j 0 : ℝ) : ℂ) * w ^ j, ∑ j ∈ range k, ((a.getD j 0 : ℝ) : ℂ) * w ^ j))
    (N + 1) 0 (0, 0) (by simp) (by
      intro k s _ hk hs
      subst hs
      refine ⟨_, by rw [readAt_ok (by omega), Res.ok_bind, readAt_ok (by omega), Res.ok_bind], ?_⟩
      have hv : Complex.exp (-Complex.I * ((fs * ((k * i : Nat) : ℝ) / (nss : ℝ) : ℝ) : ℂ)) = w ^ k := by
        show _ = Complex.exp _ ^ k
        rw [← Complex.exp_nat_mul]
        congr 1; push_cast; ring
      rw [sum_range_succ, sum_range_succ, hv]
      simp [List.getD_eq_getElem?_getD, List.getElem?_eq_getElem (show k < b.length by omega),
        List.getElem?_eq_getElem (show k < a.length by omega)])
  rw [e, Res.ok_bind, hs]
  unfold polyAt
  rw [hb, ha, Nat.zero_add]

theorem tan_eq_or {x y : ℝ} (hx : Real.cos x ≠ 0) (hy : Real.cos y ≠ 0) (h : Real.tan x ^ 2 = Real.tan y ^ 2) :
    ∃ k : ℤ, x = y + k * Real.pi ∨ x = -y + k * Real.pi := by
  rw [Real.tan_eq_sin_div_cos, Real.tan_eq_sin_div_cos] at h
  rcases sq_eq_sq_iff_eq_or_eq_neg.mp h with h | h
  · have : Real.sin (x - y) = 0 := by
      rw [Real.sin_sub]
      field_simp at h
      linarith
    obtain ⟨k, hk⟩ := Real.sin_eq_zero_iff.mp this
    exact ⟨k, Or.inl (by linarith)⟩
  · have : Real.sin (x + y) = 0 := by
      rw [Real.sin_add]
      field_simp at h
      linarith
    obtain ⟨k, hk⟩ := Real.sin_eq_zero_iff.mp this
    exact ⟨k, Or.inr (by linarith)⟩

/-- C68 fails at every frequency: for every rational sampling frequency, order, corner and length of the window, the
factor that the frequency-domain low pass filter applies to bin `i` (the frequency `i·fs/nss`, strictly between zero
and half the sampling frequency) does not have the gain of the filter there: the exponential has `fs` where it should
have `2π`. -/
theorem C68_gain_refuted (sq : ℂ → ℂ) (N : Nat) (hN : 1 ≤ N) (fs : ℚ) (c : ℝ) (h0 : 0 < c) (h1 : c < fs / 2) (nss i : Nat)
    (hi : 1 ≤ i) (hn : 2 * i < nss) :
    ∃ b a v, makeFilter sq .lowpass N fs c 0 = .ok (b, a) ∧ freqFactor nss fs N b a i = .ok v ∧
      ‖v‖ ≠ ‖polyAt b (delay fs (i * fs / nss)) / polyAt a (delay fs (i * fs / nss))‖ := by
  obtain ⟨b, a, e, lb, la, _, hg⟩ := C65_lowpass sq N hN fs c h0 h1
  refine ⟨b, a, _, e, factor_eq nss fs N b a lb la i, ?_⟩
  have hfs : (0 : ℝ) < fs := by linarith
  have hfs' : (0 : ℚ) < fs := by exact_mod_cast hfs
  have hns : (0 : ℝ) < nss := by exact_mod_cast (by omega : 0 < nss)
  have hnq : (0 : ℚ) < nss := by exact_mod_cast (by omega : 0 < nss)
  have hi0 : (0 : ℝ) < i := by exact_mod_cast hi
  have hiq : (0 : ℚ) < i := by exact_mod_cast hi
  -- the code's angle is the angle of another frequency
  have hw : Complex.exp (-Complex.I * (((fs : ℝ) * (i : ℝ) / (nss : ℝ) : ℝ) : ℂ)) =
      delay fs (fs * (fs * i / nss) / (2 * Real.pi)) := by
    unfold delay
    congr 1
    rw [show 2 * Real.pi * ((fs : ℝ) * ((fs : ℝ) * (i : ℝ) / (nss : ℝ)) / (2 * Real.pi)) / (fs : ℝ) =
      (fs : ℝ) * (i : ℝ) / (nss : ℝ) by field_simp]
    ring
  have hang : Real.pi * ((fs : ℝ) * ((fs : ℝ) * (i : ℝ) / (nss : ℝ)) / (2 * Real.pi)) / (fs : ℝ) =
      ((fs * i / (2 * nss) : ℚ) : ℝ) := by
    push_cast
    field_simp
  have hang2 : Real.pi * ((i : ℝ) * (fs : ℝ) / (nss : ℝ)) / (fs : ℝ) = Real.pi * ((i / nss : ℚ) : ℝ) := by
    push_cast
    field_simp
  -- a rational multiple of pi is rational only if it is zero
  have hirr : ∀ q r : ℚ, q ≠ 0 → (q : ℝ) = r * Real.pi → False := by
    intro q r hq h
    have hr : r ≠ 0 := by
      rintro rfl
      rw [Rat.cast_zero, zero_mul] at h
      exact hq (by exact_mod_cast h)
    refine irrational_pi ⟨q / r, ?_⟩
    push_cast
    rw [h]
    have : (r : ℝ) ≠ 0 := by exact_mod_cast hr
    field_simp
  have hq0 : fs * i / (2 * nss) ≠ 0 := by positivity
  have hc1 : Real.cos ((fs * i / (2 * nss) : ℚ) : ℝ) ≠ 0 := by
    intro h
    obtain ⟨k, hk⟩ := Real.cos_eq_zero_iff.mp h
    refine hirr _ ((2 * k + 1) / 2) hq0 ?_
    rw [hk]; push_cast; ring
  have hc2 : Real.cos (Real.pi * ((i / nss : ℚ) : ℝ)) ≠ 0 := by
    rw [← hang2]
    apply (cos_freq _).ne'
    rw [abs_of_pos (by positivity), div_lt_div_iff₀ hns two_pos]
    have : (2 * i : ℝ) < nss := by exact_mod_cast hn
    nlinarith
  intro h
  have h2 := congrArg (fun x : ℝ => x ^ 2) h
  beta_reduce at h2
  rw [hg _ (by rw [hang2]; exact hc2), hang2] at h2
  have hnorm : ∀ z : ℂ, ‖(⟨|z.re|, |z.im|⟩ : ℂ)‖ ^ 2 = ‖z‖ ^ 2 := by
    intro z
    rw [← Complex.normSq_eq_norm_sq, ← Complex.normSq_eq_norm_sq, Complex.normSq_apply, Complex.normSq_apply]
    simp
  rw [hnorm, hw, hg _ (by rw [hang]; exact hc1), hang] at h2
  have hinj : Real.tan ((fs * i / (2 * nss) : ℚ) : ℝ) ^ 2 = Real.tan (Real.pi * ((i / nss : ℚ) : ℝ)) ^ 2 := by
    have hA := pow_pos (tan_corner h0 h1) (2 * N)
    unfold gain2 at h2
    generalize Real.tan (Real.pi * c / (fs : ℝ)) ^ (2 * N) = A at *
    have hx : 0 ≤ Real.tan ((fs * i / (2 * nss) : ℚ) : ℝ) ^ (2 * N) := (even_two_mul N).pow_nonneg _
    have hy : 0 ≤ Real.tan (Real.pi * ((i / nss : ℚ) : ℝ)) ^ (2 * N) := (even_two_mul N).pow_nonneg _
    rw [div_eq_div_iff (by positivity) (by positivity)] at h2
    have h3 := mul_left_cancel₀ hA.ne' h2
    have h4 : (Real.tan ((fs * i / (2 * nss) : ℚ) : ℝ) ^ 2) ^ N = (Real.tan (Real.pi * ((i / nss : ℚ) : ℝ)) ^ 2) ^ N := by
      rw [← pow_mul, ← pow_mul]; linarith
    exact (pow_left_inj₀ (sq_nonneg _) (sq_nonneg _) (by omega)).mp h4
  obtain ⟨k, hk | hk⟩ := tan_eq_or hc1 hc2 hinj
  · refine hirr _ (i / nss + k) hq0 ?_
    rw [hk]; push_cast; ring
  · refine hirr _ (-(i / nss) + k) hq0 ?_
    rw [hk]; push_cast; ring

/-- A 60 Hz filter of a trace sampled at 500 Hz, bin 3 of 99. -/
example : (0 : ℝ) < 60 ∧ (60 : ℝ) < ((500 : ℚ) : ℝ) / 2 ∧ 1 ≤ 3 ∧ 2 * 3 < 99 := by norm_num

/-- C68 (partial). What is kept: the factor of bin zero has the right gain, and in every bin its parts are the absolute
values of the parts of a value of the filter's response on the unit circle. -/
theorem C68_circle_partial (nss : Nat) (fs : ℝ) (N : Nat) (b a : List ℝ) (hb : b.length = N + 1) (ha : a.length = N + 1)
    (i : Nat) : ∃ v w, freqFactor nss fs N b a i = .ok v ∧ ‖w‖ = 1 ∧ ‖v‖ = ‖polyAt b w / polyAt a w‖ ∧ (i = 0 → w = 1) := by
  refine ⟨_, Complex.exp (-Complex.I * ((fs * (i : ℝ) / (nss : ℝ) : ℝ) : ℂ)), factor_eq nss fs N b a hb ha i, ?_, ?_, ?_⟩
  · rw [show -Complex.I * ((fs * (i : ℝ) / (nss : ℝ) : ℝ) : ℂ) = ((-(fs * (i : ℝ) / (nss : ℝ)) : ℝ) : ℂ) * Complex.I by
      push_cast; ring]
    exact Complex.norm_exp_ofReal_mul_I _
  · rw [← sq_eq_sq₀ (norm_nonneg _) (norm_nonneg _), ← Complex.normSq_eq_norm_sq, ← Complex.normSq_eq_norm_sq,
      Complex.normSq_apply, Complex.normSq_apply]
    simp
  · rintro rfl; simp

example : ([1, 2] : List ℝ).length = 1 + 1 := rfl

end Verif.Signal
