import Verif.Signal.Freq
import Verif.Props.Order
import Verif.Props.TempFilter
import Mathlib.Data.List.GetD

/-!
C110: filtering in the frequency domain, transforms included.
-/

namespace Verif.Signal

open Finset

/-- `exp (2 π i t / n)`. -/
noncomputable def turn (n : Nat) (t : ℤ) : ℂ := Complex.exp ((2 * Real.pi * (t : ℝ) / (n : ℝ) : ℝ) * Complex.I)

theorem turn_add (n : Nat) (s t : ℤ) : turn n (s + t) = turn n s * turn n t := by
  unfold turn
  rw [← Complex.exp_add]
  congr 1
  push_cast
  ring

theorem turn_zero (n : Nat) : turn n 0 = 1 := by simp [turn]

theorem turn_mul (n : Nat) (j : Nat) (t : ℤ) : turn n (j * t) = turn n t ^ j := by
  unfold turn
  rw [← Complex.exp_nat_mul]
  congr 1
  push_cast
  ring

theorem turn_conj (n : Nat) (t : ℤ) : (starRingEnd ℂ) (turn n t) = turn n (-t) := by
  unfold turn
  rw [← Complex.exp_conj]
  congr 1
  simp only [map_mul, Complex.conj_ofReal, Complex.conj_I]
  push_cast
  ring

theorem turn_self (n : Nat) (hn : 0 < n) : turn n n = 1 := by
  unfold turn
  have : (n : ℝ) ≠ 0 := by positivity
  rw [show (2 * Real.pi * (((n : ℤ)) : ℝ) / (n : ℝ) : ℝ) = 2 * Real.pi by
    rw [Int.cast_natCast]; field_simp]
  push_cast
  exact Complex.exp_two_pi_mul_I

/-- A turn that is not a whole number of turns. -/
theorem turn_ne (n : Nat) (t : ℤ) (h0 : t ≠ 0) (h1 : -(n : ℤ) < t) (h2 : t < n) : turn n t ≠ 1 := by
  intro h
  unfold turn at h
  obtain ⟨m, hm⟩ := Complex.exp_eq_one_iff.mp h
  have hn : (n : ℝ) ≠ 0 := by
    have : (n : ℤ) ≠ 0 := by omega
    exact_mod_cast this
  have e : (2 * Real.pi * (t : ℝ) / (n : ℝ) : ℝ) = m * (2 * Real.pi) := by
    have h3 : (((2 * Real.pi * (t : ℝ) / (n : ℝ) : ℝ) : ℂ)) * Complex.I = ((m * (2 * Real.pi) : ℝ) : ℂ) * Complex.I := by
      rw [hm]; push_cast; ring
    have h4 := mul_right_cancel₀ Complex.I_ne_zero h3
    exact_mod_cast h4
  have e2 : (t : ℝ) = m * n := by
    have hp := Real.pi_ne_zero
    field_simp at e
    linarith
  have e3 : t = m * n := by exact_mod_cast e2
  have : m = 0 := by
    by_contra hm0
    rcases lt_or_gt_of_ne hm0 with h5 | h5
    · have : m * (n : ℤ) ≤ -1 * n := by
        apply mul_le_mul_of_nonneg_right (by omega) (by omega)
      omega
    · have : 1 * (n : ℤ) ≤ m * n := by
        apply mul_le_mul_of_nonneg_right (by omega) (by omega)
      omega
  rw [this] at e3
  omega

theorem turn_whole (n : Nat) (hn : 0 < n) (t : ℤ) : turn n (n * t) = 1 := by
  unfold turn
  have : (n : ℝ) ≠ 0 := by positivity
  rw [show (2 * Real.pi * (((n * t : ℤ)) : ℝ) / (n : ℝ) : ℝ) = t * (2 * Real.pi) by
    push_cast; field_simp]
  push_cast
  rw [mul_assoc]
  exact Complex.exp_int_mul_two_pi_mul_I t

/-- The sum of `exp (2 π i j t / n)` over `n` samples. -/
theorem turn_sum (n : Nat) (t : ℤ) (h1 : -(n : ℤ) < t) (h2 : t < n) :
    ∑ j ∈ range n, turn n (j * t) = if t = 0 then (n : ℂ) else 0 := by
  split
  · rename_i h
    simp [h, turn_zero]
  · rename_i h
    simp only [turn_mul]
    have h3 := geom_sum_mul (turn n t) n
    rw [← turn_mul, turn_whole n (by omega), sub_self] at h3
    exact (mul_eq_zero.mp h3).resolve_right (sub_ne_zero.mpr (turn_ne n t h h1 h2))

/-- The same where the sum is over a whole turn. -/
theorem turn_sum_n (n : Nat) (hn : 0 < n) : ∑ j ∈ range n, turn n (j * (n : ℤ)) = (n : ℂ) := by
  simp only [turn_mul, turn_self n hn, one_pow, sum_const, card_range, nsmul_eq_mul, mul_one]

/-- Frequency `k` of samples `x`: the sum of `x_j exp (-2 π i j k / n)`. -/
noncomputable def bin (x : List ℝ) (k : Nat) : ℂ :=
  ∑ j ∈ range x.length, ((x.getD j 0 : ℝ) : ℂ) * turn x.length (-(j * k))

/-- The response of the filter `numer / denom` at frequency `k` of `n`, as the code takes frequencies: `exp (-i fs k / n)`. -/
noncomputable def response (fs : ℝ) (n : Nat) (numer denom : List ℝ) (k : Nat) : ℂ :=
  let w := Complex.exp (-Complex.I * ((fs * (k : ℝ) / (n : ℝ) : ℝ) : ℂ))
  polyAt numer w / polyAt denom w

theorem r2c_get (n : Nat) (x : List ℝ) (k : Nat) (hk : k ≤ n / 2) :
    (r2c n x).getD k 0 = ∑ j ∈ range n, ((x.getD j 0 : ℝ) : ℂ) * turn n (-(j * k)) := by
  unfold r2c
  rw [List.getD_append _ _ _ _ (by simp; omega), List.getD_eq_getElem _ _ (by simp; omega), List.getElem_map, List.getElem_range]
  refine sum_congr rfl (fun j _ => ?_)
  congr 1
  unfold turn
  congr 1
  push_cast
  ring

theorem r2c_length (n : Nat) (x : List ℝ) : n / 2 + 1 ≤ (r2c n x).length := by
  unfold r2c; simp

/-- What the loop over the frequencies leaves in the array. -/
theorem freq_loop (n : Nat) (fs : ℝ) (N : Nat) (b a : List ℝ) (hb : b.length = N + 1) (ha : a.length = N + 1) (X : List ℂ)
    (hX : n / 2 + 1 ≤ X.length) :
    ∃ Y, forRange (freqStep n fs N b a) 0 (n / 2 + 1) X = .ok Y ∧
      ∀ k, k ≤ n / 2 → Y.getD k 0 = X.getD k 0 * ⟨|(response fs n b a k).re|, |(response fs n b a k).im|⟩ := by
  obtain ⟨Y, e, hY⟩ := forRange_inv (freqStep n fs N b a)
    (fun i Y => Y.length = X.length ∧ ∀ k, Y.getD k 0 =
      if k < i then X.getD k 0 * ⟨|(response fs n b a k).re|, |(response fs n b a k).im|⟩ else X.getD k 0)
    (n / 2 + 1) 0 X ⟨rfl, fun k => by simp⟩ (by
      rintro i Y - hi ⟨hl, hY⟩
      refine ⟨Y.set i (Y[i]'(by omega) * ⟨|(response fs n b a i).re|, |(response fs n b a i).im|⟩), ?_, by simpa using hl, ?_⟩
      · unfold freqStep
        rw [factor_eq n fs N b a hb ha i, Res.ok_bind, readAt_ok (by omega), Res.ok_bind, writeAt_ok _ (by omega)]
        rfl
      · intro k
        have h1 := hY k
        by_cases hk : k = i
        · subst hk
          rw [if_pos (Nat.lt_succ_self _), List.getD_eq_getElem _ _ (by rw [List.length_set]; omega), List.getElem_set_self]
          rw [if_neg (Nat.lt_irrefl _), List.getD_eq_getElem _ _ (by omega)] at h1
          rw [h1]
        · rw [List.getD_eq_getElem?_getD, List.getElem?_set_ne (Ne.symm hk), ← List.getD_eq_getElem?_getD, h1]
          by_cases h2 : k < i
          · rw [if_pos h2, if_pos (by omega)]
          · rw [if_neg h2, if_neg (by omega)])
  refine ⟨Y, e, fun k hk => ?_⟩
  rw [hY.2 k, if_pos (by omega)]

/-- The whole of `filterFreq` if planning leaves the arrays alone. -/
theorem filterFreq_eq (fs : ℝ) (N : Nat) (b a trc : List ℝ) (hn : 0 < trc.length) (hb : b.length = N + 1) (ha : a.length = N + 1) :
    ∃ Y, filterFreq ⟨none, none⟩ fs N b a trc = .ok ((c2r trc.length Y).map (· / (trc.length : ℝ))) ∧
      ∀ k, k ≤ trc.length / 2 → Y.getD k 0 =
        bin trc k * ⟨|(response fs trc.length b a k).re|, |(response fs trc.length b a k).im|⟩ := by
  obtain ⟨Y, e, hY⟩ := freq_loop trc.length fs N b a hb ha (r2c trc.length trc) (r2c_length _ _)
  refine ⟨Y, ?_, fun k hk => ?_⟩
  · unfold filterFreq
    simp only [if_neg (show trc.length ≠ 0 by omega), Option.getD_none]
    rw [e]
    rfl
  · rw [hY k hk, r2c_get _ _ _ hk]
    rfl

theorem two_re (z : ℂ) : ((2 * z.re : ℝ) : ℂ) = z + (starRingEnd ℂ) z := by
  rw [Complex.add_conj]

theorem turn_half (n : Nat) (hn : 0 < n) (h : n % 2 = 0) (j : Nat) : turn n (j * (n / 2 : Nat)) = (-1) ^ j := by
  rw [turn_mul]
  congr 1
  unfold turn
  have e : (n : ℝ) = 2 * ((n / 2 : Nat) : ℝ) := by
    have : n = 2 * (n / 2) := by omega
    exact_mod_cast this
  have h2 : ((n / 2 : Nat) : ℝ) ≠ 0 := by
    have : n / 2 ≠ 0 := by omega
    exact_mod_cast this
  rw [show (2 * Real.pi * (((n / 2 : Nat) : ℤ) : ℝ) / (n : ℝ) : ℝ) = Real.pi by
    rw [e, Int.cast_natCast]; field_simp]
  exact Complex.exp_pi_mul_I

/-- A sample of the backward transform as a sum of turns. -/
theorem c2r_get (n : Nat) (Y : List ℂ) (j : Nat) (hj : j < n) :
    (((c2r n Y).getD j 0 : ℝ) : ℂ) = ((Y.getD 0 0).re : ℂ)
      + ∑ k ∈ range ((n - 1) / 2), (Y.getD (k + 1) 0 * turn n (j * (k + 1 : Nat)) + (starRingEnd ℂ) (Y.getD (k + 1) 0) * turn n (j * (-(k + 1 : Nat))))
      + if n % 2 = 0 then ((Y.getD (n / 2) 0).re : ℂ) * turn n (j * (n / 2 : Nat)) else 0 := by
  unfold c2r
  rw [List.getD_eq_getElem _ _ (by simpa using hj), List.getElem_map, List.getElem_range]
  rw [Complex.ofReal_add, Complex.ofReal_add, Complex.ofReal_sum]
  congr 1
  · congr 1
    refine sum_congr rfl (fun k _ => ?_)
    rw [two_re, map_mul]
    have e : Complex.exp (((2 * Real.pi * ((j * (k + 1) : Nat) : ℝ) / (n : ℝ) : ℝ) : ℂ) * Complex.I) = turn n (j * (k + 1 : Nat)) := by
      unfold turn
      push_cast
      rfl
    rw [e, turn_conj, mul_neg]
  · split
    · rename_i h
      rw [turn_half n (by omega) h]
      push_cast
      rfl
    · rfl

/-- The frequencies of the backward transform. -/
theorem c2r_bin (n : Nat) (hn : 0 < n) (Y : List ℂ) (m : Nat) (hm : m ≤ n / 2) :
    ∑ j ∈ range n, (((c2r n Y).getD j 0 : ℝ) : ℂ) * turn n (-(j * m)) =
      n * if m = 0 ∨ 2 * m = n then ((Y.getD m 0).re : ℂ) else Y.getD m 0 := by
  have e : ∀ j ∈ range n, (((c2r n Y).getD j 0 : ℝ) : ℂ) * turn n (-(j * m)) =
      ((Y.getD 0 0).re : ℂ) * turn n (j * (-m))
      + ∑ k ∈ range ((n - 1) / 2), (Y.getD (k + 1) 0 * turn n (j * ((k + 1 : Nat) - m)) + (starRingEnd ℂ) (Y.getD (k + 1) 0) * turn n (j * (-(k + 1 : Nat) - m)))
      + if n % 2 = 0 then ((Y.getD (n / 2) 0).re : ℂ) * turn n (j * ((n / 2 : Nat) - m)) else 0 := by
    intro j hj
    rw [c2r_get n Y j (mem_range.mp hj), add_mul, add_mul, sum_mul, mul_neg]
    congr 1
    · congr 1
      refine sum_congr rfl (fun k _ => ?_)
      rw [mul_sub, mul_sub, sub_eq_add_neg, sub_eq_add_neg, turn_add, turn_add]
      ring
    · split
      · rw [mul_sub, sub_eq_add_neg, turn_add]
        ring
      · exact zero_mul _
  rw [sum_congr rfl e, sum_add_distrib, sum_add_distrib, sum_comm, ← mul_sum, turn_sum n (-m) (by omega) (by omega)]
  have e2 : ∀ k ∈ range ((n - 1) / 2), ∑ j ∈ range n, (Y.getD (k + 1) 0 * turn n (j * ((k + 1 : Nat) - m)) + (starRingEnd ℂ) (Y.getD (k + 1) 0) * turn n (j * (-(k + 1 : Nat) - m)))
      = if k + 1 = m then n * Y.getD m 0 else 0 := by
    intro k hk
    have hk := mem_range.mp hk
    rw [sum_add_distrib, ← mul_sum, ← mul_sum, turn_sum n _ (by omega) (by omega), turn_sum n _ (by omega) (by omega),
      if_neg (show ¬ (-((k + 1 : Nat) : ℤ) - m = 0) by omega), mul_zero, add_zero]
    by_cases h : k + 1 = m
    · rw [if_pos h, if_pos (by omega), h, mul_comm]
    · rw [if_neg h, if_neg (by omega), mul_zero]
  rw [sum_congr rfl e2]
  have e3 : ∑ j ∈ range n, (if n % 2 = 0 then ((Y.getD (n / 2) 0).re : ℂ) * turn n (j * ((n / 2 : Nat) - m)) else 0)
      = if 2 * m = n then (n : ℂ) * ((Y.getD m 0).re : ℂ) else 0 := by
    by_cases h : n % 2 = 0
    · simp only [if_pos h]
      rw [← mul_sum, turn_sum n _ (by omega) (by omega)]
      by_cases h2 : 2 * m = n
      · rw [if_pos h2, if_pos (by omega), show n / 2 = m by omega, mul_comm]
      · rw [if_neg h2, if_neg (by omega), mul_zero]
    · simp only [if_neg h]
      rw [if_neg (by omega), sum_const_zero]
  rw [e3]
  by_cases h0 : m = 0
  · subst h0
    rw [if_pos (by simp), if_pos (Or.inl rfl), sum_eq_zero (fun k _ => by rw [if_neg (by omega)]), if_neg (by omega)]
    ring
  · rw [if_neg (by omega), mul_zero, zero_add]
    by_cases h2 : 2 * m = n
    · rw [if_pos h2, if_pos (Or.inr h2), sum_eq_zero (fun k hk => by
        have := mem_range.mp hk
        rw [if_neg (by omega)]), zero_add]
    · rw [if_neg h2, if_neg (by tauto), add_zero, sum_eq_single (m - 1)]
      · rw [if_pos (by omega)]
      · intro k _ hk
        rw [if_neg (by omega)]
      · intro h
        exact absurd (mem_range.mpr (by omega)) h

theorem c2r_length (n : Nat) (Y : List ℂ) : (c2r n Y).length = n := by simp [c2r]

theorem div_get (l : List ℝ) (c : ℝ) (j : Nat) : (l.map (· / c)).getD j 0 = l.getD j 0 / c := by
  rcases Nat.lt_or_ge j l.length with h | h
  · rw [List.getD_eq_getElem _ _ (by simpa using h), List.getD_eq_getElem _ _ h, List.getElem_map]
  · rw [List.getD_eq_default _ _ (by simpa using h), List.getD_eq_default _ _ h, zero_div]

/-- A sum of real samples with signs `(-1)^j`, or without, is real. -/
theorem bin_real (x : List ℝ) (k : Nat) (h : k = 0 ∨ 2 * k = x.length) : (((bin x k).re : ℝ) : ℂ) = bin x k := by
  rw [← Complex.conj_eq_iff_re]
  unfold bin
  rw [map_sum]
  refine sum_congr rfl (fun j hj => ?_)
  rw [map_mul, Complex.conj_ofReal, turn_conj, neg_neg]
  congr 1
  rcases h with h | h
  · subst h; simp
  · have h0 : 0 < x.length := by have := mem_range.mp hj; omega
    have e : turn x.length (j * k) = turn x.length (-(j * k)) * turn x.length (x.length * j) := by
      rw [← turn_add]
      congr 1
      have : (x.length : ℤ) = 2 * k := by omega
      rw [this]; ring
    rw [e, turn_whole _ h0, mul_one]

/-- C110, planning leaving the arrays alone: every frequency of the samples is multiplied by the number whose parts are the sizes of the
parts of the response; at frequency zero and, for even lengths, the highest, by the first of them. -/
theorem C110_bins_partial (fs : ℝ) (N : Nat) (b a trc : List ℝ) (hn : 0 < trc.length) (hb : b.length = N + 1) (ha : a.length = N + 1) :
    ∃ y, filterFreq ⟨none, none⟩ fs N b a trc = .ok y ∧ y.length = trc.length ∧
      ∀ k, k ≤ trc.length / 2 →
        (0 < k → 2 * k < trc.length →
          bin y k = bin trc k * ⟨|(response fs trc.length b a k).re|, |(response fs trc.length b a k).im|⟩) ∧
        (k = 0 ∨ 2 * k = trc.length → bin y k = bin trc k * (|(response fs trc.length b a k).re| : ℝ)) := by
  obtain ⟨Y, e, hY⟩ := filterFreq_eq fs N b a trc hn hb ha
  refine ⟨_, e, by rw [List.length_map, c2r_length], fun k hk => ?_⟩
  have hn' : ((trc.length : ℝ) : ℂ) ≠ 0 := by
    rw [Complex.ofReal_natCast]
    exact_mod_cast (show trc.length ≠ 0 by omega)
  have hbin : bin ((c2r trc.length Y).map (· / (trc.length : ℝ))) k =
      if k = 0 ∨ 2 * k = trc.length then ((Y.getD k 0).re : ℂ) else Y.getD k 0 := by
    have h := c2r_bin trc.length hn Y k hk
    unfold bin
    rw [List.length_map, c2r_length]
    simp only [div_get, Complex.ofReal_div, div_mul_eq_mul_div]
    rw [← sum_div, h, Complex.ofReal_natCast, mul_comm, mul_div_assoc, div_self (by simpa using hn'), mul_one]
  rw [hbin, hY k hk]
  refine ⟨fun h1 h2 => by rw [if_neg (by omega)], fun h => ?_⟩
  rw [if_pos h, ← bin_real trc k h, Complex.re_ofReal_mul]
  push_cast
  simp

/-- One sample of the result. -/
theorem filterFreq_get (fs : ℝ) (N : Nat) (b a trc : List ℝ) (hn : 0 < trc.length) (hb : b.length = N + 1) (ha : a.length = N + 1) :
    ∃ y, filterFreq ⟨none, none⟩ fs N b a trc = .ok y ∧ y.length = trc.length ∧
      ∀ j, j < trc.length → y.getD j 0 =
        ((bin trc 0 * ⟨|(response fs trc.length b a 0).re|, |(response fs trc.length b a 0).im|⟩).re
        + ∑ k ∈ range ((trc.length - 1) / 2),
          2 * (bin trc (k + 1) * ⟨|(response fs trc.length b a (k + 1)).re|, |(response fs trc.length b a (k + 1)).im|⟩ * turn trc.length (j * (k + 1 : Nat))).re
        + if trc.length % 2 = 0 then
            (bin trc (trc.length / 2) * ⟨|(response fs trc.length b a (trc.length / 2)).re|, |(response fs trc.length b a (trc.length / 2)).im|⟩).re * (-1) ^ j
          else 0) / trc.length := by
  obtain ⟨Y, e, hY⟩ := filterFreq_eq fs N b a trc hn hb ha
  refine ⟨_, e, by rw [List.length_map, c2r_length], fun j hj => ?_⟩
  rw [div_get]
  unfold c2r
  rw [List.getD_eq_getElem _ _ (by simpa using hj), List.getElem_map, List.getElem_range, hY 0 (by omega), hY _ (Nat.le_refl _)]
  congr 3
  refine sum_congr rfl (fun k hk => ?_)
  rw [hY (k + 1) (by have := mem_range.mp hk; omega)]
  unfold turn
  push_cast
  rfl

/-- The frequencies of a cosine. -/
theorem tone_bin (n : Nat) (k : Nat) (hk : 0 < k) (hk2 : 2 * k < n) (A φ : ℝ) (m : Nat) (hm : m ≤ n / 2) :
    bin ((List.range n).map (fun j : Nat => A * Real.cos (2 * Real.pi * ((j * k : Nat) : ℝ) / n + φ))) m =
      if m = k then (n : ℂ) * (A / 2) * Complex.exp (φ * Complex.I) else 0 := by
  unfold bin
  simp only [List.length_map, List.length_range]
  have e : ∀ j ∈ range n, ((((List.range n).map (fun j : Nat => A * Real.cos (2 * Real.pi * ((j * k : Nat) : ℝ) / n + φ))).getD j 0 : ℝ) : ℂ) * turn n (-(j * m))
      = (A / 2) * Complex.exp (φ * Complex.I) * turn n (j * ((k : ℤ) - m)) + (A / 2) * Complex.exp (-φ * Complex.I) * turn n (j * (-(k : ℤ) - m)) := by
    intro j hj
    have hj := mem_range.mp hj
    rw [List.getD_eq_getElem _ _ (by simpa using hj), List.getElem_map, List.getElem_range, mul_sub, mul_sub, sub_eq_add_neg,
      sub_eq_add_neg, turn_add, turn_add]
    have h : ((A * Real.cos (2 * Real.pi * ((j * k : Nat) : ℝ) / n + φ) : ℝ) : ℂ) =
        (A / 2) * Complex.exp (φ * Complex.I) * turn n (j * k) + (A / 2) * Complex.exp (-φ * Complex.I) * turn n (j * (-(k : ℤ))) := by
      rw [Complex.ofReal_mul, Complex.ofReal_cos, Complex.cos]
      have h1 : Complex.exp (((2 * Real.pi * ((j * k : Nat) : ℝ) / n + φ : ℝ) : ℂ) * Complex.I) =
          Complex.exp (φ * Complex.I) * turn n (j * k) := by
        unfold turn
        rw [← Complex.exp_add]
        congr 1
        push_cast
        ring
      have h2 : Complex.exp (-((2 * Real.pi * ((j * k : Nat) : ℝ) / n + φ : ℝ) : ℂ) * Complex.I) =
          Complex.exp (-φ * Complex.I) * turn n (j * (-(k : ℤ))) := by
        unfold turn
        rw [← Complex.exp_add]
        congr 1
        push_cast
        ring
      rw [h1, h2]
      ring
    rw [h]
    ring
  rw [sum_congr rfl e, sum_add_distrib, ← mul_sum, ← mul_sum, turn_sum n _ (by omega) (by omega), turn_sum n _ (by omega) (by omega),
    if_neg (show ¬ (-(k : ℤ) - m = 0) by omega), mul_zero, add_zero]
  by_cases h : m = k
  · rw [if_pos h, if_pos (by omega)]; ring
  · rw [if_neg h, if_neg (by omega), mul_zero]

/-- C110: a cosine of `k` periods over the samples comes back with its amplitude multiplied by the size of the response, and with a
phase between zero and a quarter of a turn added. -/
theorem C110_tone_partial (fs : ℝ) (N : Nat) (b a : List ℝ) (hb : b.length = N + 1) (ha : a.length = N + 1) (n k : Nat) (hk : 0 < k)
    (hk2 : 2 * k < n) (A φ : ℝ) :
    ∃ y, filterFreq ⟨none, none⟩ fs N b a ((List.range n).map (fun j : Nat => A * Real.cos (2 * Real.pi * ((j * k : Nat) : ℝ) / n + φ))) = .ok y ∧
      y.length = n ∧ ∃ ψ, 0 ≤ ψ ∧ ψ ≤ Real.pi / 2 ∧
        ‖response fs n b a k‖ * Real.cos ψ = |(response fs n b a k).re| ∧
        ‖response fs n b a k‖ * Real.sin ψ = |(response fs n b a k).im| ∧
        ∀ j, j < n → y.getD j 0 = A * ‖response fs n b a k‖ * Real.cos (2 * Real.pi * ((j * k : Nat) : ℝ) / n + φ + ψ) := by
  have hl : ((List.range n).map (fun j : Nat => A * Real.cos (2 * Real.pi * ((j * k : Nat) : ℝ) / n + φ))).length = n := by simp
  obtain ⟨y, e, hy, hj⟩ := filterFreq_get fs N b a _ (by rw [hl]; omega) hb ha
  rw [hl] at hy hj
  refine ⟨y, e, hy, ?_⟩
  set H := response fs n b a k with hH
  set g : ℂ := ⟨|H.re|, |H.im|⟩ with hg
  have hnorm : ‖g‖ = ‖H‖ := by
    rw [Complex.norm_def, Complex.norm_def, Complex.normSq_apply, Complex.normSq_apply]
    simp [hg]
  refine ⟨g.arg, Complex.arg_nonneg_iff.mpr (abs_nonneg _), ?_, ?_, ?_, ?_⟩
  · exact Complex.arg_le_pi_div_two_iff.mpr (Or.inl (abs_nonneg _))
  · rw [← hnorm, Complex.norm_mul_cos_arg]
  · rw [← hnorm, Complex.norm_mul_sin_arg]
  · intro j hjn
    have hn : (n : ℝ) ≠ 0 := by
      have : n ≠ 0 := by omega
      exact_mod_cast this
    rw [hj j hjn, tone_bin n k hk hk2 A φ 0 (by omega), if_neg (by omega), tone_bin n k hk hk2 A φ (n / 2) (Nat.le_refl _)]
    rw [sum_eq_single (k - 1)]
    · rw [show k - 1 + 1 = k by omega, tone_bin n k hk hk2 A φ k (by omega), if_pos rfl]
      have h3 : (if n % 2 = 0 then ((if n / 2 = k then (n : ℂ) * (A / 2) * Complex.exp (φ * Complex.I) else 0) * (⟨|(response fs n b a (n / 2)).re|, |(response fs n b a (n / 2)).im|⟩ : ℂ)).re * (-1 : ℝ) ^ j else 0) = 0 := by
        split
        · rw [if_neg (by omega)]; simp
        · rfl
      rw [h3]
      have hgz : (⟨|(response fs n b a k).re|, |(response fs n b a k).im|⟩ : ℂ) = ‖H‖ * Complex.exp (g.arg * Complex.I) := by
        rw [← hnorm, Complex.norm_mul_exp_arg_mul_I]
      rw [hgz]
      have h4 : (n : ℂ) * (A / 2) * Complex.exp (φ * Complex.I) * (‖H‖ * Complex.exp (g.arg * Complex.I)) * turn n (j * k) =
          ((n * (A / 2) * ‖H‖ : ℝ) : ℂ) * Complex.exp (((2 * Real.pi * ((j * k : Nat) : ℝ) / n + φ + g.arg : ℝ) : ℂ) * Complex.I) := by
        rw [show (((2 * Real.pi * ((j * k : Nat) : ℝ) / n + φ + g.arg : ℝ) : ℂ) * Complex.I) =
            φ * Complex.I + g.arg * Complex.I + ((2 * Real.pi * ((j * k : ℤ) : ℝ) / n : ℝ) : ℂ) * Complex.I by push_cast; ring,
          Complex.exp_add, Complex.exp_add]
        unfold turn
        push_cast
        ring
      rw [h4, Complex.re_ofReal_mul, Complex.exp_ofReal_mul_I_re]
      simp only [zero_mul, Complex.zero_re, zero_add, add_zero]
      field_simp
    · intro m hm hmk
      have := mem_range.mp hm
      rw [tone_bin n k hk hk2 A φ (m + 1) (by omega), if_neg (by omega)]
      simp
    · intro h
      exact absurd (mem_range.mpr (by omega)) h

/-- C110: samples that are all equal come back multiplied by the size of the real part of the response at frequency zero, the sum of the numerator
over that of the denominator. -/
theorem C110_constant_partial (fs : ℝ) (N : Nat) (b a : List ℝ) (hb : b.length = N + 1) (ha : a.length = N + 1) (n : Nat) (hn : 0 < n) (c : ℝ) :
    filterFreq ⟨none, none⟩ fs N b a (List.replicate n c) = .ok (List.replicate n (c * |b.sum / a.sum|)) := by
  obtain ⟨y, e, hy, hj⟩ := filterFreq_get fs N b a (List.replicate n c) (by simpa using hn) hb ha
  rw [List.length_replicate] at hy hj
  rw [e]
  congr 1
  have hbin : ∀ m, m ≤ n / 2 → bin (List.replicate n c) m = if m = 0 then (n : ℂ) * c else 0 := by
    intro m hm
    unfold bin
    rw [List.length_replicate]
    have e : ∀ j ∈ range n, (((List.replicate n c).getD j 0 : ℝ) : ℂ) * turn n (-(j * m)) = c * turn n (j * (-m)) := by
      intro j hj
      have hj := mem_range.mp hj
      rw [List.getD_eq_getElem _ _ (by simpa using hj), List.getElem_replicate, mul_neg]
    rw [sum_congr rfl e, ← mul_sum, turn_sum n _ (by omega) (by omega)]
    by_cases h : m = 0
    · rw [if_pos h, if_pos (by omega), mul_comm]
    · rw [if_neg h, if_neg (by omega), mul_zero]
  have hr : (response fs n b a 0).re = b.sum / a.sum := by
    unfold response
    have h1 : ∀ l : List ℝ, polyAt l 1 = ((l.sum : ℝ) : ℂ) := by
      intro l
      unfold polyAt
      simp only [one_pow, mul_one]
      induction l with
      | nil => simp
      | cons x l ih =>
        rw [List.length_cons, sum_range_succ', List.sum_cons]
        simp only [List.getD_cons_succ, List.getD_cons_zero]
        rw [ih]; push_cast; ring
    simp only [Nat.cast_zero, mul_zero, zero_div, Complex.ofReal_zero, Complex.exp_zero, h1]
    rw [← Complex.ofReal_div, Complex.ofReal_re]
  refine List.ext_getElem (by rw [hy, List.length_replicate]) (fun j h1 h2 => ?_)
  have hjn : j < n := by omega
  have h := hj j hjn
  rw [List.getD_eq_getElem _ _ h1] at h
  rw [h, List.getElem_replicate, hbin 0 (by omega), if_pos rfl, sum_eq_zero, hbin (n / 2) (Nat.le_refl _), hr]
  · have hn' : (n : ℝ) ≠ 0 := by positivity
    have h3 : ∀ z : ℂ, (if n % 2 = 0 then ((if n / 2 = 0 then (n : ℂ) * c else 0) * z).re * (-1 : ℝ) ^ j else 0) = 0 := by
      intro z
      split
      · rw [if_neg (by omega)]; simp
      · rfl
    rw [h3, show (n : ℂ) * c = ((n * c : ℝ) : ℂ) by push_cast; rfl, Complex.re_ofReal_mul]
    field_simp
    ring
  · intro k hk
    have := mem_range.mp hk
    rw [hbin (k + 1) (by omega), if_neg (by omega)]
    simp

/-- C110: with planning leaving the arrays alone, the filter is linear in the samples. -/
theorem C110_linear_partial (fs : ℝ) (N : Nat) (b a : List ℝ) (hb : b.length = N + 1) (ha : a.length = N + 1) (x z : List ℝ)
    (hx : 0 < x.length) (hz : z.length = x.length) (s t : ℝ) :
    ∃ y w, filterFreq ⟨none, none⟩ fs N b a x = .ok y ∧ filterFreq ⟨none, none⟩ fs N b a z = .ok w ∧
      filterFreq ⟨none, none⟩ fs N b a (List.zipWith (fun u v => s * u + t * v) x z) =
        .ok (List.zipWith (fun u v => s * u + t * v) y w) := by
  have hl : (List.zipWith (fun u v => s * u + t * v) x z).length = x.length := by simp [hz]
  obtain ⟨y, e1, hy, g1⟩ := filterFreq_get fs N b a x hx hb ha
  obtain ⟨w, e2, hw, g2⟩ := filterFreq_get fs N b a z (by omega) hb ha
  obtain ⟨q, e3, hq, g3⟩ := filterFreq_get fs N b a _ (by rw [hl]; omega) hb ha
  refine ⟨y, w, e1, e2, ?_⟩
  rw [e3]
  congr 1
  rw [hl] at hq g3
  rw [hz] at hw g2
  have hbin : ∀ k, bin (List.zipWith (fun u v => s * u + t * v) x z) k = s * bin x k + t * bin z k := by
    intro k
    unfold bin
    rw [hl, hz, mul_sum, mul_sum, ← sum_add_distrib]
    refine sum_congr rfl (fun j hj => ?_)
    have hj := mem_range.mp hj
    rw [List.getD_eq_getElem _ _ (by rw [hl]; exact hj), List.getElem_zipWith, List.getD_eq_getElem _ _ hj,
      List.getD_eq_getElem _ _ (by omega)]
    push_cast
    ring
  have hre : ∀ u v r : ℂ, ((s * u + t * v) * r).re = s * (u * r).re + t * (v * r).re := by
    intro u v r
    rw [add_mul, mul_assoc, mul_assoc, Complex.add_re, Complex.re_ofReal_mul, Complex.re_ofReal_mul]
  refine List.ext_getElem (by rw [hq, List.length_zipWith, hy, hw]; simp) (fun j h1 h2 => ?_)
  have hjn : j < x.length := by omega
  have k1 := g1 j hjn
  have k2 := g2 j hjn
  have k3 := g3 j hjn
  rw [List.getD_eq_getElem _ _ (by omega)] at k1 k2 k3
  rw [List.getElem_zipWith, k1, k2, k3]
  simp only [hbin, mul_assoc, hre]
  simp only [mul_add, sum_add_distrib, mul_left_comm (2 : ℝ), ← mul_sum]
  split <;> ring

/-- C110 fails as the code stands: the trace is in the array before the plan is made.  If the planner leaves anything of its own there, the
result is the same for every trace of that length; if it leaves zeros, the trace is erased. -/
theorem C110_plan_refuted (fs : ℝ) (N : Nat) (b a : List ℝ) (hb : b.length = N + 1) (ha : a.length = N + 1) (trc : List ℝ) (hn : 0 < trc.length) :
    (∀ t q trc', trc'.length = trc.length → filterFreq ⟨some t, q⟩ fs N b a trc = filterFreq ⟨some t, q⟩ fs N b a trc') ∧
    filterFreq ⟨some (List.replicate trc.length 0), none⟩ fs N b a trc = .ok (List.replicate trc.length 0) := by
  have h1 : ∀ t q trc', trc'.length = trc.length → filterFreq ⟨some t, q⟩ fs N b a trc = filterFreq ⟨some t, q⟩ fs N b a trc' := by
    intro t q trc' h
    unfold filterFreq
    simp only [h, Option.getD_some]
  refine ⟨h1, ?_⟩
  rw [h1 _ _ (List.replicate trc.length 0) (by simp)]
  have h2 := C110_constant_partial fs N b a hb ha trc.length hn 0
  rw [zero_mul] at h2
  rw [← h2]
  unfold filterFreq
  simp only [Option.getD_some, Option.getD_none]

/-- C110 fails: what the planner did before decides the result.  Equal traces, the same filter: where the planner has to measure, the trace is erased, and
where it knows the length already, it is filtered. -/
theorem C110_first_refuted (fs : ℝ) (N : Nat) (b a : List ℝ) (hb : b.length = N + 1) (ha : a.length = N + 1) (n : Nat) (hn : 0 < n) (c : ℝ)
    (hc : c ≠ 0) (h1 : b.sum ≠ 0) (h2 : a.sum ≠ 0) :
    filterFreq ⟨some (List.replicate n 0), none⟩ fs N b a (List.replicate n c) ≠ filterFreq ⟨none, none⟩ fs N b a (List.replicate n c) := by
  have h := (C110_plan_refuted fs N b a hb ha (List.replicate n c) (by simpa using hn)).2
  rw [List.length_replicate] at h
  rw [h, C110_constant_partial fs N b a hb ha n hn c, ne_eq, Res.ok.injEq]
  intro h3
  have h4 := congrArg (fun l => l.getD 0 0) h3
  simp only [List.getD_replicate _ hn] at h4
  exact mul_ne_zero hc (abs_ne_zero.mpr (div_ne_zero h1 h2)) h4.symm

/-- C110 fails: unless the response is real, the filter moves the phase: a cosine does not come back as a multiple of itself, though the sizes
of the parts of the response were taken to have no phase. -/
theorem C110_phase_refuted (fs : ℝ) (N : Nat) (b a : List ℝ) (hb : b.length = N + 1) (ha : a.length = N + 1) (n k : Nat) (hk : 0 < k)
    (hk2 : 2 * k < n) (him : (response fs n b a k).im ≠ 0) :
    ∃ y, filterFreq ⟨none, none⟩ fs N b a ((List.range n).map (fun j : Nat => Real.cos (2 * Real.pi * ((j * k : Nat) : ℝ) / n))) = .ok y ∧
      ∀ c : ℝ, ∃ j, j < n ∧ y.getD j 0 ≠ c * Real.cos (2 * Real.pi * ((j * k : Nat) : ℝ) / n) := by
  obtain ⟨y, e, hy, ψ, -, -, hc, hs, hj⟩ := C110_tone_partial fs N b a hb ha n k hk hk2 1 0
  simp only [one_mul, add_zero] at e hj
  refine ⟨y, e, fun c => ?_⟩
  by_contra hno
  push Not at hno
  have h0 := hno 0 (by omega)
  have h1 := hno 1 (by omega)
  rw [hj 0 (by omega)] at h0
  rw [hj 1 (by omega)] at h1
  simp only [Nat.zero_mul, Nat.cast_zero, mul_zero, zero_div, zero_add, Real.cos_zero, mul_one] at h0
  rw [Nat.one_mul, Real.cos_add, ← h0] at h1
  have h2 : ‖response fs n b a k‖ * Real.sin ψ * Real.sin (2 * Real.pi * (k : ℝ) / n) = 0 := by linarith
  rw [hs] at h2
  have hpos : 0 < Real.sin (2 * Real.pi * (k : ℝ) / n) := by
    have hn : (0 : ℝ) < n := by
      have : 0 < n := by omega
      exact_mod_cast this
    have hkr : (0 : ℝ) < k := by exact_mod_cast hk
    have hkn : (2 : ℝ) * k < n := by exact_mod_cast hk2
    refine Real.sin_pos_of_pos_of_lt_pi (by positivity) ?_
    rw [div_lt_iff₀ hn]
    nlinarith [Real.pi_pos]
  rcases mul_eq_zero.mp h2 with h3 | h3
  · exact him (abs_eq_zero.mp h3)
  · exact hpos.ne' h3

/-- A filter and a length to which the refutations apply: the sum of neighbours over three samples. -/
example : (response 1 3 [1, 1] [1, 0] 1).im ≠ 0 ∧ ([1, 1] : List ℝ).sum ≠ 0 ∧ ([1, 0] : List ℝ).sum ≠ 0 := by
  refine ⟨?_, by norm_num, by norm_num⟩
  unfold response polyAt
  simp only [List.length_cons, List.length_nil, sum_range_succ, sum_range_zero]
  have hs : Real.sin (1 / 3) ≠ 0 :=
    (Real.sin_pos_of_pos_of_lt_pi (by norm_num) (by linarith [Real.pi_gt_three])).ne'
  have : Complex.exp (-Complex.I * (((1 : ℝ) * ((1 : Nat) : ℝ) / ((3 : Nat) : ℝ) : ℝ) : ℂ)) =
      ⟨Real.cos (1 / 3), -Real.sin (1 / 3)⟩ := by
    rw [show -Complex.I * (((1 : ℝ) * ((1 : Nat) : ℝ) / ((3 : Nat) : ℝ) : ℝ) : ℂ) = ((-(1 / 3) : ℝ) : ℂ) * Complex.I by push_cast; ring]
    apply Complex.ext
    · rw [Complex.exp_ofReal_mul_I_re, Real.cos_neg]
    · rw [Complex.exp_ofReal_mul_I_im, Real.sin_neg]
  rw [this]
  simpa using hs

/-- Windows as `C110_traces_partial` wants them: all of five samples, and three of the middle. -/
example : oddWindow 5 0 / 2 ≤ centre 5 0 ∧ centre 5 0 + oddWindow 5 0 / 2 < 5 ∧
    oddWindow 5 4 / 2 ≤ centre 5 2 ∧ centre 5 2 + oddWindow 5 4 / 2 < 5 ∧ oddWindow 5 4 = 3 := by decide

/-- C110 for whole traces: with a window that fits, `temporalFilter` in the frequency domain replaces, in every trace, the samples of the window by
the filtered ones and leaves the others. -/
theorem C110_traces_partial (fs : ℝ) (N : Nat) (b a : List ℝ) (hb : b.length = N + 1) (ha : a.length = N + 1) (nt ns : Nat) (trc : List ℝ)
    (nw winCntr : Nat) (hlen : trc.length = nt * ns) (h64 : nt * ns + ns < 2 ^ 63) (hns : 1 ≤ ns)
    (hlo : oddWindow ns nw / 2 ≤ centre ns winCntr) (hhi : centre ns winCntr + oddWindow ns nw / 2 < ns) :
    ∃ out, temporalFilter nt ns trc (fun _ w => filterFreq ⟨none, none⟩ fs N b a w) nw winCntr = .ok out ∧ out.length = nt * ns ∧
      ∀ t, t < nt → ∃ y, filterFreq ⟨none, none⟩ fs N b a
            ((trc.drop (t * ns + (centre ns winCntr - oddWindow ns nw / 2))).take (oddWindow ns nw)) = .ok y ∧
          ∀ k, k < ns → sig out (t * ns + k) =
            if centre ns winCntr - oddWindow ns nw / 2 ≤ k ∧ k < centre ns winCntr - oddWindow ns nw / 2 + oddWindow ns nw then
              sig y (k - (centre ns winCntr - oddWindow ns nw / 2))
            else sig trc (t * ns + k) := by
  have hw : 0 < oddWindow ns nw := by
    clear hlo hhi
    unfold oddWindow
    dsimp only
    split_ifs <;> omega
  let G : List ℝ → List ℝ := fun w => match filterFreq ⟨none, none⟩ fs N b a w with | .ok y => y | _ => []
  have hG : ∀ w : List ℝ, w.length = oddWindow ns nw → filterFreq ⟨none, none⟩ fs N b a w = .ok (G w) ∧ (G w).length = oddWindow ns nw := by
    intro w h
    obtain ⟨y, e, hy, -⟩ := filterFreq_get fs N b a w (by omega) hb ha
    have : G w = y := by show (match filterFreq ⟨none, none⟩ fs N b a w with | .ok y => y | _ => []) = y; rw [e]
    rw [this]
    exact ⟨e, by omega⟩
  obtain ⟨out, e, ho, hk⟩ := C43_window_partial nt ns trc (fun _ w => filterFreq ⟨none, none⟩ fs N b a w) nw winCntr hlen h64 hns hlo hhi G hG
  refine ⟨out, e, ho, fun t ht => ⟨_, (hG _ ?_).1, fun k hkn => hk t k ht hkn⟩⟩
  rw [List.length_take, List.length_drop, hlen]
  have : (t + 1) * ns ≤ nt * ns := Nat.mul_le_mul_right _ ht
  rw [Nat.add_mul] at this
  omega

end Verif.Signal
