import Verif.Signal.Ramp
import Mathlib.Tactic.Linarith
import Mathlib.Tactic.FieldSimp
import Mathlib.Tactic.Positivity

/-!
C57: the built-in ramps rise strictly from above zero to one over the taper.
-/

namespace Verif.Signal

/-- A ramp as a taper of `n` samples uses it (`f j n` for `j = 1, …, n`): positive, strictly rising, and one at the end,
where the untouched part of the signal begins. -/
def IsRamp (f : ℝ → ℝ → ℝ) : Prop := ∀ n : ℕ, 0 < n → f n n = 1 ∧
  ∀ a b : ℕ, 0 < a → a < b → b ≤ n → 0 < f a n ∧ f a n < f b n

theorem linear_eq (a n : ℝ) (h0 : 0 < n) (h : a ≤ n) : linearTaper a n = a / n := by
  unfold linearTaper
  rw [abs_of_nonpos (div_nonpos_of_nonpos_of_nonneg (by linarith) h0.le)]
  field_simp
  ring

/-- C57, linear ramp; sample `j` of `n` is multiplied by `j/n`. -/
theorem C57_linear : IsRamp linearTaper ∧ ∀ j n : ℕ, 0 < n → j ≤ n → linearTaper j n = (j : ℝ) / n := by
  have he : ∀ j n : ℕ, 0 < n → j ≤ n → linearTaper j n = (j : ℝ) / n := fun j n h0 h =>
    linear_eq j n (by exact_mod_cast h0) (by exact_mod_cast h)
  refine ⟨?_, he⟩
  intro n hn
  have hn' : (0 : ℝ) < n := by exact_mod_cast hn
  refine ⟨by rw [he n n hn le_rfl]; exact div_self hn'.ne', ?_⟩
  intro a b ha hab hb
  have ha' : (0 : ℝ) < a := by exact_mod_cast ha
  rw [he a n hn (by omega), he b n hn hb]
  exact ⟨div_pos ha' hn', div_lt_div_of_pos_right (by exact_mod_cast hab) hn'⟩

theorem cosine_lt (a b n : ℝ) (hn : 0 < n) (ha : 0 ≤ a) (hab : a < b) (hb : b ≤ n) : cosineTaper a n < cosineTaper b n := by
  unfold cosineTaper
  have hp := Real.pi_pos
  have e : ∀ x : ℝ, Real.cos (Real.pi * (x - n) / n) = Real.cos (Real.pi * ((n - x) / n)) := by
    intro x
    rw [← Real.cos_neg]
    congr 1
    ring
  have hlt : (n - b) / n < (n - a) / n := div_lt_div_of_pos_right (by linarith) hn
  have h0 : 0 ≤ (n - b) / n := div_nonneg (by linarith) hn.le
  have h1 : (n - a) / n ≤ 1 := (div_le_one hn).2 (by linarith)
  have := Real.cos_lt_cos_of_nonneg_of_le_pi (x := Real.pi * ((n - b) / n)) (y := Real.pi * ((n - a) / n)) (by positivity)
    (by nlinarith) (by nlinarith)
  rw [e a, e b]
  linarith

theorem cosine_zero (n : ℝ) (hn : n ≠ 0) : cosineTaper 0 n = 0 := by
  unfold cosineTaper
  have : Real.pi * (0 - n) / n = -Real.pi := by field_simp; ring
  rw [this, Real.cos_neg, Real.cos_pi]
  ring

theorem cosine_end (n : ℝ) : cosineTaper n n = 1 := by
  unfold cosineTaper
  simp
  norm_num

/-- C57, cosine ramp. -/
theorem C57_cosine : IsRamp cosineTaper := by
  intro n hn
  have hn' : (0 : ℝ) < n := by exact_mod_cast hn
  refine ⟨cosine_end n, ?_⟩
  intro a b ha hab hb
  have ha' : (0 : ℝ) < a := by exact_mod_cast ha
  have hb' : (b : ℝ) ≤ n := by exact_mod_cast hb
  have hab' : (a : ℝ) < b := by exact_mod_cast hab
  refine ⟨?_, cosine_lt a b n hn' ha'.le hab' hb'⟩
  have := cosine_lt 0 a n hn' le_rfl ha' (by linarith)
  rwa [cosine_zero n hn'.ne'] at this

/-- C57, squared cosine ramp. -/
theorem C57_cosine_square : IsRamp cosineSquareTaper := by
  intro n hn
  obtain ⟨h1, h2⟩ := C57_cosine n hn
  refine ⟨by unfold cosineSquareTaper; rw [h1]; norm_num, ?_⟩
  intro a b ha hab hb
  obtain ⟨h3, h4⟩ := h2 a b ha hab hb
  unfold cosineSquareTaper
  exact ⟨by positivity, by nlinarith⟩

example : (0 : ℕ) < 3 ∧ (1 : ℕ) < 2 ∧ (2 : ℕ) ≤ 3 := by decide

end Verif.Signal
