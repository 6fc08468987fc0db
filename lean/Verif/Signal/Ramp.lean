import Mathlib.Analysis.SpecialFunctions.Trigonometric.Basic

/-!
# Built-in ramps (`src/utils/signal_processing/Taper_function.cc`)

Exact real arithmetic; `float` rounding, and the rounding of the constant for π, are not modelled.
-/

namespace Verif.Signal

/-- `linear_taper`, `Taper_function.cc` 15-18. -/
noncomputable def linearTaper (weight ramp : ℝ) : ℝ := 1 - |(weight - ramp) / ramp|

/-- `cosine_taper`, `Taper_function.cc` 27-31. -/
noncomputable def cosineTaper (weight ramp : ℝ) : ℝ := 1 / 2 + 1 / 2 * Real.cos (Real.pi * (weight - ramp) / ramp)

/-- `cosine_square_taper`, `Taper_function.cc` 40-43. -/
noncomputable def cosineSquareTaper (weight ramp : ℝ) : ℝ := cosineTaper weight ramp ^ 2

end Verif.Signal
