import Verif.FP.Extended
import Verif.Signal.AGC
import Mathlib.Data.List.Sort

/-!
# Gain control in single precision: `Gain_function.cc` with the rounding of every operation
-/

namespace Verif.Signal
open Verif.FP32

/-- `rectangular_RMS_gain`, `Gain_function.cc` 20-36, on floats. `sqrtf` is `std::sqrt` for numbers that are not negative;
the quotient of line 35 is one of floats, with the count converted. -/
def rectangularF (sqrtf : ℚ → ℚ) (win : List F32) (target : F32) (_center : Nat) : Res F32 :=
  let amp := win.foldl (fun amp x => amp + x * x) 0
  if amp = 0 then .abort
  else
    let num := win.countP fun x => decide (x ≠ 0)
    .ok (target / F32.sqrt sqrtf (amp / F32.of ((max 1 num : Nat) : ℚ)))

/-- `triangular_RMS_gain`, `Gain_function.cc` 48-127, on floats. The widths and distances are converted to `float` for line
115; a half-width of zero gives not-a-number there, for which the assertion of line 121 holds. -/
def triangularF (sqrtf : ℚ → ℚ) (win : List F32) (target : F32) (center : Nat) : Res F32 :=
  if ¬ win.length > 0 then .abort
  else if ¬ win.length > center then .abort
  else do
    let left := center
    let right := win.length - 1 - center
    let half := F32.of ((max left right : Nat) : ℚ)
    let amp ← forRange (fun j amp => do
      let x ← readAt win j
      let dist := if j > center then j - center else center - j
      let scaling := 1 - F32.of (dist : ℚ) / half
      let scaled := x * scaling
      .ok (amp + scaled * scaled)) 0 win.length (0 : F32)
    if amp = 0 then .abort
    else
      let num := win.countP fun x => decide (x ≠ 0)
      .ok (target / F32.sqrt sqrtf (amp / F32.of ((max 1 num : Nat) : ℚ)))

/-- `std::abs` of a float, `Gain_function.cc` 155. -/
def absF : F32 → F32
  | .num q => .num |q|
  | .inf _ => .inf false
  | .nan => .nan

/-- `mean_abs_gain`, `Gain_function.cc` 140-156, on floats. `std::accumulate` adds from the left. -/
def meanAbsF (win : List F32) (target : F32) (_center : Nat) : Res F32 :=
  if ¬ win.length > 0 then .abort
  else
    let amp := win.foldl (· + ·) 0
    if amp = 0 then .abort
    else
      let num := win.countP fun x => decide (x ≠ 0)
      .ok (target / (absF amp / F32.of ((max 1 num : Nat) : ℚ)))

/-- `a < b` of floats that are numbers or infinities, the comparison of `std::sort` in `Gain_function.cc` 176. -/
def ltF : F32 → F32 → Bool
  | .num a, .num b => decide (a < b)
  | .num _, .inf s => !s
  | .inf s, .num _ => s
  | .inf s, .inf t => s && !t
  | _, _ => false

/-- `median_gain`, `Gain_function.cc` 168-191, on floats. `std::sort` needs an order: with not-a-number among two or more samples
it has undefined behaviour. Line 181 divides by the integer two, converted. -/
def medianF (win : List F32) (target : F32) (_center : Nat) : Res F32 :=
  if win.length > 1 ∧ F32.nan ∈ win then .ub
  else
    let tmp := win.insertionSort fun a b => ltF b a = false
    let w := win.length
    if w % 2 = 0 then do
      let a ← readAt tmp (w / 2)
      let b ← readAt tmp (w / 2 + 1)
      let amp := (a + b) / F32.num 2
      if amp = 0 then .abort else .ok (target / amp)
    else do
      let amp ← readAt tmp (w / 2)
      if amp = 0 then .abort else .ok (target / amp)

end Verif.Signal
