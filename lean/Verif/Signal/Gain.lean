import Verif.Signal.Loop
import Mathlib.Algebra.Order.Field.Basic
import Mathlib.Data.List.Sort

/-!
# Built-in gain functions (`src/utils/signal_processing/Gain_function.cc`)

Samples are elements of a linearly ordered field: the arithmetic is exact, `float` rounding is not modelled. The window
size is the length of the window, so every sample read is a sample of the window.
-/

namespace Verif.Signal

variable {K : Type} [Field K] [LinearOrder K]

/-- `std::count_if(signal, &signal[window_size], non_zero)`, `Gain_function.cc` 33, 124, 153. -/
def nonZeros (win : List K) : Nat := win.countP fun x => decide (x ≠ 0)

/-- `std::max<size_t>(1, num)`, `Gain_function.cc` 35, 126, 155. -/
def atLeastOne (n : Nat) : K := ((max 1 n : Nat) : K)

/-- `rectangular_RMS_gain`, `Gain_function.cc` 20-36. `sqrt` is `std::sqrt`. -/
def rectangularRMS (sqrt : K → K) (win : List K) (target : K) (_center : Nat) : Res K :=
  let amp := win.foldl (fun amp x => amp + x * x) 0
  if amp = 0 then .abort
  else .ok (target / sqrt (amp / atLeastOne (nonZeros win)))

/-- `triangular_RMS_gain`, `Gain_function.cc` 48-127. `none` is not-a-number: with a half-width of zero line 115 divides
zero by zero, and the assertion of line 121 holds for it. -/
def triangularRMS (sqrt : K → K) (win : List K) (target : K) (center : Nat) : Res (Option K) :=
  if ¬ win.length > 0 then .abort
  else if ¬ win.length > center then .abort
  else
    let left := center
    let right := win.length - 1 - center
    let half := max left right
    if half = 0 then .ok none
    else do
      let amp ← forRange (fun j amp => do
        let x ← readAt win j
        let dist := if j > center then j - center else center - j
        let scaling : K := 1 - (dist : K) / (half : K)
        let y := x * scaling
        .ok (amp + y * y)) 0 win.length (0 : K)
      if amp = 0 then .abort
      else .ok (some (target / sqrt (amp / atLeastOne (nonZeros win))))

/-- `mean_abs_gain`, `Gain_function.cc` 140-156. -/
def meanAbs (win : List K) (target : K) (_center : Nat) : Res K :=
  if ¬ win.length > 0 then .abort
  else
    let amp := win.foldl (· + ·) 0
    if amp = 0 then .abort
    else .ok (target / ((if amp < 0 then -amp else amp) / atLeastOne (nonZeros win)))

/-- `median_gain`, `Gain_function.cc` 168-191. `std::sort` gives the sorted list. -/
def medianGain (win : List K) (target : K) (_center : Nat) : Res K :=
  let tmp := win.insertionSort (· ≤ ·)
  let w := win.length
  if w % 2 = 0 then do
    let a ← readAt tmp (w / 2)
    let b ← readAt tmp (w / 2 + 1)
    let amp := (a + b) / 2
    if amp = 0 then .abort else .ok (target / amp)
  else do
    let amp ← readAt tmp (w / 2)
    if amp = 0 then .abort else .ok (target / amp)

end Verif.Signal
