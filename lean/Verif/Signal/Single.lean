import Verif.FP.Single
import Verif.Signal.AGC

/-!
# Tapers in single precision: `Taper_function.cc` and `taper.cc` with the rounding of every operation

The functions of the C library, `cosf` and `pow`, are parameters.
-/

namespace Verif.Signal
open Verif.FP32

/-- A finite `Trace_value` (`typedefs.h` 74), as the number it denotes. -/
structure Single where
  val : ℚ
  deriving DecidableEq, Repr

/-- `signal[j] *= ...`, `taper.cc` 57 and 64: the product of two floats. -/
instance : Mul Single := ⟨fun a b => ⟨rnd (a.val * b.val)⟩⟩

/-- The comparison with 0 of `taper.cc` 27 and 30. -/
def Single.isZero (x : Single) : Bool := x.val == 0

/-- `linear_taper`, `Taper_function.cc` 15-18. -/
def linearF (weight ramp : ℚ) : ℚ := rnd (1 - |rnd (rnd (weight - ramp) / ramp)|)

/-- The constant of `Taper_function.cc` 29, rounded to `float`. -/
def piF : ℚ := 13176795 / 2 ^ 22

/-- `cosine_taper`, `Taper_function.cc` 27-31; the product is taken first, then the quotient. -/
def cosineF (cosf : ℚ → ℚ) (weight ramp : ℚ) : ℚ :=
  rnd (1 / 2 + rnd (1 / 2 * cosf (rnd (rnd (piF * rnd (weight - ramp)) / ramp))))

/-- `cosine_square_taper`, `Taper_function.cc` 40-43: `std::pow(float, int)` is taken in `double`, here `pow2`, and the
result converted. -/
def cosineSquareF (cosf pow2 : ℚ → ℚ) (weight ramp : ℚ) : ℚ := rnd (pow2 (cosineF cosf weight ramp))

/-- A ramp as it is called in `taper.cc` 57 and 64-65: the whole numbers are converted to `float`. -/
def called (f : ℚ → ℚ → ℚ) (j n : Nat) : Single := ⟨f (rnd j) (rnd n)⟩

end Verif.Signal
