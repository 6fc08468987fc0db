import Verif.FP.Single
/-!
# Single precision arithmetic with infinities and not-a-number

`typedefs.h` 74 (`typedef float exseis_Trace_value`).  A value is a finite float, given as the number it denotes, an infinity or
not-a-number.  A result that rounds to a magnitude of `2 ^ 128` or more is an infinity.  Signed zeros are identified, and a
quotient by zero takes the sign of a quotient by the positive zero: the model is used where a divisor is not a negative zero.
Products and sums are rounded one by one, as without contraction to fused operations.
-/
namespace Verif.FP32

/-- A `float` (`typedefs.h` 74). `inf true` is the negative infinity. -/
inductive F32 where
  | num (q : ℚ)
  | inf (neg : Bool)
  | nan
  deriving DecidableEq

namespace F32

/-- A float from the exact result of an operation. Not code of /repo: IEEE-754. -/
def of (x : ℚ) : F32 := if |rnd x| < 2 ^ 128 then num (rnd x) else inf (decide (x < 0))

/-- Sum of two floats. Not code of /repo: IEEE-754. -/
def add : F32 → F32 → F32
  | num a, num b => of (a + b)
  | num _, inf s => inf s
  | inf s, num _ => inf s
  | inf s, inf t => if s = t then inf s else nan
  | nan, _ => nan
  | _, nan => nan

/-- The other sign. Not code of /repo: IEEE-754. -/
def neg : F32 → F32
  | num a => num (-a)
  | inf s => inf (!s)
  | nan => nan

/-- Difference of two floats. Not code of /repo: IEEE-754. -/
def sub (a b : F32) : F32 := add a (neg b)

/-- Product of two floats. Not code of /repo: IEEE-754. -/
def mul : F32 → F32 → F32
  | num a, num b => of (a * b)
  | num a, inf s => if a = 0 then nan else inf (s != decide (a < 0))
  | inf s, num a => if a = 0 then nan else inf (s != decide (a < 0))
  | inf s, inf t => inf (s != t)
  | nan, _ => nan
  | _, nan => nan

/-- Quotient of two floats. Not code of /repo: IEEE-754. -/
def div : F32 → F32 → F32
  | num a, num b => if b = 0 then (if a = 0 then nan else inf (decide (a < 0))) else of (a / b)
  | num _, inf _ => num 0
  | inf s, num b => inf (s != decide (b < 0))
  | inf _, inf _ => nan
  | nan, _ => nan
  | _, nan => nan

/-- `std::sqrt` of a float; `sqrtf` is its value for numbers that are not negative. Not code of /repo: IEEE-754 and the C++
library. -/
def sqrt (sqrtf : ℚ → ℚ) : F32 → F32
  | num a => if a < 0 then nan else num (sqrtf a)
  | inf s => if s then nan else inf false
  | nan => nan

instance : Add F32 := ⟨add⟩
instance : Sub F32 := ⟨sub⟩
instance : Mul F32 := ⟨mul⟩
instance : Div F32 := ⟨div⟩
instance : Zero F32 := ⟨num 0⟩
instance : One F32 := ⟨num 1⟩

theorem zero_def : (0 : F32) = num 0 := rfl
theorem num_add (a b : ℚ) : num a + num b = of (a + b) := by
  show add (num a) (num b) = _
  rw [add]
theorem one_def : (1 : F32) = num 1 := rfl
theorem num_sub (a b : ℚ) : num a - num b = of (a - b) := by
  show add (num a) (num (-b)) = _
  rw [add, ← sub_eq_add_neg]
theorem num_mul (a b : ℚ) : num a * num b = of (a * b) := by
  show mul (num a) (num b) = _
  rw [mul]
theorem num_div (a b : ℚ) (h : b ≠ 0) : num a / num b = of (a / b) := by
  show div (num a) (num b) = _
  rw [div, if_neg h]

theorem of_fin {x : ℚ} (h : |rnd x| < 2 ^ 128) : of x = num (rnd x) := by unfold of; rw [if_pos h]

end F32

end Verif.FP32
