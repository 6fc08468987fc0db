import Verif.FP.Double
import Verif.Param.Model
/-!
# Coordinate scalars

`parse_scalar`, `find_scalar` of `src/segy_utils.cc` and the conversions of
`insertParam` / `extractParam` (lines 118-119, 165-180), over doubles as in
`Verif/FP/Double.lean`.
-/
namespace Verif.Scalar
open Verif.FP

/-- Fits `int32_t`. Used for `segy_utils.cc` 235-244. -/
def InI32 (n : ℤ) : Prop := -2 ^ 31 ≤ n ∧ n < 2 ^ 31
/-- Fits `int64_t` (`Integer`, `long`). Used for `segy_utils.cc` 227. -/
def InI64 (n : ℤ) : Prop := -2 ^ 63 ≤ n ∧ n < 2 ^ 63

instance (n : ℤ) : Decidable (InI32 n) := inferInstanceAs (Decidable (_ ∧ _))
instance (n : ℤ) : Decidable (InI64 n) := inferInstanceAs (Decidable (_ ∧ _))

/-- Narrowing to `int32_t` (two's complement). `segy_utils.cc` 255-273. -/
def wrap32 (n : ℤ) : ℤ := n.bmod (2 ^ 32)

/-- `parse_scalar`, `segy_utils.cc:205-219`. -/
def parseScalar (s : BitVec 16) : ℚ :=
  if s.toInt = 0 then 1
  else if 0 < s.toInt then s.toInt
  else rnd (1 / (-s.toInt : ℤ))

/-- Loop over positive scalars, `segy_utils.cc:235-244`. -/
def bigLoop (ip : ℤ) : List ℤ → BitVec 16
  | [] => 0#16
  | s :: l => if InI32 (ip.tdiv s) then BitVec.ofInt 16 s else bigLoop ip l

/-- Loop over negative scalars, `segy_utils.cc:255-273`.  `|val| ≤ 2^31` here, so
`lround` is in range. -/
def smallLoop (val : ℚ) (ip digits : ℤ) : List ℤ → BitVec 16
  | [] => 1#16
  | i :: l =>
    if digits.tmod (i * 10) ≠ 0 then
      let sf : ℤ := Int.tdiv (-10000) i
      let scal := parseScalar (BitVec.ofInt 16 sf)
      let t := (wrap32 (lround (rnd (val / scal)))).tdiv (-sf)
      if t = ip then BitVec.ofInt 16 sf else smallLoop val ip digits l
    else smallLoop val ip digits l

/-- `find_scalar`, `segy_utils.cc:221-275`.  Converting a double outside the range
of `int64_t` (line 227) is undefined. -/
def findScalar (val : ℚ) : Res (BitVec 16) :=
  let ip := trunc val
  if InI64 ip then
    if InI32 ip then
      .ok (smallLoop val ip (lround (rnd (val * 10000)) - ip * 10000) [1, 10, 100, 1000])
    else .ok (bigLoop ip [10, 100, 1000, 10000])
  else .ub

/-- `int32_t(std::lround(f / gscale))`, `segy_utils.cc:115-119`. -/
def encode (val : ℚ) (s : BitVec 16) : Res (BitVec 32) :=
  let n := lround (rnd (val / parseScalar s))
  if InI64 n then .ok (BitVec.ofInt 32 n) else .ub

/-- `parsed_scalar * static_cast<F_type>(unscaled_value)`, `segy_utils.cc:169-180`
(the conversion of a 32-bit integer to double is exact). -/
def decode (s : BitVec 16) (n : BitVec 32) : ℚ := rnd (parseScalar s * n.toInt)

/-- Header conversion over doubles. `segy_utils.cc` 67-78, 114-119, 169-180. -/
def dbl : Params.FloatOps ℚ := ⟨findScalar, encode, decode⟩

/-- What a SEG-Y coordinate scalar means: multiply if positive, divide if
negative, zero is one. Not code of /repo: used in statements. -/
def unit (s : BitVec 16) : ℚ :=
  if s.toInt = 0 then 1 else if 0 < s.toInt then s.toInt else 1 / (-s.toInt : ℤ)

end Verif.Scalar
