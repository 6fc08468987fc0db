import Verif.Endian.Model
/-!
# IBM single precision to IEEE single precision

`src/utils/encoding/number_encoding.cc`.  `uint32_t` is `BitVec 32`, `int32_t`
values are `Int` with overflow checked where it can occur.  A `float` is its bit
pattern.
-/
namespace Verif.IBM
open Verif.Endian (Byte)

/-- `Float_components`, `number_encoding.hh:224-233`. -/
structure Comp where
  sign : BitVec 32
  exponent : Int
  significand : BitVec 32
  deriving Repr, DecidableEq

/-- Assembly of the 32 bits, `number_encoding.cc:21-29` (the `int` expression
is converted to `uint32_t`). -/
def ibmBits (b0 b1 b2 b3 : Byte) (bigEndian : Bool) : BitVec 32 :=
  if bigEndian then
    ((b0.setWidth 32) <<< 24) ||| ((b1.setWidth 32) <<< 16) ||| ((b2.setWidth 32) <<< 8)
      ||| ((b3.setWidth 32) <<< 0)
  else
    ((b3.setWidth 32) <<< 24) ||| ((b2.setWidth 32) <<< 16) ||| ((b1.setWidth 32) <<< 8)
      ||| ((b0.setWidth 32) <<< 0)

/-- The table of `number_encoding.cc:85`. -/
def offsets : List Nat := [3, 2, 1, 1, 0, 0, 0, 0]

/-- `from_IBM` after bit assembly, `number_encoding.cc:46-96`.  The table index
`frac >> 21` is below 8 because `frac < 2^24` (so `getD` never defaults; proved
in `Lemmas`). -/
def fromIBMBits (bits : BitVec 32) : Comp :=
  let frac := bits &&& 0x00FFFFFF#32
  if frac = 0#32 then ⟨0#32, 0, 0#32⟩
  else
    let sign := (bits >>> 31) &&& 0x01#32
    let ibmExponentBits := (bits >>> 24) &&& 0x7F#32
    let exp : Int := ((ibmExponentBits.toNat : Int) - 64) * 4
    let leadingFracBits := frac >>> 21
    let shift : Nat := offsets.getD leadingFracBits.toNat 0
    let shiftedFrac := frac <<< (8 + shift)
    let shiftedExp := exp - shift
    ⟨sign, shiftedExp, shiftedFrac⟩

/-- `rshift_with_rounding`, `number_encoding.cc:107-159`.  `value >> shift` on
a 32-bit operand is undefined for `shift ≥ 32` (line 120); `shift - 1` of line
142 needs `shift ≥ 1`, otherwise the shift count wraps to `2^32-1` (undefined). -/
def rshiftWithRounding (value : BitVec 32) (shift : Nat) : Res (BitVec 32) :=
  if 1 ≤ shift ∧ shift < 32 then
    let mask : BitVec 32 := (((1#64) <<< shift) - 1#64).setWidth 32
    let trunc := value &&& mask
    let truncatedValue := value >>> shift
    let half : BitVec 32 := ((1#64) <<< (shift - 1)).setWidth 32
    if half < trunc then .ok (truncatedValue + 1#32)
    else if trunc = half then
      if (truncatedValue &&& 0x01#32) = 0x01#32 then .ok (truncatedValue + 1#32)
      else .ok truncatedValue
    else .ok truncatedValue
  else .ub

/-- Lines 226-257 of `to_float`: overflow, masking and packing. (Lines of `number_encoding.cc`.) -/
def pack (sign : BitVec 32) (exp : Int) (frac : BitVec 32) : BitVec 32 :=
  let (exp, frac) := if exp ≥ 0xFF then ((0xFF : Int), 0#32) else (exp, frac)
  let frac := frac &&& 0x7FFFFF#32
  let exp32 : BitVec 32 := (BitVec.ofInt 32 exp) &&& 0xFF#32
  (sign <<< 31) ||| (exp32 <<< 23) ||| frac

/-- `to_float`, `number_encoding.cc:162-260`, as the bit pattern of the result.
Signed overflow of `exp + 127` (line 191) is undefined. -/
def toFloat (c : Comp) : Res (BitVec 32) :=
  if c.exponent + 127 < 2 ^ 31 then
    let frac := c.significand >>> 8
    let exp : Int := c.exponent + 127 - 1
    if exp ≤ 0 then do
      let frac ← rshiftWithRounding frac ((-exp + 1).toNat)
      .ok (pack c.sign 0 frac)
    else .ok (pack c.sign exp frac)
  else .ub

/-- `from_IBM_to_float`, `number_encoding.cc:265-274`. -/
def fromIBMToFloat (b0 b1 b2 b3 : Byte) (bigEndian : Bool) : Res (BitVec 32) :=
  toFloat (fromIBMBits (ibmBits b0 b1 b2 b3 bigEndian))

end Verif.IBM
