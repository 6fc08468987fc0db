import Verif.Basic
/-!
# Byte order conversion

`include/ExSeisDat/utils/encoding/number_encoding.hh`.  Integers are `BitVec`s
(two's complement), a `float` is its 32-bit pattern (`std::memcpy`, lines
98-101 and 210-213), bytes are `BitVec 8`.
-/
namespace Verif.Endian

/-- `unsigned char`, `number_encoding.hh` 41-214. -/
abbrev Byte := BitVec 8

/-- Bytes as stored by `unsigned char`. `number_encoding.hh` 156-214. -/
abbrev Bytes := List Byte

/-- `from_big_endian<int16_t>(std::array<unsigned char,2>)`,
`number_encoding.hh:41-51`.  `T(src[0]) << 8` is evaluated in `int` (32 bits)
and the result is converted to 16 bits. -/
def fromBE16 (b0 b1 : Byte) : BitVec 16 :=
  (((b0.setWidth 32) <<< 8) ||| ((b1.setWidth 32) <<< 0)).setWidth 16

/-- `from_big_endian<T>(std::array<unsigned char,4>)` for 4-byte integers,
`number_encoding.hh:65-76`; for `float` the same bits are copied (88-104). -/
def fromBE32 (b0 b1 b2 b3 : Byte) : BitVec 32 :=
  ((b0.setWidth 32) <<< 24) ||| ((b1.setWidth 32) <<< 16) ||| ((b2.setWidth 32) <<< 8)
    ||| ((b3.setWidth 32) <<< 0)

/-- `to_big_endian<T>` for a signed type of `n` bytes, `number_encoding.hh:156-189`:
`dst[i] = (src >> 8*(n-i-1)) & 0xFF` (arithmetic shift; integral promotion does
not change the low bits of a shifted two's complement number, so the shift is
done at the type's own width). -/
def toBESigned (n : Nat) (src : BitVec (8 * n)) : Bytes :=
  (List.range n).map fun i => ((src.sshiftRight (8 * (n - i - 1))) &&& 0xFF#_).setWidth 8

/-- `to_big_endian<T>` for an unsigned type of `n` bytes (logical shift);
`to_big_endian<float>` copies the bits to `uint32_t` first (203-214). `number_encoding.hh` 156-189. -/
def toBEUnsigned (n : Nat) (src : BitVec (8 * n)) : Bytes :=
  (List.range n).map fun i => ((src >>> (8 * (n - i - 1))) &&& 0xFF#_).setWidth 8

end Verif.Endian
