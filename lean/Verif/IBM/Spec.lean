import Mathlib.Data.Rat.Defs
import Mathlib.Algebra.Field.Rat
import Mathlib.Algebra.Order.Field.Rat
import Mathlib.Algebra.Order.Field.Basic
/-!
# What IBM and IEEE single precision patterns denote

Written from the number formats, independently of the conversion code.
-/
namespace Verif.IBM

/-- A floating point datum. Not code of /repo: used in statements. -/
inductive FVal where
  | fin (q : ℚ)
  | inf (negative : Bool)
  | nan
  deriving DecidableEq

/-- `(-1)^s`. Not code of /repo: used in statements. -/
def sgn (s : Nat) : ℚ := if s = 0 then 1 else -1

/-- IBM single: sign bit, 7-bit excess-64 base-16 exponent, 24-bit fraction
below the radix point. Not code of /repo: used in statements. -/
def ibmVal (bits : BitVec 32) : ℚ :=
  let n : Nat := bits.toNat
  sgn (n / 2 ^ 31) * ((n % 2 ^ 24 : Nat) : ℚ) * (2:ℚ) ^ ((4 * ((n / 2 ^ 24 % 128 : Nat) - 64 : Int)) - 24)

/-- The fraction field of an IBM single. Not code of /repo: used in statements. -/
def ibmFrac (bits : BitVec 32) : Nat := bits.toNat % 2 ^ 24
/-- The exponent field of an IBM single. Not code of /repo: used in statements. -/
def ibmExp (bits : BitVec 32) : Nat := bits.toNat / 2 ^ 24 % 128
/-- The sign bit. Not code of /repo: used in statements. -/
def signBit (bits : BitVec 32) : Nat := bits.toNat / 2 ^ 31
/-- Normalised: the leading hexadecimal digit of the fraction is not zero. Not code of /repo: used in statements. -/
def Normalised (bits : BitVec 32) : Prop := 2 ^ 20 ≤ ibmFrac bits

instance (bits : BitVec 32) : Decidable (Normalised bits) := by
  unfold Normalised; infer_instance

/-- IEEE 754 binary32. Not code of /repo: used in statements. -/
def ieeeVal (bits : BitVec 32) : FVal :=
  let n : Nat := bits.toNat
  let s : Nat := n / 2 ^ 31
  let e : Nat := n / 2 ^ 23 % 256
  let f : Nat := n % 2 ^ 23
  if e = 255 then (if f = 0 then .inf (s ≠ 0) else .nan)
  else if e = 0 then .fin (sgn s * (f : ℚ) * (2:ℚ) ^ (-149 : Int))
  else .fin (sgn s * ((2 ^ 23 + f : Nat) : ℚ) * (2:ℚ) ^ ((e : Int) - 150))

end Verif.IBM
