import Verif.Endian.Lemmas
/-!
# C03: big-endian encoding round-trips

Specification: `beVal` reads a byte list as base-256 digits, most significant
digit first.
-/
namespace Verif.Endian

/-- Value of a big-endian digit string. -/
def beVal (bs : Bytes) : Nat := bs.foldl (fun acc b => acc * 256 + b.toNat) 0

/-- **C03**: encoding of an `n`-byte signed integer produces its base-256 digits,
most significant first. -/
theorem C03_encode_digits (n : Nat) (x : BitVec (8 * n)) :
    (toBESigned n x).length = n ∧
    ∀ i, i < n → ∃ h : i < (toBESigned n x).length,
      ((toBESigned n x)[i]).toNat = x.toNat / 256 ^ (n - i - 1) % 256 :=
  ⟨by simp [toBESigned], fun i hi => toBE_toNat n x i hi⟩

/-- **C03**: signed and unsigned (and float bit pattern) encodings agree. -/
theorem C03_encode_unsigned (n : Nat) (x : BitVec (8 * n)) :
    toBEUnsigned n x = toBESigned n x := by
  rw [toBESigned_eq, toBEUnsigned_eq]

/-- **C03**: decoding reads base-256 digits, most significant first. -/
theorem C03_decode16_value (b0 b1 : Byte) : (fromBE16 b0 b1).toNat = beVal [b0, b1] := by
  rw [fromBE16_toNat]; simp [beVal]

/-- **C03**: decoding reads base-256 digits, most significant first. -/
theorem C03_decode32_value (b0 b1 b2 b3 : Byte) :
    (fromBE32 b0 b1 b2 b3).toNat = beVal [b0, b1, b2, b3] := by
  rw [fromBE32_toNat]; simp only [beVal, List.foldl]; omega

/-- **C03**: decode after encode, 16 bits, every value. -/
theorem C03_roundtrip16 (x : BitVec 16) :
    ∃ b0 b1, toBESigned 2 x = [b0, b1] ∧ fromBE16 b0 b1 = x := by
  refine ⟨_, _, toBESigned_eq 2 x, ?_⟩
  apply BitVec.eq_of_toNat_eq
  rw [fromBE16_toNat]
  have := x.isLt
  simp only [BitVec.extractLsb'_toNat, Nat.shiftRight_eq_div_pow]
  omega

/-- **C03**: decode after encode, 32 bits (integers and floats), every value. -/
theorem C03_roundtrip32 (x : BitVec 32) :
    ∃ b0 b1 b2 b3, toBESigned 4 x = [b0, b1, b2, b3] ∧ fromBE32 b0 b1 b2 b3 = x := by
  refine ⟨_, _, _, _, toBESigned_eq 4 x, ?_⟩
  apply BitVec.eq_of_toNat_eq
  rw [fromBE32_toNat]
  have := x.isLt
  simp only [BitVec.extractLsb'_toNat, Nat.shiftRight_eq_div_pow]
  omega

/-- **C03**: encode after decode, 16 bits, every byte string. -/
theorem C03_roundtrip16_bytes (b0 b1 : Byte) : toBESigned 2 (fromBE16 b0 b1) = [b0, b1] := by
  rw [toBESigned_eq]
  have h0 := b0.isLt; have h1 := b1.isLt
  have e : List.range 2 = [0, 1] := rfl
  simp only [e, List.map_cons, List.map_nil, List.cons.injEq, and_true]
  refine ⟨?_, ?_⟩ <;> apply BitVec.eq_of_toNat_eq <;>
    rw [BitVec.extractLsb'_toNat, fromBE16_toNat, Nat.shiftRight_eq_div_pow] <;> omega

/-- **C03**: encode after decode, 32 bits, every byte string. -/
theorem C03_roundtrip32_bytes (b0 b1 b2 b3 : Byte) :
    toBESigned 4 (fromBE32 b0 b1 b2 b3) = [b0, b1, b2, b3] := by
  rw [toBESigned_eq]
  have h0 := b0.isLt; have h1 := b1.isLt; have h2 := b2.isLt; have h3 := b3.isLt
  have e : List.range 4 = [0, 1, 2, 3] := rfl
  simp only [e, List.map_cons, List.map_nil, List.cons.injEq, and_true]
  refine ⟨?_, ?_, ?_, ?_⟩ <;> apply BitVec.eq_of_toNat_eq <;>
    rw [BitVec.extractLsb'_toNat, fromBE32_toNat, Nat.shiftRight_eq_div_pow] <;> omega

example : toBESigned 4 (0x80FF0102#32) = [0x80#8, 0xFF#8, 0x01#8, 0x02#8] ∧
    fromBE32 0x80#8 0xFF#8 0x01#8 0x02#8 = 0x80FF0102#32 ∧
    toBESigned 2 (0xFFFE#16) = [0xFF#8, 0xFE#8] := by decide

end Verif.Endian
