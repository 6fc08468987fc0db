import Verif.IBM.Lemmas
/-!
# C04, C05: IBM single precision to IEEE single precision

Specification in `Verif.IBM.Spec`: `ibmVal` and `ieeeVal` give the rational
denoted by a 32-bit pattern.
-/
namespace Verif.IBM
open Verif.Endian (Byte)

/-- The number in four bytes read in the stated byte order. -/
def ibmBytesVal (b0 b1 b2 b3 : Byte) (bigEndian : Bool) : ℚ :=
  ibmVal (if bigEndian then
      BitVec.ofNat 32 (b0.toNat * 2 ^ 24 + b1.toNat * 2 ^ 16 + b2.toNat * 2 ^ 8 + b3.toNat)
    else BitVec.ofNat 32 (b3.toNat * 2 ^ 24 + b2.toNat * 2 ^ 16 + b1.toNat * 2 ^ 8 + b0.toNat))

/-- **C04**: the byte order argument selects the order of the four bytes. -/
theorem C04_byte_order (b0 b1 b2 b3 : Byte) (be : Bool) :
    ibmVal (ibmBits b0 b1 b2 b3 be) = ibmBytesVal b0 b1 b2 b3 be := by
  have h0 := b0.isLt; have h1 := b1.isLt; have h2 := b2.isLt; have h3 := b3.isLt
  unfold ibmBytesVal
  congr 1
  apply BitVec.eq_of_toNat_eq
  rw [ibmBits_toNat]
  cases be
  · rw [if_neg (by simp), if_neg (by simp), BitVec.toNat_ofNat]; omega
  · rw [if_pos rfl, if_pos rfl, BitVec.toNat_ofNat]; omega

/-- **C04**: every normalised IBM number inside the IEEE normal range converts to
a float denoting exactly the same number. -/
theorem C04_exact (bits : BitVec 32) (hn : Normalised bits)
    (lo : (2:ℚ) ^ (-126 : Int) ≤ |ibmVal bits|) (hi : |ibmVal bits| < (2:ℚ) ^ (128 : Int)) :
    ∃ r, toFloat (fromIBMBits bits) = .ok r ∧ ieeeVal r = .fin (ibmVal bits) := by
  have h1 : 1 ≤ biased bits := ge_biased bits 1 (by simpa using lo)
  have h2 : biased bits ≤ 254 := le_biased bits hn 254 (by simpa using hi)
  have h0 : ibmFrac bits ≠ 0 := by unfold Normalised at hn; omega
  obtain ⟨s, f, hs, hf, hc⟩ := convert_eq bits h0
  rw [if_neg (by omega)] at hc
  refine ⟨_, hc, ?_⟩
  obtain ⟨E, hE⟩ : ∃ E : Nat, biased bits = E := ⟨(biased bits).toNat, by omega⟩
  have hsb := signBit_lt bits
  have hp := pack_toNat s E f (by omega) (by omega)
  have hlo := frac24_ge bits hn
  have hhi := frac24_lt bits
  rw [hE]
  unfold ieeeVal
  simp only [hp, hs, hf]
  have e1 : (signBit bits * 2 ^ 31 + E * 2 ^ 23 + frac24 bits % 2 ^ 23) / 2 ^ 23 % 256 = E := by
    omega
  have e2 : (signBit bits * 2 ^ 31 + E * 2 ^ 23 + frac24 bits % 2 ^ 23) / 2 ^ 31
      = signBit bits := by omega
  have e3 : (signBit bits * 2 ^ 31 + E * 2 ^ 23 + frac24 bits % 2 ^ 23) % 2 ^ 23
      = frac24 bits - 2 ^ 23 := by omega
  rw [e1, e2, e3, if_neg (by omega), if_neg (by omega)]
  rw [ibmVal_eq, hE, show 2 ^ 23 + (frac24 bits - 2 ^ 23) = frac24 bits by omega]

/-- The hypotheses of `C04_exact` hold of -118.625. -/
example : Normalised 0xC276A000#32 ∧ ibmVal 0xC276A000#32 = -118.625 ∧
    toFloat (fromIBMBits 0xC276A000#32) = .ok 0xC2ED4000#32 := by
  refine ⟨by decide, ?_, by decide⟩
  norm_num [ibmVal, sgn]

/-- **C04**, the same through the API: the bytes, in either byte order. -/
theorem C04_exact_bytes (b0 b1 b2 b3 : Byte) (be : Bool)
    (hn : Normalised (ibmBits b0 b1 b2 b3 be))
    (lo : (2:ℚ) ^ (-126 : Int) ≤ |ibmBytesVal b0 b1 b2 b3 be|)
    (hi : |ibmBytesVal b0 b1 b2 b3 be| < (2:ℚ) ^ (128 : Int)) :
    ∃ r, fromIBMToFloat b0 b1 b2 b3 be = .ok r ∧
      ieeeVal r = .fin (ibmBytesVal b0 b1 b2 b3 be) := by
  rw [← C04_byte_order] at lo hi ⊢
  exact C04_exact _ hn lo hi

example : fromIBMToFloat 0xC2#8 0x76#8 0xA0#8 0x00#8 true = .ok 0xC2ED4000#32 ∧
    fromIBMToFloat 0x00#8 0xA0#8 0x76#8 0xC2#8 false = .ok 0xC2ED4000#32 := by decide

/-- **C04** refuted for zero: every IBM pattern with zero fraction denotes 0, but
converts to 0.5. -/
theorem C04_zero_refuted (bits : BitVec 32) (h : ibmFrac bits = 0) :
    ibmVal bits = 0 ∧ ∃ r, toFloat (fromIBMBits bits) = .ok r ∧ ieeeVal r = .fin (1 / 2) := by
  constructor
  · have h1 : ibmVal bits = sgn (signBit bits) * (ibmFrac bits : ℚ) *
      (2:ℚ) ^ (4 * ((ibmExp bits : Int) - 64) - 24) := rfl
    rw [h1, h]; simp
  · rw [fromIBMBits_zero bits h]
    refine ⟨0x3F000000#32, by decide, ?_⟩
    norm_num [ieeeVal, sgn]

example : ibmFrac 0x00000000#32 = 0 ∧ ibmFrac 0x80000000#32 = 0 := by decide

/-- **C05**: magnitudes from `2^128` up become the infinity of the same sign. -/
theorem C05_overflow (bits : BitVec 32) (hn : Normalised bits)
    (hi : (2:ℚ) ^ (128 : Int) ≤ |ibmVal bits|) :
    ∃ r, toFloat (fromIBMBits bits) = .ok r ∧ ieeeVal r = .inf (ibmVal bits < 0) := by
  have h2 : 255 ≤ biased bits := ge_biased bits 255 (by simpa using hi)
  have h0 : ibmFrac bits ≠ 0 := by unfold Normalised at hn; omega
  obtain ⟨s, f, hs, hf, hc⟩ := convert_eq bits h0
  rw [if_neg (by omega)] at hc
  refine ⟨_, hc, ?_⟩
  have hsb := signBit_lt bits
  have hp := pack_inf_toNat s (biased bits) f (by omega) h2
  have hneg : (ibmVal bits < 0) ↔ signBit bits ≠ 0 := by
    rw [ibmVal_eq]
    have hpos : (0:ℚ) < (frac24 bits : ℚ) * (2:ℚ) ^ (biased bits - 150) := by
      have := frac24_ge bits hn
      have h3 : (0:ℚ) < (frac24 bits : ℚ) := by exact_mod_cast (by omega)
      exact mul_pos h3 (zpow2_pos _)
    rw [mul_assoc]
    unfold sgn
    split
    · rename_i h; simp only [h, one_mul, ne_eq, not_true, iff_false, not_lt]; exact hpos.le
    · rename_i h
      simp only [ne_eq, h, not_false_iff, iff_true]; linarith
  unfold ieeeVal
  simp only [hp, hs]
  have e1 : (signBit bits * 2 ^ 31 + 255 * 2 ^ 23) / 2 ^ 23 % 256 = 255 := by omega
  have e2 : (signBit bits * 2 ^ 31 + 255 * 2 ^ 23) / 2 ^ 31 = signBit bits := by omega
  have e3 : (signBit bits * 2 ^ 31 + 255 * 2 ^ 23) % 2 ^ 23 = 0 := by omega
  rw [e1, e2, e3, if_pos rfl, if_pos rfl]
  simp only [hneg]

example : Normalised 0xFF100000#32 ∧ toFloat (fromIBMBits 0xFF100000#32) = .ok 0xFF800000#32 := by
  decide

/-- **C05** (part): magnitudes from `2^-157` up to `2^-126` are rounded to the
nearest multiple of `2^-149`, ties to even, keeping the sign.  Missing from the
full statement: magnitudes below `2^-157`, where the conversion is undefined
(`C05_underflow_refuted`), and unnormalised patterns
(`C05_unnormalised_refuted`). -/
theorem C05_subnormal_partial (bits : BitVec 32) (hn : Normalised bits)
    (lo : (2:ℚ) ^ (-157 : Int) ≤ |ibmVal bits|) (hi : |ibmVal bits| < (2:ℚ) ^ (-126 : Int)) :
    ∃ r k, toFloat (fromIBMBits bits) = .ok r ∧
      ieeeVal r = .fin (sgn (signBit bits) * (k : Nat) * (2:ℚ) ^ (-149 : Int)) ∧
      |(|ibmVal bits| - (k : ℚ) * (2:ℚ) ^ (-149 : Int))| ≤ (2:ℚ) ^ (-150 : Int) ∧
      (|(|ibmVal bits| - (k : ℚ) * (2:ℚ) ^ (-149 : Int))| = (2:ℚ) ^ (-150 : Int) → k % 2 = 0) := by
  have h1 : -30 ≤ biased bits := ge_biased bits (-30) (by simpa using lo)
  have h2 : biased bits ≤ 0 := le_biased bits hn 0 (by simpa using hi)
  have h0 : ibmFrac bits ≠ 0 := by unfold Normalised at hn; omega
  obtain ⟨s, f, hs, hf, hc⟩ := convert_eq bits h0
  rw [if_pos h2] at hc
  obtain ⟨S, hS⟩ : ∃ S : Nat, biased bits = 1 - (S : Int) := ⟨(1 - biased bits).toNat, by omega⟩
  have hSS : (-(biased bits) + 1).toNat = S := by omega
  rw [hSS] at hc
  have hhi := frac24_lt bits
  obtain ⟨r, hr, hrn⟩ := rshift_eq f S (by omega) (by omega) (by omega)
  rw [hr] at hc
  simp only [Res.ok_bind] at hc
  have hsb := signBit_lt bits
  have hnear := roundShift_nearest (frac24 bits) S (by omega)
  rw [hf] at hrn
  -- no carry out of 23 bits
  have hcarry : roundShift (frac24 bits) S < 2 ^ 23 := by
    by_contra hcon
    have h4 : 2 ^ 23 * 2 ^ S ≤ roundShift (frac24 bits) S * 2 ^ S := Nat.mul_le_mul_right _ (by omega)
    have h5 : 2 ≤ S → False := by
      intro h
      have h6 : 2 ^ 2 ≤ 2 ^ S := Nat.pow_le_pow_right (by omega) h
      have h7 := hnear.2.1
      generalize roundShift (frac24 bits) S * 2 ^ S = X at h4 h7
      generalize 2 ^ S = P at h4 h6 h7
      omega
    have hS1 : S = 1 := by
      have : ¬ 2 ≤ S := h5
      omega
    subst hS1
    -- fraction would have to be all ones, impossible for this exponent
    have hb := hS
    unfold biased at hb
    unfold frac24 at hnear h4 hhi
    rcases shiftOf_cases _ (ibmFrac_lt bits) with ⟨h, e⟩ | ⟨_, h, e⟩ | ⟨_, h, e⟩ | ⟨h, e⟩ <;>
      rw [e] at hb hnear h4 hhi <;> omega
  have hp := pack_toNat s 0 r (by omega) (by omega)
  refine ⟨_, roundShift (frac24 bits) S, hc, ?_, ?_⟩
  · unfold ieeeVal
    simp only [Nat.cast_zero] at hp
    simp only [hp, hs, hrn]
    have e1 : (signBit bits * 2 ^ 31 + 0 * 2 ^ 23 + roundShift (frac24 bits) S % 2 ^ 23) / 2 ^ 23 % 256
        = 0 := by omega
    have e2 : (signBit bits * 2 ^ 31 + 0 * 2 ^ 23 + roundShift (frac24 bits) S % 2 ^ 23) / 2 ^ 31
        = signBit bits := by omega
    have e3 : (signBit bits * 2 ^ 31 + 0 * 2 ^ 23 + roundShift (frac24 bits) S % 2 ^ 23) % 2 ^ 23
        = roundShift (frac24 bits) S := by omega
    rw [e1, e2, e3, if_neg (by omega), if_pos rfl]
  · -- scale everything by 2^(-150-S)
    obtain ⟨n1, n2, n3⟩ := hnear
    have hv : |ibmVal bits| = (2 * (frac24 bits : ℚ)) * (2:ℚ) ^ (-150 - (S:Int)) := by
      rw [abs_ibmVal, hS, show (1 - (S:Int) - 150) = 1 + (-150 - (S:Int)) by ring,
        zpow_add₀ (by norm_num), zpow_one]; ring
    have hk : ∀ k : ℚ, k * (2:ℚ) ^ (-149 : Int) = (2 * (k * 2 ^ S)) * (2:ℚ) ^ (-150 - (S:Int)) := by
      intro k
      rw [show (-149 : Int) = 1 + ((S:Int) + (-150 - (S:Int))) by ring, zpow_add₀ (by norm_num),
        zpow_add₀ (by norm_num), zpow_natCast, zpow_one]; ring
    have hu : (2:ℚ) ^ (-150 : Int) = 2 ^ S * (2:ℚ) ^ (-150 - (S:Int)) := by
      rw [show (-150 : Int) = (S:Int) + (-150 - (S:Int)) by ring, zpow_add₀ (by norm_num),
        zpow_natCast]; simp
    rw [hv, hk, hu, ← sub_mul, abs_mul, abs_of_pos (zpow2_pos (-150 - (S:Int)))]
    have m1 : (2 * (frac24 bits : ℚ)) ≤ 2 * ((roundShift (frac24 bits) S : ℚ) * 2 ^ S) + 2 ^ S := by
      exact_mod_cast n1
    have m2 : 2 * ((roundShift (frac24 bits) S : ℚ) * 2 ^ S) ≤ (2 * (frac24 bits : ℚ)) + 2 ^ S := by
      exact_mod_cast n2
    constructor
    · apply mul_le_mul_of_nonneg_right _ (zpow2_pos _).le
      rw [abs_le]; constructor <;> linarith
    · intro h
      have h' := mul_right_cancel₀ (zpow2_pos (-150 - (S:Int))).ne' h
      apply n3
      rcases abs_eq (a := _) (b := (2:ℚ) ^ S) (by positivity) |>.mp h' with h' | h'
      · left
        have : (2 * (frac24 bits : ℚ)) = 2 * ((roundShift (frac24 bits) S : ℚ) * 2 ^ S) + 2 ^ S := by
          linarith
        exact_mod_cast this
      · right
        have : 2 * ((roundShift (frac24 bits) S : ℚ) * 2 ^ S) = (2 * (frac24 bits : ℚ)) + 2 ^ S := by
          linarith
        exact_mod_cast this

/-- Two ties in the subnormal range, rounded down and up to even. -/
example : Normalised 0x20100004#32 ∧ toFloat (fromIBMBits 0x20100004#32) = .ok 0x00020000#32 ∧
    toFloat (fromIBMBits 0x2010000C#32) = .ok 0x00020002#32 := by
  decide

/-- **C05** refuted: for every normalised pattern below `2^-157` the conversion
shifts a 32-bit value by at least 32 places, which is undefined. -/
theorem C05_underflow_refuted (bits : BitVec 32) (hn : Normalised bits)
    (hi : |ibmVal bits| < (2:ℚ) ^ (-157 : Int)) : toFloat (fromIBMBits bits) = .ub := by
  have h2 : biased bits ≤ -31 := le_biased bits hn (-31) (by simpa using hi)
  have h0 : ibmFrac bits ≠ 0 := by unfold Normalised at hn; omega
  obtain ⟨s, f, hs, hf, hc⟩ := convert_eq bits h0
  rw [hc, if_pos (by omega)]
  have : ¬ (1 ≤ (-(biased bits) + 1).toNat ∧ (-(biased bits) + 1).toNat < 32) := by omega
  unfold rshiftWithRounding
  rw [if_neg this]; rfl

example : Normalised 0x00100000#32 ∧ toFloat (fromIBMBits 0x00100000#32) = .ub := by decide

/-- **C05** refuted: an unnormalised non-zero number whose exponent field is
between 34 and 96 always converts to a float of a different value. -/
theorem C05_unnormalised_refuted (bits : BitVec 32) (h0 : ibmFrac bits ≠ 0) (hu : ¬ Normalised bits)
    (e1 : 34 ≤ ibmExp bits) (e2 : ibmExp bits ≤ 96) :
    ∃ r q, toFloat (fromIBMBits bits) = .ok r ∧ ieeeVal r = .fin q ∧ q ≠ ibmVal bits := by
  unfold Normalised at hu
  have hsh : shiftOf (ibmFrac bits) = 3 := by
    rcases shiftOf_cases _ (ibmFrac_lt bits) with ⟨h, e⟩ | ⟨_, h, e⟩ | ⟨_, h, e⟩ | ⟨h, e⟩ <;> omega
  have hB : biased bits = 4 * ibmExp bits - 133 := by unfold biased; rw [hsh]; omega
  have hF : frac24 bits = ibmFrac bits * 8 := by unfold frac24; rw [hsh]; omega
  obtain ⟨s, f, hs, hf, hc⟩ := convert_eq bits h0
  rw [if_neg (by omega)] at hc
  obtain ⟨E, hE⟩ : ∃ E : Nat, biased bits = E := ⟨(biased bits).toNat, by omega⟩
  have hsb := signBit_lt bits
  have hp := pack_toNat s E f (by omega) (by omega)
  refine ⟨_, sgn (signBit bits) * ((2 ^ 23 + frac24 bits : Nat) : ℚ) * (2:ℚ) ^ ((E : Int) - 150),
    hc, ?_, ?_⟩
  · rw [hE]
    unfold ieeeVal
    simp only [hp, hs, hf]
    have e1 : (signBit bits * 2 ^ 31 + E * 2 ^ 23 + frac24 bits % 2 ^ 23) / 2 ^ 23 % 256 = E := by
      omega
    have e2 : (signBit bits * 2 ^ 31 + E * 2 ^ 23 + frac24 bits % 2 ^ 23) / 2 ^ 31
        = signBit bits := by omega
    have e3 : (signBit bits * 2 ^ 31 + E * 2 ^ 23 + frac24 bits % 2 ^ 23) % 2 ^ 23
        = frac24 bits := by omega
    rw [e1, e2, e3, if_neg (by omega), if_neg (by omega)]
  · rw [ibmVal_eq, hE]
    intro h
    have h' := mul_right_cancel₀ (zpow2_pos ((E:Int) - 150)).ne' h
    have hsg : sgn (signBit bits) ≠ 0 := by
      intro h; have := abs_sgn (signBit bits); rw [h] at this; simp at this
    have h'' := mul_left_cancel₀ hsg h'
    have : 2 ^ 23 + frac24 bits = frac24 bits := by exact_mod_cast h''
    omega

/-- 1/32 written with a leading zero digit converts to 3/32. -/
example : ¬ Normalised 0x40080000#32 ∧ ibmExp 0x40080000#32 = 64 ∧
    toFloat (fromIBMBits 0x40080000#32) = .ok 0x3DC00000#32 := by decide

/-- **C05** refuted for `to_float` called on components directly: the carry out
of the subnormal range is lost and `(2^24-1) * 2^-150`, whose nearest float is
`2^-126`, becomes zero. -/
theorem C05_carry_refuted :
    toFloat ⟨0#32, -126, 0xFFFFFF00#32⟩ = .ok 0#32 ∧ ieeeVal 0#32 = .fin 0 := by
  refine ⟨by decide, ?_⟩
  norm_num [ieeeVal, sgn]

end Verif.IBM
