import Verif.Props.File
import Mathlib.Tactic.Ring
import Mathlib.Tactic.FieldSimp
import Mathlib.Tactic.NormNum

/-!
# C24: the first step of reading an IBM sample
-/

namespace Verif.Files

/-- The value of a single precision number (IEEE-754); none for infinities and NaN. -/
def floatVal (w : BitVec 32) : Option ℚ :=
  let s : Nat := w.toNat / 2 ^ 31
  let e : Nat := w.toNat / 2 ^ 23 % 2 ^ 8
  let f : Nat := w.toNat % 2 ^ 23
  if e = 255 then none
  else if e = 0 then some ((-1) ^ s * (f * (2 : ℚ) ^ (-149 : ℤ)))
  else some ((-1) ^ s * ((2 ^ 23 + f) * (2 : ℚ) ^ ((e : ℤ) - 150)))

/-- The value of a double precision number. -/
def doubleVal (w : BitVec 64) : Option ℚ :=
  let s : Nat := w.toNat / 2 ^ 63
  let e : Nat := w.toNat / 2 ^ 52 % 2 ^ 11
  let f : Nat := w.toNat % 2 ^ 52
  if e = 2047 then none
  else if e = 0 then some ((-1) ^ s * (f * (2 : ℚ) ^ (-1074 : ℤ)))
  else some ((-1) ^ s * ((2 ^ 52 + f) * (2 : ℚ) ^ ((e : ℤ) - 1075)))

theorem doubleVal_parts (s e f : Nat) (hs : s < 2) (he : e < 2 ^ 11) (hf : f < 2 ^ 52) :
    doubleVal (BitVec.ofNat 64 (s * 2 ^ 63 + e * 2 ^ 52 + f)) =
      if e = 2047 then none
      else if e = 0 then some ((-1) ^ s * (f * (2 : ℚ) ^ (-1074 : ℤ)))
      else some ((-1) ^ s * ((2 ^ 52 + f) * (2 : ℚ) ^ ((e : ℤ) - 1075))) := by
  have h : (BitVec.ofNat 64 (s * 2 ^ 63 + e * 2 ^ 52 + f)).toNat = s * 2 ^ 63 + e * 2 ^ 52 + f := by
    rw [BitVec.toNat_ofNat]; exact Nat.mod_eq_of_lt (by omega)
  unfold doubleVal
  simp only [h]
  rw [show (s * 2 ^ 63 + e * 2 ^ 52 + f) / 2 ^ 63 = s by omega, show (s * 2 ^ 63 + e * 2 ^ 52 + f) / 2 ^ 52 % 2 ^ 11 = e by omega,
    show (s * 2 ^ 63 + e * 2 ^ 52 + f) % 2 ^ 52 = f by omega]

/-- **C24** (part): a sample is first widened to double precision, which keeps its value, for all `2^32` patterns.
Missing from the full statement: what follows takes the wrong bytes, `C24_ibm_refuted`. -/
theorem C24_widen_partial (w : BitVec 32) : doubleVal (f2d w) = floatVal w := by
  have hlt := w.isLt
  unfold f2d floatVal
  simp only
  generalize hs : w.toNat / 2 ^ 31 = s
  generalize he : w.toNat / 2 ^ 23 % 2 ^ 8 = e
  generalize hf : w.toNat % 2 ^ 23 = f
  have hs2 : s < 2 := by omega
  have he2 : e < 256 := by omega
  have hf2 : f < 2 ^ 23 := by omega
  clear hs he hf hlt
  by_cases h1 : e = 255
  · rw [if_pos h1, if_pos h1, doubleVal_parts _ _ _ hs2 (by omega) (by omega), if_pos rfl]
  · rw [if_neg h1, if_neg h1]
    by_cases h0 : e = 0
    · rw [if_pos h0, if_pos h0]
      by_cases hf0 : f = 0
      · subst hf0
        rw [if_pos rfl]
        have := doubleVal_parts s 0 0 hs2 (by omega) (by omega)
        rw [show s * 2 ^ 63 + 0 * 2 ^ 52 + 0 = s * 2 ^ 63 by omega] at this
        rw [this]; simp
      · rw [if_neg hf0]
        have hk : Nat.log2 f < 23 := (Nat.log2_lt hf0).mpr hf2
        have hlo : 2 ^ Nat.log2 f ≤ f := Nat.log2_self_le hf0
        have hhi : f < 2 ^ (Nat.log2 f + 1) := Nat.lt_log2_self
        generalize Nat.log2 f = k at *
        have hsp : (2 : ℕ) ^ k * 2 ^ (52 - k) = 2 ^ 52 := by rw [← pow_add]; congr 1; omega
        have hb : (f - 2 ^ k) * 2 ^ (52 - k) < 2 ^ 52 := by
          rw [← hsp]
          exact Nat.mul_lt_mul_of_pos_right (by rw [pow_succ] at hhi; omega) (by positivity)
        rw [doubleVal_parts _ _ _ hs2 (by omega) hb, if_neg (by omega), if_neg (by omega)]
        rw [Option.some_inj]
        have hsp' : (2 : ℚ) ^ k * 2 ^ (52 - k) = 2 ^ 52 := by exact_mod_cast hsp
        have e1 : ((2 : ℚ) ^ 52 + (((f - 2 ^ k) * 2 ^ (52 - k) : ℕ) : ℚ)) = f * 2 ^ (52 - k) := by
          rw [Nat.cast_mul, Nat.cast_sub hlo, ← hsp']; push_cast; ring
        rw [e1, mul_assoc, ← zpow_natCast (2 : ℚ) (52 - k), ← zpow_add₀ (by norm_num)]
        rw [show ((52 - k : ℕ) : ℤ) + (((k + 874 : ℕ) : ℤ) - 1075) = -149 by omega]
    · rw [if_neg h0, if_neg h0, doubleVal_parts _ _ _ hs2 (by omega) (by omega), if_neg (by omega), if_neg (by omega)]
      rw [Option.some_inj]
      have e1 : ((2 : ℚ) ^ 52 + ((f * 2 ^ 29 : ℕ) : ℚ)) = (2 ^ 23 + f) * (2 : ℚ) ^ (29 : ℤ) := by push_cast; ring
      rw [e1, mul_assoc, ← zpow_add₀ (by norm_num)]
      rw [show (29 : ℤ) + (((e + 896 : ℕ) : ℤ) - 1075) = (e : ℤ) - 150 by omega]

end Verif.Files
