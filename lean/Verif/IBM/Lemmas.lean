import Verif.IBM.Model
import Verif.IBM.Spec
import Verif.Endian.Lemmas
import Mathlib.Tactic.Ring
import Mathlib.Tactic.NormNum
import Mathlib.Tactic.Linarith
import Mathlib.Tactic.FieldSimp
/-!
# Helper lemmas for IBM conversion
-/
namespace Verif.IBM

theorem toNat_and_mask (x : BitVec 32) (k : Nat) (hk : k < 32) :
    (x &&& BitVec.ofNat 32 (2 ^ k - 1)).toNat = x.toNat % 2 ^ k := by
  rw [BitVec.toNat_and, BitVec.toNat_ofNat]
  have h1 : 2 ^ k ≤ 2 ^ 31 := Nat.pow_le_pow_right (by omega) (by omega)
  have h2 : 0 < 2 ^ k := Nat.pos_of_ne_zero (by simp)
  rw [Nat.mod_eq_of_lt (a := 2 ^ k - 1) (by omega), Nat.and_two_pow_sub_one_eq_mod]

theorem frac_toNat (bits : BitVec 32) : (bits &&& 0x00FFFFFF#32).toNat = ibmFrac bits :=
  toNat_and_mask bits 24 (by omega)

theorem sign_toNat (bits : BitVec 32) : ((bits >>> 31) &&& 0x01#32).toNat = signBit bits := by
  have := toNat_and_mask (bits >>> 31) 1 (by omega)
  rw [show BitVec.ofNat 32 (2 ^ 1 - 1) = 0x01#32 from rfl] at this
  rw [this, BitVec.toNat_ushiftRight, Nat.shiftRight_eq_div_pow]
  unfold signBit
  have := bits.isLt
  omega

theorem exp_toNat (bits : BitVec 32) : ((bits >>> 24) &&& 0x7F#32).toNat = ibmExp bits := by
  have := toNat_and_mask (bits >>> 24) 7 (by omega)
  rw [show BitVec.ofNat 32 (2 ^ 7 - 1) = 0x7F#32 from rfl] at this
  rw [this, BitVec.toNat_ushiftRight, Nat.shiftRight_eq_div_pow]
  rfl

theorem ibmFrac_lt (bits : BitVec 32) : ibmFrac bits < 2 ^ 24 := Nat.mod_lt _ (by omega)
theorem ibmExp_lt (bits : BitVec 32) : ibmExp bits < 128 := Nat.mod_lt _ (by omega)
theorem signBit_lt (bits : BitVec 32) : signBit bits < 2 := by
  unfold signBit; have := bits.isLt; omega

/-- Number of bits the code shifts a fraction to the left. -/
def shiftOf (f : Nat) : Nat := offsets.getD (f / 2 ^ 21) 0

theorem shiftOf_cases (f : Nat) (hf : f < 2 ^ 24) :
    (f < 2 ^ 21 ∧ shiftOf f = 3) ∨ (2 ^ 21 ≤ f ∧ f < 2 ^ 22 ∧ shiftOf f = 2) ∨
    (2 ^ 22 ≤ f ∧ f < 2 ^ 23 ∧ shiftOf f = 1) ∨ (2 ^ 23 ≤ f ∧ shiftOf f = 0) := by
  unfold shiftOf
  have h : f / 2 ^ 21 < 8 := by omega
  generalize hq : f / 2 ^ 21 = q at *
  have : q = 0 ∨ q = 1 ∨ q = 2 ∨ q = 3 ∨ q = 4 ∨ q = 5 ∨ q = 6 ∨ q = 7 := by omega
  rcases this with h | h | h | h | h | h | h | h <;> subst h <;> simp [offsets] <;> omega

/-- The components computed for a non-zero fraction. -/
theorem fromIBMBits_eq (bits : BitVec 32) (h0 : ibmFrac bits ≠ 0) :
    ∃ c, fromIBMBits bits = c ∧ c.sign.toNat = signBit bits ∧
      c.exponent = ((ibmExp bits : Int) - 64) * 4 - shiftOf (ibmFrac bits) ∧
      c.significand.toNat = ibmFrac bits * 2 ^ (8 + shiftOf (ibmFrac bits)) := by
  refine ⟨_, rfl, ?_⟩
  unfold fromIBMBits
  have hne : ¬ (bits &&& 0x00FFFFFF#32) = 0#32 := by
    intro h
    apply h0
    rw [← frac_toNat, h]; rfl
  simp only [hne, if_false]
  have hs : ((bits &&& 0x00FFFFFF#32) >>> 21).toNat = ibmFrac bits / 2 ^ 21 := by
    rw [BitVec.toNat_ushiftRight, frac_toNat, Nat.shiftRight_eq_div_pow]
  refine ⟨sign_toNat bits, ?_, ?_⟩
  · rw [exp_toNat, hs]; rfl
  · rw [hs]
    change ((bits &&& 0x00FFFFFF#32) <<< (8 + shiftOf (ibmFrac bits))).toNat = _
    rw [BitVec.toNat_shiftLeft, frac_toNat, Nat.shiftLeft_eq]
    apply Nat.mod_eq_of_lt
    have := ibmFrac_lt bits
    rcases shiftOf_cases _ this with ⟨h, e⟩ | ⟨_, h, e⟩ | ⟨_, h, e⟩ | ⟨h, e⟩ <;> rw [e] <;> omega

theorem fromIBMBits_zero (bits : BitVec 32) (h0 : ibmFrac bits = 0) :
    fromIBMBits bits = ⟨0#32, 0, 0#32⟩ := by
  unfold fromIBMBits
  have : (bits &&& 0x00FFFFFF#32) = 0#32 := by
    apply BitVec.eq_of_toNat_eq; rw [frac_toNat, h0]; rfl
  simp [this]

/-- Packing without overflow. -/
theorem pack_toNat (s : BitVec 32) (e : Nat) (f : BitVec 32) (hs : s.toNat < 2) (he : e < 255) :
    (pack s (e : Int) f).toNat = s.toNat * 2 ^ 31 + e * 2 ^ 23 + f.toNat % 2 ^ 23 := by
  unfold pack
  have h1 : ¬ ((e : Int) ≥ 0xFF) := by omega
  simp only [h1, if_false]
  have hf := toNat_and_mask f 23 (by omega)
  rw [show BitVec.ofNat 32 (2 ^ 23 - 1) = 0x7FFFFF#32 from rfl] at hf
  have hee := toNat_and_mask (BitVec.ofInt 32 (e : Int)) 8 (by omega)
  rw [show BitVec.ofNat 32 (2 ^ 8 - 1) = 0xFF#32 from rfl] at hee
  have he2 : (BitVec.ofInt 32 (e : Int)).toNat = e := by
    rw [BitVec.ofInt_natCast, BitVec.toNat_ofNat]
    omega
  rw [BitVec.toNat_or, BitVec.toNat_or, hf, BitVec.toNat_shiftLeft, BitVec.toNat_shiftLeft, hee,
    he2, Nat.shiftLeft_eq, Nat.shiftLeft_eq]
  have e1 : s.toNat * 2 ^ 31 % 2 ^ 32 = s.toNat * 2 ^ 31 := Nat.mod_eq_of_lt (by omega)
  have e2 : e % 2 ^ 8 = e := Nat.mod_eq_of_lt (by omega)
  have e3 : e * 2 ^ 23 % 2 ^ 32 = e * 2 ^ 23 := Nat.mod_eq_of_lt (by omega)
  rw [e1, e2, e3]
  have or_add : ∀ a b k : Nat, b < 2 ^ k → a * 2 ^ k ||| b = a * 2 ^ k + b := by
    intro a b k h
    rw [Nat.mul_comm]
    exact (Nat.two_pow_add_eq_or_of_lt h a).symm
  rw [or_add _ _ 31 (by omega)]
  rw [show s.toNat * 2 ^ 31 + e * 2 ^ 23 = (s.toNat * 256 + e) * 2 ^ 23 by omega]
  rw [or_add _ _ 23 (Nat.mod_lt _ (by omega))]

/-- Packing with overflow. -/
theorem pack_inf_toNat (s : BitVec 32) (e : Int) (f : BitVec 32) (hs : s.toNat < 2)
    (he : 255 ≤ e) : (pack s e f).toNat = s.toNat * 2 ^ 31 + 255 * 2 ^ 23 := by
  unfold pack
  have h1 : (e ≥ 0xFF) := by omega
  simp only [h1, if_true]
  have : s = 0#32 ∨ s = 1#32 := by
    have : s.toNat = 0 ∨ s.toNat = 1 := by omega
    rcases this with h | h
    · left; exact BitVec.eq_of_toNat_eq h
    · right; exact BitVec.eq_of_toNat_eq h
  rcases this with h | h <;> subst h <;> decide

/-- Rounded shift on numbers. -/
def roundShift (v s : Nat) : Nat :=
  if 2 ^ (s - 1) < v % 2 ^ s then v / 2 ^ s + 1
  else if v % 2 ^ s = 2 ^ (s - 1) then
    (if v / 2 ^ s % 2 = 1 then v / 2 ^ s + 1 else v / 2 ^ s)
  else v / 2 ^ s

theorem rshift_eq (v : BitVec 32) (s : Nat) (h1 : 1 ≤ s) (h2 : s < 32) (hv : v.toNat < 2 ^ 24) :
    ∃ r, rshiftWithRounding v s = .ok r ∧ r.toNat = roundShift v.toNat s := by
  have hp : 2 ^ s ≤ 2 ^ 31 := Nat.pow_le_pow_right (by omega) (by omega)
  have hp0 : 0 < 2 ^ s := Nat.pos_of_ne_zero (by simp)
  have hq : 2 ^ (s - 1) ≤ 2 ^ 31 := Nat.pow_le_pow_right (by omega) (by omega)
  have hmask : ((((1#64) <<< s) - 1#64).setWidth 32) = BitVec.ofNat 32 (2 ^ s - 1) := by
    apply BitVec.eq_of_toNat_eq
    rw [BitVec.toNat_setWidth, BitVec.toNat_sub, BitVec.toNat_shiftLeft, Nat.shiftLeft_eq]
    simp only [BitVec.toNat_ofNat]
    have e1 : 1 % 2 ^ 64 * 2 ^ s % 2 ^ 64 = 2 ^ s := by
      rw [show 1 % 2 ^ 64 = 1 from rfl, Nat.one_mul]; exact Nat.mod_eq_of_lt (by omega)
    rw [e1]; omega
  have hhalf : (((1#64) <<< (s - 1)).setWidth 32).toNat = 2 ^ (s - 1) := by
    rw [BitVec.toNat_setWidth, BitVec.toNat_shiftLeft, Nat.shiftLeft_eq]
    simp only [BitVec.toNat_ofNat]
    have e1 : 1 % 2 ^ 64 * 2 ^ (s - 1) % 2 ^ 64 = 2 ^ (s - 1) := by
      rw [show 1 % 2 ^ 64 = 1 from rfl, Nat.one_mul]; exact Nat.mod_eq_of_lt (by omega)
    rw [e1]; omega
  have htr : (v &&& BitVec.ofNat 32 (2 ^ s - 1)).toNat = v.toNat % 2 ^ s :=
    toNat_and_mask v s h2
  have htv : (v >>> s).toNat = v.toNat / 2 ^ s := by
    rw [BitVec.toNat_ushiftRight, Nat.shiftRight_eq_div_pow]
  have hodd : ((v >>> s) &&& 0x01#32).toNat = v.toNat / 2 ^ s % 2 := by
    have := toNat_and_mask (v >>> s) 1 (by omega)
    rw [show BitVec.ofNat 32 (2 ^ 1 - 1) = 0x01#32 from rfl] at this
    rw [this, htv, pow_one]
  have hdiv : v.toNat / 2 ^ s ≤ v.toNat := Nat.div_le_self _ _
  have hadd : ((v >>> s) + 1#32).toNat = v.toNat / 2 ^ s + 1 := by
    rw [BitVec.toNat_add, htv]
    simp only [BitVec.toNat_ofNat]
    rw [show 1 % 2 ^ 32 = 1 from rfl]
    exact Nat.mod_eq_of_lt (by omega)
  unfold rshiftWithRounding roundShift
  simp only [h1, h2, and_self, if_true]
  rw [hmask]
  simp only [BitVec.lt_def, hhalf, htr]
  have heq : (v &&& BitVec.ofNat 32 (2 ^ s - 1)) = ((1#64) <<< (s - 1)).setWidth 32 ↔
      v.toNat % 2 ^ s = 2 ^ (s - 1) := by
    rw [← htr, ← hhalf]
    exact ⟨fun h => by rw [h], fun h => BitVec.eq_of_toNat_eq h⟩
  have hoddeq : ((v >>> s) &&& 0x01#32) = 0x01#32 ↔ v.toNat / 2 ^ s % 2 = 1 := by
    rw [← hodd]
    exact ⟨fun h => by rw [h]; rfl, fun h => BitVec.eq_of_toNat_eq h⟩
  simp only [heq, hoddeq]
  split
  · exact ⟨_, rfl, hadd⟩
  · split
    · split
      · exact ⟨_, rfl, hadd⟩
      · exact ⟨_, rfl, htv⟩
    · exact ⟨_, rfl, htv⟩

/-- `roundShift` is nearest, ties to even. -/
theorem roundShift_nearest (v s : Nat) (h1 : 1 ≤ s) :
    2 * v ≤ 2 * (roundShift v s * 2 ^ s) + 2 ^ s ∧ 2 * (roundShift v s * 2 ^ s) ≤ 2 * v + 2 ^ s ∧
    ((2 * v = 2 * (roundShift v s * 2 ^ s) + 2 ^ s ∨ 2 * (roundShift v s * 2 ^ s) = 2 * v + 2 ^ s) →
      roundShift v s % 2 = 0) := by
  have hs : 2 ^ s = 2 * 2 ^ (s - 1) := by
    rw [← Nat.pow_succ']; congr 1; omega
  have hp0 : 0 < 2 ^ (s - 1) := Nat.pos_of_ne_zero (by simp)
  have hd := Nat.div_add_mod v (2 ^ s)
  have hm := Nat.mod_lt v (show 0 < 2 ^ s by omega)
  have hc : 2 ^ s * (v / 2 ^ s) = v / 2 ^ s * 2 ^ s := Nat.mul_comm _ _
  unfold roundShift
  generalize v / 2 ^ s = q at *
  generalize v % 2 ^ s = m at *
  generalize 2 ^ (s - 1) = H at *
  generalize 2 ^ s = P at *
  have hx : (q + 1) * P = q * P + P := by rw [Nat.add_mul]; simp
  generalize hY : q * P = Y at *
  split
  · rw [hx]; omega
  · split
    · split
      · rw [hx]; omega
      · rw [hY]; omega
    · rw [hY]; omega

/-- Exponent as biased by `to_float`. -/
def biased (bits : BitVec 32) : Int :=
  ((ibmExp bits : Int) - 64) * 4 - shiftOf (ibmFrac bits) + 126
/-- The fraction after the shift, as a 24-bit number. -/
def frac24 (bits : BitVec 32) : Nat := ibmFrac bits * 2 ^ shiftOf (ibmFrac bits)

theorem frac24_lt (bits : BitVec 32) : frac24 bits < 2 ^ 24 := by
  unfold frac24
  have := ibmFrac_lt bits
  rcases shiftOf_cases _ this with ⟨h, e⟩ | ⟨_, h, e⟩ | ⟨_, h, e⟩ | ⟨h, e⟩ <;> rw [e] <;> omega

theorem frac24_ge (bits : BitVec 32) (hn : Normalised bits) : 2 ^ 23 ≤ frac24 bits := by
  unfold frac24
  unfold Normalised at hn
  have := ibmFrac_lt bits
  rcases shiftOf_cases _ this with ⟨h, e⟩ | ⟨_, h, e⟩ | ⟨_, h, e⟩ | ⟨h, e⟩ <;> rw [e] <;> omega

theorem biased_range (bits : BitVec 32) : -133 ≤ biased bits ∧ biased bits ≤ 378 := by
  unfold biased
  have := ibmExp_lt bits
  rcases shiftOf_cases _ (ibmFrac_lt bits) with ⟨h, e⟩ | ⟨_, h, e⟩ | ⟨_, h, e⟩ | ⟨h, e⟩ <;>
    rw [e] <;> omega

/-- The whole conversion for a non-zero fraction, in terms of numbers. -/
theorem convert_eq (bits : BitVec 32) (h0 : ibmFrac bits ≠ 0) :
    ∃ s f : BitVec 32, s.toNat = signBit bits ∧ f.toNat = frac24 bits ∧
      toFloat (fromIBMBits bits) =
        (if biased bits ≤ 0 then
          (do let f' ← rshiftWithRounding f ((-(biased bits) + 1).toNat); .ok (pack s 0 f'))
        else .ok (pack s (biased bits) f)) := by
  obtain ⟨c, hc, hs, he, hf⟩ := fromIBMBits_eq bits h0
  have hb := biased_range bits
  have hbe : biased bits = c.exponent + 127 - 1 := by rw [he]; unfold biased; omega
  refine ⟨c.sign, c.significand >>> 8, hs, ?_, ?_⟩
  · rw [BitVec.toNat_ushiftRight, Nat.shiftRight_eq_div_pow, hf]
    unfold frac24
    rw [Nat.add_comm 8, Nat.pow_add, ← Nat.mul_assoc]
    exact Nat.mul_div_cancel _ (by omega)
  · rw [hc]
    unfold toFloat
    have : c.exponent + 127 < 2 ^ 31 := by omega
    simp only [this, if_true, ← hbe]

theorem zpow2_pos (e : Int) : (0:ℚ) < (2:ℚ) ^ e := zpow_pos (by norm_num) e

theorem ibmVal_eq (bits : BitVec 32) :
    ibmVal bits = sgn (signBit bits) * (frac24 bits : ℚ) * (2:ℚ) ^ (biased bits - 150) := by
  have h1 : ibmVal bits = sgn (signBit bits) * (ibmFrac bits : ℚ) *
      (2:ℚ) ^ (4 * ((ibmExp bits : Int) - 64) - 24) := rfl
  rw [h1]
  unfold frac24 biased
  have : (4 * ((ibmExp bits : Int) - 64) - 24) = (shiftOf (ibmFrac bits) : Int) +
    (((ibmExp bits : Int) - 64) * 4 - shiftOf (ibmFrac bits) + 126 - 150) := by ring
  rw [this, zpow_add₀ (by norm_num)]
  push_cast
  rw [zpow_natCast]
  ring

theorem abs_sgn (s : Nat) : |sgn s| = 1 := by unfold sgn; split <;> simp

theorem abs_ibmVal (bits : BitVec 32) :
    |ibmVal bits| = (frac24 bits : ℚ) * (2:ℚ) ^ (biased bits - 150) := by
  rw [ibmVal_eq, abs_mul, abs_mul, abs_sgn, one_mul, abs_of_nonneg (by positivity),
    abs_of_pos (zpow2_pos _)]

theorem zpow2_le {a b : Int} (h : a ≤ b) : (2:ℚ) ^ a ≤ (2:ℚ) ^ b :=
  zpow_le_zpow_right₀ (by norm_num) h

/-- Magnitude below a power of two, from the biased exponent. -/
theorem abs_lt_of (bits : BitVec 32) (k : Int) (h : biased bits ≤ k) :
    |ibmVal bits| < (2:ℚ) ^ (k - 126) := by
  rw [abs_ibmVal]
  have h1 : (frac24 bits : ℚ) < 2 ^ (24 : Int) := by
    have := frac24_lt bits
    exact_mod_cast this
  have h2 : (2:ℚ) ^ (biased bits - 150) ≤ (2:ℚ) ^ (k - 150) := zpow2_le (by omega)
  calc (frac24 bits : ℚ) * (2:ℚ) ^ (biased bits - 150)
      < 2 ^ (24 : Int) * (2:ℚ) ^ (biased bits - 150) := by
        exact mul_lt_mul_of_pos_right h1 (zpow2_pos _)
    _ ≤ 2 ^ (24 : Int) * (2:ℚ) ^ (k - 150) := by
        exact mul_le_mul_of_nonneg_left h2 (zpow2_pos _).le
    _ = (2:ℚ) ^ (k - 126) := by rw [← zpow_add₀ (by norm_num)]; congr 1; ring

theorem le_abs_of (bits : BitVec 32) (hn : Normalised bits) (k : Int) (h : k ≤ biased bits) :
    (2:ℚ) ^ (k - 127) ≤ |ibmVal bits| := by
  rw [abs_ibmVal]
  have h1 : (2:ℚ) ^ (23 : Int) ≤ (frac24 bits : ℚ) := by
    have := frac24_ge bits hn
    exact_mod_cast this
  have h2 : (2:ℚ) ^ (k - 150) ≤ (2:ℚ) ^ (biased bits - 150) := zpow2_le (by omega)
  calc (2:ℚ) ^ (k - 127) = 2 ^ (23 : Int) * (2:ℚ) ^ (k - 150) := by
        rw [← zpow_add₀ (by norm_num)]; congr 1; ring
    _ ≤ 2 ^ (23 : Int) * (2:ℚ) ^ (biased bits - 150) :=
        mul_le_mul_of_nonneg_left h2 (zpow2_pos _).le
    _ ≤ _ := mul_le_mul_of_nonneg_right h1 (zpow2_pos _).le

theorem ge_biased (bits : BitVec 32) (k : Int) (h : (2:ℚ) ^ (k - 127) ≤ |ibmVal bits|) :
    k ≤ biased bits := by
  by_contra hc
  have := abs_lt_of bits (k - 1) (by omega)
  rw [show k - 1 - 126 = k - 127 by ring] at this
  exact absurd h (not_le.mpr this)

theorem le_biased (bits : BitVec 32) (hn : Normalised bits) (k : Int)
    (h : |ibmVal bits| < (2:ℚ) ^ (k - 126)) : biased bits ≤ k := by
  by_contra hc
  have := le_abs_of bits hn (k + 1) (by omega)
  rw [show k + 1 - 127 = k - 126 by ring] at this
  exact absurd h (not_lt.mpr this)

/-- Assembly of the bits is base-256. -/
theorem ibmBits_toNat (b0 b1 b2 b3 : Endian.Byte) (be : Bool) :
    (ibmBits b0 b1 b2 b3 be).toNat =
      if be then b0.toNat * 256 ^ 3 + b1.toNat * 256 ^ 2 + b2.toNat * 256 + b3.toNat
      else b3.toNat * 256 ^ 3 + b2.toNat * 256 ^ 2 + b1.toNat * 256 + b0.toNat := by
  cases be
  · exact Endian.fromBE32_toNat b3 b2 b1 b0
  · exact Endian.fromBE32_toNat b0 b1 b2 b3

end Verif.IBM
