import Verif.Endian.Model
/-!
# Helper lemmas for byte order conversion
-/
namespace Verif.Endian

/-- Both shift kinds give byte `i` = bits `8*(n-i-1) ..`. -/
theorem toBESigned_eq (n : Nat) (src : BitVec (8 * n)) :
    toBESigned n src = (List.range n).map fun i => src.extractLsb' (8 * (n - i - 1)) 8 := by
  apply List.map_congr_left
  intro i hi
  rw [List.mem_range] at hi
  apply BitVec.eq_of_getLsbD_eq
  intro j hj
  have hm : (0xFF#(8 * n)).getLsbD j = true := by
    have h8 : 8 ≤ 8 * n := by omega
    have hp : (2:Nat) ^ 8 ≤ 2 ^ (8 * n) := Nat.pow_le_pow_right (by omega) h8
    have e : (255:Nat) % 2 ^ (8 * n) = 2 ^ 8 - 1 := Nat.mod_eq_of_lt (by omega)
    simp only [BitVec.getLsbD, BitVec.toNat_ofNat, e, Nat.testBit_two_pow_sub_one]
    simp [hj]
  simp only [BitVec.getLsbD_setWidth, BitVec.getLsbD_and, hm, BitVec.getLsbD_sshiftRight,
    BitVec.getLsbD_extractLsb']
  have h1 : 8 * (n - i - 1) + j < 8 * n := by omega
  have h2 : ¬ 8 * n ≤ j := by omega
  simp [h1, h2, hj]

theorem toBEUnsigned_eq (n : Nat) (src : BitVec (8 * n)) :
    toBEUnsigned n src = (List.range n).map fun i => src.extractLsb' (8 * (n - i - 1)) 8 := by
  apply List.map_congr_left
  intro i hi
  rw [List.mem_range] at hi
  apply BitVec.eq_of_getLsbD_eq
  intro j hj
  have hm : (0xFF#(8 * n)).getLsbD j = true := by
    have h8 : 8 ≤ 8 * n := by omega
    have hp : (2:Nat) ^ 8 ≤ 2 ^ (8 * n) := Nat.pow_le_pow_right (by omega) h8
    have e : (255:Nat) % 2 ^ (8 * n) = 2 ^ 8 - 1 := Nat.mod_eq_of_lt (by omega)
    simp only [BitVec.getLsbD, BitVec.toNat_ofNat, e, Nat.testBit_two_pow_sub_one]
    simp [hj]
  simp only [BitVec.getLsbD_setWidth, BitVec.getLsbD_and, hm, BitVec.getLsbD_ushiftRight,
    BitVec.getLsbD_extractLsb']
  simp [hj]

theorem toBE_toNat (n : Nat) (src : BitVec (8 * n)) (i : Nat) (hi : i < n) :
    ∃ h : i < (toBESigned n src).length,
      ((toBESigned n src)[i]).toNat = src.toNat / 256 ^ (n - i - 1) % 256 := by
  have hl : (toBESigned n src).length = n := by simp [toBESigned]
  refine ⟨by omega, ?_⟩
  simp only [toBESigned_eq, List.getElem_map, List.getElem_range, BitVec.extractLsb'_toNat]
  rw [Nat.shiftRight_eq_div_pow, Nat.pow_mul]

theorem fromBE32_toNat (b0 b1 b2 b3 : Byte) :
    (fromBE32 b0 b1 b2 b3).toNat
      = b0.toNat * 256 ^ 3 + b1.toNat * 256 ^ 2 + b2.toNat * 256 + b3.toNat := by
  have h0 := b0.isLt; have h1 := b1.isLt; have h2 := b2.isLt; have h3 := b3.isLt
  have s0 : ∀ (b : Byte) (k : Nat), k ≤ 24 → ((b.setWidth 32) <<< k).toNat = b.toNat * 2 ^ k := by
    intro b k hk
    have hb := b.isLt
    rw [BitVec.toNat_shiftLeft, BitVec.toNat_setWidth, Nat.shiftLeft_eq]
    have hp : 2 ^ k ≤ 2 ^ 24 := Nat.pow_le_pow_right (by omega) hk
    have : b.toNat * 2 ^ k ≤ 255 * 2 ^ 24 := Nat.mul_le_mul (by omega) hp
    rw [Nat.mod_eq_of_lt (a := b.toNat) (by omega)]
    exact Nat.mod_eq_of_lt (by omega)
  unfold fromBE32
  simp only [BitVec.toNat_or]
  rw [s0 _ 24 (by omega), s0 _ 16 (by omega), s0 _ 8 (by omega), s0 _ 0 (by omega)]
  have or_add : ∀ a b k : Nat, b < 2 ^ k → a * 2 ^ k ||| b = a * 2 ^ k + b := by
    intro a b k h
    rw [Nat.mul_comm]
    exact (Nat.two_pow_add_eq_or_of_lt h a).symm
  rw [or_add _ _ 24 (by omega)]
  rw [show b0.toNat * 2 ^ 24 + b1.toNat * 2 ^ 16 = (b0.toNat * 256 + b1.toNat) * 2 ^ 16 by omega]
  rw [or_add _ _ 16 (by omega)]
  rw [show (b0.toNat * 256 + b1.toNat) * 2 ^ 16 + b2.toNat * 2 ^ 8
    = ((b0.toNat * 256 + b1.toNat) * 256 + b2.toNat) * 2 ^ 8 by omega]
  rw [or_add _ _ 8 (by omega)]
  omega

theorem fromBE16_toNat (b0 b1 : Byte) : (fromBE16 b0 b1).toNat = b0.toNat * 256 + b1.toNat := by
  have h := fromBE32_toNat 0#8 0#8 b0 b1
  have h0 := b0.isLt; have h1 := b1.isLt
  unfold fromBE16
  have e : ((b0.setWidth 32) <<< 8 ||| (b1.setWidth 32) <<< 0) = fromBE32 0#8 0#8 b0 b1 := by
    unfold fromBE32; simp
  rw [e, BitVec.toNat_setWidth, h]
  simp only [BitVec.toNat_ofNat, Nat.zero_mod, Nat.zero_mul, Nat.zero_add]
  exact Nat.mod_eq_of_lt (by omega)

end Verif.Endian
