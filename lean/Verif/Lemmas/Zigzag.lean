import Verif.Model.Helpers
import Verif.Spec.Zigzag
import Verif.Lemmas.Varint
/-! Zigzag lemmas. -/

namespace Vtp
open Spec

theorem sshiftRight_msb {n : Nat} (x : BitVec (n + 1)) :
    x.sshiftRight n = if x.msb then BitVec.allOnes (n + 1) else 0#(n + 1) := by
  apply BitVec.eq_of_getLsbD_eq
  intro i hi
  have hm : x.msb = x.getLsbD n := by simp [BitVec.msb_eq_getLsbD_last]
  rw [BitVec.getLsbD_sshiftRight]
  by_cases h0 : i = 0
  · subst h0
    cases h : x.msb <;> simp_all
  · rw [if_neg (by omega)]
    cases h : x.msb <;> simp [hi]

theorem zigzag_generic {n : Nat} (x : BitVec (n + 1)) :
    ((x <<< 1) ^^^ x.sshiftRight n).toNat = zigzag x.toInt := by
  rw [sshiftRight_msb]
  have hx := x.isLt
  have hp : 2 ^ (n + 1) = 2 * 2 ^ n := by rw [Nat.pow_succ]; omega
  cases h : x.msb
  · have hl : 2 * x.toNat < 2 ^ (n + 1) := by
      rw [BitVec.msb_eq_decide] at h; simp at h; omega
    rw [BitVec.toInt_eq_toNat_of_msb h]
    simp [zigzag, Nat.shiftLeft_eq]
    rw [Nat.mod_eq_of_lt (by omega)]; omega
  · have hl : 2 ^ n ≤ x.toNat := by
      rw [BitVec.msb_eq_decide] at h; simp at h; omega
    have hi : x.toInt = (x.toNat : Int) - 2 ^ (n + 1) := by
      rw [BitVec.toInt_eq_msb_cond, h]; simp
    have h2 : (2 * x.toNat) % 2 ^ (n+1) = 2 * x.toNat - 2 ^ (n+1) := by
      rw [Nat.mod_eq_sub_mod (by omega), Nat.mod_eq_of_lt (by omega)]
    simp only [if_true, BitVec.xor_allOnes, BitVec.toNat_not, BitVec.toNat_shiftLeft, Nat.shiftLeft_eq,
      Nat.pow_one]
    have this : ((2 ^ (n+1) : Nat) : Int) = (2:Int) ^ (n+1) := by push_cast; rfl
    rw [hi, Nat.mul_comm, h2, zigzag, ← this, if_neg (by omega)]
    omega

theorem zigzag64_toNat (x : BitVec 64) : (zigzag64 x).toNat = zigzag x.toInt := zigzag_generic (n := 63) x

theorem zigzag32_toNat (x : BitVec 32) : (zigzag32 x).toNat = zigzag x.toInt := zigzag_generic (n := 31) x

theorem low_bit_spread {n : Nat} (v : BitVec (n + 1)) :
    (((v &&& 1#(n + 1)) <<< n).sshiftRight n) = if v.getLsbD 0 then BitVec.allOnes (n + 1) else 0#(n + 1) := by
  rw [sshiftRight_msb]
  congr 1
  rw [BitVec.msb_eq_getLsbD_last]
  simp

theorem unzigzag_generic {n : Nat} (v : BitVec (n + 1)) :
    ((v >>> 1) ^^^ (((v &&& 1#(n + 1)) <<< n).sshiftRight n)).toInt = unzigzag v.toNat := by
  rw [low_bit_spread]
  have hx := v.isLt
  have hp : 2 ^ (n + 1) = 2 * 2 ^ n := by rw [Nat.pow_succ]; omega
  have hb : v.getLsbD 0 = decide (v.toNat % 2 = 1) := by
    simp [BitVec.getLsbD, Nat.testBit_zero]
  have hs : (v >>> 1).toNat = v.toNat / 2 := by simp [Nat.shiftRight_eq_div_pow]
  rw [hb, unzigzag]
  by_cases h : v.toNat % 2 = 1
  · rw [if_pos (by simpa using h), if_neg (by omega)]
    simp only [BitVec.xor_allOnes]
    have hn : (~~~(v >>> 1)).toNat = 2 ^ (n+1) - 1 - v.toNat / 2 := by
      rw [BitVec.toNat_not, hs]
    rw [BitVec.toInt_eq_toNat_cond, hn, if_neg (by omega)]
    omega
  · rw [if_neg (by simpa using h), if_pos (by omega)]
    simp only [BitVec.xor_zero]
    rw [BitVec.toInt_eq_toNat_cond, hs, if_pos (by omega)]
    omega

theorem unzigzag64_toInt (v : BitVec 64) : (unzigzag64 v).toInt = unzigzag v.toNat := unzigzag_generic (n := 63) v

theorem unzigzag32_toInt (v : BitVec 32) : (unzigzag32 v).toInt = unzigzag v.toNat := unzigzag_generic (n := 31) v

theorem unzigzag_zigzag (n : Int) : unzigzag (zigzag n) = n := by
  unfold unzigzag zigzag
  split <;> split <;> omega

theorem zigzag_unzigzag (k : Nat) : zigzag (unzigzag k) = k := by
  unfold unzigzag zigzag
  split <;> split <;> omega

theorem unzigzag64_zigzag64 (x : BitVec 64) : unzigzag64 (zigzag64 x) = x := by
  apply BitVec.eq_of_toInt_eq
  rw [unzigzag64_toInt, zigzag64_toNat, unzigzag_zigzag]

theorem unzigzag32_zigzag32 (x : BitVec 32) : unzigzag32 (zigzag32 x) = x := by
  apply BitVec.eq_of_toInt_eq
  rw [unzigzag32_toInt, zigzag32_toNat, unzigzag_zigzag]

/-- The size computed with the 64-bit formula on the sign-extended value is the
size of the varint written for the 32-bit zigzag value. -/
theorem sizeOfZigzag_signExtend (x : BitVec 32) :
    sizeOfZigzag (x.signExtend 64) = sizeOfVarint ((zigzag32 x).setWidth 64) := by
  rw [sizeOfZigzag, sizeOfVarint_eq, sizeOfVarint_eq, zigzag64_toNat]
  have : (x.signExtend 64).toInt = x.toInt := by
    rw [BitVec.toInt_signExtend_of_le (by omega)]
  rw [this, ← zigzag32_toNat, BitVec.toNat_setWidth, Nat.mod_eq_of_lt]
  have := (zigzag32 x).isLt
  omega

end Vtp
