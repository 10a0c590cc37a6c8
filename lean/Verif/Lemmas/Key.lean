import Verif.Lemmas.Varint
import Verif.Model.Schema
/-! Field keys are the varints of `number * 8 + wire type`. -/

namespace Vtp
open Spec

theorem keyBits_toNat (num wt : Nat) (hn : num < 2 ^ 29) (hw : wt < 8) : (keyBits num wt).toNat = num * 8 + wt := by
  have h1 : num * 8 < 2 ^ 32 := by omega
  simp only [keyBits, BitVec.toNat_or, BitVec.toNat_shiftLeft, BitVec.toNat_ofNat, Nat.shiftLeft_eq]
  rw [Nat.mod_eq_of_lt (a := num) (by omega), Nat.mod_eq_of_lt (a := wt) (by omega), Nat.mod_eq_of_lt (by omega)]
  have := Nat.two_pow_add_eq_or_of_lt (i := 3) (b := wt) (by omega) num
  rw [show num * 2 ^ 3 = 2 ^ 3 * num by omega, ← this]
  omega

theorem keySizeLoop_eq : ∀ (n : Nat) (x : BitVec 32), keySizeLoop n x = (keyBufLoop n x).length := by
  intro n
  induction n with
  | zero => intro x; rfl
  | succ n ih => intro x; rw [keySizeLoop, keyBufLoop]; split <;> simp [ih]

theorem key_cont_byte (x : BitVec 32) :
    UInt8.ofBitVec (0x80 ||| (x &&& 0x7f).setWidth 8) = UInt8.ofNat (x.toNat % 128 + 128) := by
  apply UInt8.toNat_inj.1
  have h1 : (0x7f : BitVec 32).toNat = 2 ^ 7 - 1 := rfl
  have h2 : (0x80 : BitVec 8).toNat = 2 ^ 7 * 1 := rfl
  simp only [UInt8.toNat_ofBitVec, BitVec.toNat_setWidth, BitVec.toNat_or, BitVec.toNat_and, h1, h2,
    Nat.and_two_pow_sub_one_eq_mod]
  have h3 : x.toNat % 2 ^ 7 % 2 ^ 8 = x.toNat % 128 := by omega
  rw [h3, ← Nat.two_pow_add_eq_or_of_lt (i := 7) (by omega)]
  simp
  omega

theorem keyBufLoop_eq : ∀ (n k : Nat) (x : BitVec 32), 0 < n → x.toNat < 128 ^ n → n ≤ k →
    keyBufLoop n x = leb k x.toNat := by
  intro n
  induction n with
  | zero => intro _ _ h; omega
  | succ n ih =>
    intro k x _ hx hk
    obtain ⟨k, rfl⟩ : ∃ k', k = k' + 1 := ⟨k - 1, by omega⟩
    rw [keyBufLoop, leb]
    by_cases h : x.toNat < 128
    · rw [if_neg (by omega), if_pos h]
      congr 1
    · rw [if_pos (by omega), if_neg h, key_cont_byte]
      have hn : 0 < n := by
        rcases Nat.eq_zero_or_pos n with h0 | h0
        · subst h0; simp at hx; omega
        · exact h0
      have e : (x >>> 7).toNat = x.toNat / 128 := by
        rw [BitVec.toNat_ushiftRight, Nat.shiftRight_eq_div_pow]
      rw [ih k (x >>> 7) hn (by rw [e, Nat.div_lt_iff_lt_mul (by omega)]; rw [Nat.pow_succ] at hx; omega) (by omega), e]

/-- The key bytes are the varint of the tag. -/
theorem keyBuf_eq (num wt : Nat) (hn : num < 2 ^ 29) (hw : wt < 8) : keyBuf num wt = varint (num * 8 + wt) := by
  have h := keyBits_toNat num wt hn hw
  rw [keyBuf, varint, keyBufLoop_eq 5 10 _ (by omega) (by rw [h]; omega) (by omega), h]

theorem keySize_eq (num wt : Nat) (hn : num < 2 ^ 29) (hw : wt < 8) :
    keySize num wt = (varint (num * 8 + wt)).length := by
  rw [keySize, keySizeLoop_eq, ← keyBuf_eq num wt hn hw, keyBuf]

theorem protoWireType_lt (k : Kind) : protoWireType k < 8 := by cases k <;> decide

end Vtp

namespace Vtp
open Spec

/-- A varint that does not fit below the end of the buffer panics. -/
theorem encodeVarintLoop_over : ∀ (n : Nat) (buf : Bytes) (off : Int) (v : BitVec 64),
    0 < n → v.toNat < 128 ^ n → (buf.length : Int) < off + (leb n v.toNat).length →
    encodeVarintLoop n buf off v = .panic .indexOutOfRange := by
  intro n
  induction n with
  | zero => intro _ _ _ h; omega
  | succ n ih =>
    intro buf off v _ hv ho
    rw [leb] at ho
    rw [encodeVarintLoop]
    by_cases h : v.toNat < 128
    · rw [if_pos h] at ho
      rw [if_neg (by omega), putByte, if_neg]
      simp at ho; omega
    · rw [if_neg h] at ho
      rw [if_pos (by omega), putByte]
      split
      · have hn : 0 < n := by
          rcases Nat.eq_zero_or_pos n with h0 | h0
          · subst h0; simp at hv; omega
          · exact h0
        have e : (v >>> 7).toNat = v.toNat / 128 := by
          rw [BitVec.toNat_ushiftRight, Nat.shiftRight_eq_div_pow]
        rw [Res.bind_ok]
        apply ih _ _ _ hn
        · rw [e, Nat.div_lt_iff_lt_mul (by omega)]; rw [Nat.pow_succ] at hv; omega
        · rw [e, List.length_set]; simp at ho; omega
      · rfl

/-- A varint has a terminating byte. -/
theorem Spec.Leb.exists_last {bs : Bytes} (h : Leb bs) : ∃ b ∈ bs, b.toNat < 128 := by
  induction h with
  | last b hb => exact ⟨b, by simp, (u8_lt128 b).1 hb⟩
  | more b bs _ _ ih =>
    obtain ⟨c, hc, hb⟩ := ih
    exact ⟨c, by simp [hc], hb⟩

/-- `leb` gives the shortest base-128 representation. -/
theorem leb_minimal : ∀ (k n : Nat) (bs : Bytes), Leb bs → varintValue bs = n → (leb k n).length ≤ bs.length := by
  intro k
  induction k with
  | zero => intro n bs _ _; simp [leb]
  | succ k ih =>
    intro n bs hl hv
    rw [leb]
    split
    · have := hl.length_pos; simpa using this
    · rename_i hn
      cases hl with
      | last b hb =>
        simp [varintValue] at hv
        have : b.toNat < 128 := (u8_lt128 b).1 hb
        omega
      | more b bs hb hl =>
        simp only [varintValue] at hv
        have := ih (n / 128) bs hl (by omega)
        simpa using this

theorem varint_minimal (n : Nat) (bs : Bytes) (h : IsVarint n bs) : (varint n).length ≤ bs.length :=
  leb_minimal 10 n bs h.shape h.value

end Vtp
