import Verif.Model.Helpers
import Verif.Spec.Wire
import Mathlib.Tactic.Ring
import Mathlib.Tactic.Linarith
import Mathlib.Tactic.ByContra
/-! Lemmas on varint encoding and decoding. -/

namespace Vtp
open Spec

theorem ofNat_or_shift (w a b s : Nat) (h : a < 2 ^ s) :
    (BitVec.ofNat w a ||| (BitVec.ofNat w b <<< s)) = BitVec.ofNat w (a + 2 ^ s * b) := by
  have h1 : BitVec.ofNat w b <<< s = BitVec.ofNat w (2 ^ s * b) := by
    apply BitVec.eq_of_toNat_eq
    simp [Nat.shiftLeft_eq, Nat.mul_comm]
  rw [h1, ← BitVec.ofNat_or, Nat.or_comm, ← Nat.two_pow_add_eq_or_of_lt h, Nat.add_comm]

theorem u8_and_7f (b : UInt8) : (b &&& 0x7f).toNat = b.toNat % 128 := by
  have : (0x7f : UInt8).toNat = 2 ^ 7 - 1 := rfl
  rw [UInt8.toNat_and, this, Nat.and_two_pow_sub_one_eq_mod]

theorem varintValue_lt (bs : Bytes) : varintValue bs < 2 ^ (7 * bs.length) := by
  induction bs with
  | nil => simp [varintValue]
  | cons b bs ih =>
    simp only [varintValue, List.length_cons, Nat.mul_add, Nat.pow_add]
    have := Nat.mod_lt b.toNat (show 0 < 128 by omega)
    omega

theorem getElem?_of_drop {α : Type} {l : List α} {i : Nat} {a : α} {r : List α} (h : l.drop i = a :: r) :
    l[i]? = some a ∧ i < l.length ∧ l.drop (i + 1) = r := by
  have h0 : i < l.length := by
    by_contra hc
    rw [List.drop_eq_nil_of_le (by omega)] at h
    simp at h
  refine ⟨?_, h0, ?_⟩
  · have := congrArg (·[0]?) h
    simpa using this
  · have := congrArg (List.drop 1) h
    simpa [List.drop_drop, Nat.add_comm] using this

theorem u8_lt128 (b : UInt8) : b < 0x80 ↔ b.toNat < 128 := by
  rw [UInt8.lt_iff_toNat_lt]; rfl

/-- One step of the decoding loop. -/
theorem decodeVarintLoop_step (w : Nat) (d : Bytes) (n k i a : Nat) (b : UInt8) (hk : k ≤ 9)
    (hb : d[i]? = some b) (ha : a < 2 ^ (7 * k)) :
    decodeVarintLoop w d (n + 1) (7 * k) i (BitVec.ofNat w a) =
      if b.toNat < 128 then .ok (BitVec.ofNat w (a + 2 ^ (7 * k) * b.toNat), i + 1)
      else decodeVarintLoop w d n (7 * (k + 1)) (i + 1) (BitVec.ofNat w (a + 2 ^ (7 * k) * (b.toNat % 128))) := by
  have hi : i < d.length := by
    rw [List.getElem?_eq_some_iff] at hb; exact hb.1
  rw [decodeVarintLoop.eq_2, if_neg (by omega), if_neg (by omega), hb]
  simp only [u8_and_7f, ofNat_or_shift w a _ _ ha, u8_lt128]
  split
  · rename_i h; rw [Nat.mod_eq_of_lt h]
  · rfl

theorem decodeVarintLoop_spec (w : Nat) (d : Bytes) (bs rest : Bytes) (hl : Leb bs) :
    ∀ (n k i a : Nat), bs.length + k ≤ 10 → bs.length ≤ n → a < 2 ^ (7 * k) → d.drop i = bs ++ rest →
      decodeVarintLoop w d n (7 * k) i (BitVec.ofNat w a) =
        .ok (BitVec.ofNat w (a + 2 ^ (7 * k) * varintValue bs), i + bs.length) := by
  induction hl with
  | last b hb =>
    intro n k i a hk hn ha hd
    simp at hk hn
    obtain ⟨n, rfl⟩ : ∃ m, n = m + 1 := ⟨n - 1, by omega⟩
    have hd' := getElem?_of_drop hd
    rw [decodeVarintLoop_step w d n k i a b (by omega) hd'.1 ha, if_pos ((u8_lt128 b).1 hb)]
    have := (u8_lt128 b).1 hb
    simp [varintValue, Nat.mod_eq_of_lt this]
  | more b bs hb hl ih =>
    intro n k i a hk hn ha hd
    simp at hk hn
    obtain ⟨n, rfl⟩ : ∃ m, n = m + 1 := ⟨n - 1, by omega⟩
    have hd' := getElem?_of_drop hd
    have hb' : ¬ b.toNat < 128 := by
      rw [← u8_lt128]; exact UInt8.not_lt.2 hb
    rw [decodeVarintLoop_step w d n k i a b (by omega) hd'.1 ha, if_neg hb']
    rw [ih n (k+1) (i+1) _ (by omega) (by omega) ?_ hd'.2.2]
    · simp only [varintValue, List.length_cons]
      congr 2
      · congr 1
        rw [show 7 * (k+1) = 7 * k + 7 by omega, Nat.pow_add]
        ring
      · omega
    · rw [show 7 * (k+1) = 7 * k + 7 by omega, Nat.pow_add]
      have := Nat.mod_lt b.toNat (show 0 < 128 by omega)
      have h2 : 2 ^ (7*k) * (b.toNat % 128) ≤ 2 ^ (7*k) * 127 := Nat.mul_le_mul_left _ (by omega)
      omega

/-- Decoding a varint of at most ten bytes gives its value truncated to the width
of the destination. -/
theorem decodeVarint_of_leb (w : Nat) (d bs rest : Bytes) (i : Nat) (hl : Leb bs) (hs : bs.length ≤ 10)
    (hd : d.drop i = bs ++ rest) :
    decodeVarint w d i = .ok (BitVec.ofNat w (varintValue bs), i + bs.length) := by
  have := decodeVarintLoop_spec w d bs rest hl 11 0 i 0 (by omega) (by omega) (by simp) hd
  simpa [decodeVarint] using this

/-- Everything the decoding loop can do. -/
theorem decodeVarintLoop_cases (w : Nat) (d : Bytes) :
    ∀ (n k i a : Nat), n + k = 11 → k ≤ 10 → a < 2 ^ (7 * k) → i ≤ d.length →
      (∃ bs, Leb bs ∧ bs.length + k ≤ 10 ∧ d.drop i = bs ++ d.drop (i + bs.length) ∧ i + bs.length ≤ d.length ∧
        decodeVarintLoop w d n (7 * k) i (BitVec.ofNat w a) =
          .ok (BitVec.ofNat w (a + 2 ^ (7 * k) * varintValue bs), i + bs.length)) ∨
      ((∀ b ∈ d.drop i, 128 ≤ b.toNat) ∧ (d.drop i).length + k < 10 ∧
        decodeVarintLoop w d n (7 * k) i (BitVec.ofNat w a) = .err .unexpectedEOF) ∨
      ((∀ b ∈ (d.drop i).take (10 - k), 128 ≤ b.toNat) ∧ 10 - k ≤ (d.drop i).length ∧
        decodeVarintLoop w d n (7 * k) i (BitVec.ofNat w a) = .err .intOverflow) := by
  intro n
  induction n with
  | zero =>
    intro k i a hk hk10 ha hi
    omega
  | succ n ih =>
    intro k i a hk _ ha hi
    by_cases hk10 : k = 10
    · right; right
      subst hk10
      refine ⟨by simp, by simp, ?_⟩
      rw [decodeVarintLoop.eq_2, if_pos (by omega)]
    by_cases hlt : i < d.length
    swap
    · right; left
      rw [List.drop_eq_nil_of_le (by omega)]
      refine ⟨by simp, by simp; omega, ?_⟩
      rw [decodeVarintLoop.eq_2, if_neg (by omega), if_pos (by omega)]
    have hb : d[i]? = some d[i] := List.getElem?_eq_getElem hlt
    have hdrop : d.drop i = d[i] :: d.drop (i+1) := List.drop_eq_getElem_cons hlt
    rw [decodeVarintLoop_step w d n k i a d[i] (by omega) hb ha]
    by_cases hbl : d[i].toNat < 128
    · left
      refine ⟨[d[i]], .last _ ((u8_lt128 _).2 hbl), by simp; omega, by simp, by simp; omega, ?_⟩
      simp [if_pos hbl, varintValue, Nat.mod_eq_of_lt hbl]
    · rw [if_neg hbl]
      have ha' : a + 2 ^ (7 * k) * (d[i].toNat % 128) < 2 ^ (7 * (k + 1)) := by
        rw [show 7 * (k+1) = 7 * k + 7 by omega, Nat.pow_add]
        have := Nat.mod_lt d[i].toNat (show 0 < 128 by omega)
        have h2 : 2 ^ (7*k) * (d[i].toNat % 128) ≤ 2 ^ (7*k) * 127 := Nat.mul_le_mul_left _ (by omega)
        omega
      have hge : 128 ≤ d[i] := by
        rw [UInt8.le_iff_toNat_le]; simpa using hbl
      rcases ih (k+1) (i+1) _ (by omega) (by omega) ha' (by omega) with ⟨bs, h1, h2, h3, h4, h5⟩ | ⟨h1, h2, h3⟩ | ⟨h1, h2, h3⟩
      · left
        refine ⟨d[i] :: bs, .more _ _ hge h1, by simp; omega, ?_, by simp; omega, ?_⟩
        · rw [hdrop, h3]; simp [Nat.add_assoc, Nat.add_comm 1]
        · rw [h5]
          simp only [varintValue, List.length_cons]
          congr 2
          · congr 1
            rw [show 7 * (k+1) = 7 * k + 7 by omega, Nat.pow_add]
            ring
          · omega
      · right; left
        refine ⟨?_, ?_, h3⟩
        · rw [hdrop]; simp only [List.mem_cons, forall_eq_or_imp]; exact ⟨by omega, h1⟩
        · rw [hdrop]; simp only [List.length_cons]; omega
      · right; right
        refine ⟨?_, ?_, h3⟩
        · rw [hdrop, show 10 - k = (10 - (k+1)) + 1 by omega]
          simp only [List.take_succ_cons, List.mem_cons, forall_eq_or_imp]; exact ⟨by omega, h1⟩
        · rw [hdrop]; simp only [List.length_cons]; omega

end Vtp

namespace Vtp
open Spec

/-- Everything `decodeVarint` can do: a varint of at most ten bytes, end of input
inside a varint, or ten continuation bytes. -/
theorem decodeVarint_cases (w : Nat) (d : Bytes) (i : Nat) (hi : i ≤ d.length) :
    (∃ bs, Leb bs ∧ bs.length ≤ 10 ∧ d.drop i = bs ++ d.drop (i + bs.length) ∧ i + bs.length ≤ d.length ∧
        decodeVarint w d i = .ok (BitVec.ofNat w (varintValue bs), i + bs.length)) ∨
      ((∀ b ∈ d.drop i, 128 ≤ b.toNat) ∧ (d.drop i).length < 10 ∧ decodeVarint w d i = .err .unexpectedEOF) ∨
      ((∀ b ∈ (d.drop i).take 10, 128 ≤ b.toNat) ∧ 10 ≤ (d.drop i).length ∧
        decodeVarint w d i = .err .intOverflow) := by
  have := decodeVarintLoop_cases w d 11 0 i 0 (by omega) (by omega) (by simp) hi
  simpa [decodeVarint] using this

theorem Spec.Leb.length_pos {bs : Bytes} (h : Leb bs) : 1 ≤ bs.length := by cases h <;> simp

theorem decodeVarint_ok (w : Nat) (d : Bytes) (i : Nat) (hi : i ≤ d.length) {v : BitVec w} {j : Nat}
    (h : decodeVarint w d i = .ok (v, j)) :
    ∃ bs, Leb bs ∧ bs.length ≤ 10 ∧ d.drop i = bs ++ d.drop j ∧ j = i + bs.length ∧ j ≤ d.length ∧
      v = BitVec.ofNat w (varintValue bs) := by
  rcases decodeVarint_cases w d i hi with ⟨bs, h1, h2, h3, h4, h5⟩ | ⟨_, _, h5⟩ | ⟨_, _, h5⟩
  · rw [h5] at h
    simp only [Res.ok.injEq, Prod.mk.injEq] at h
    obtain ⟨rfl, rfl⟩ := h
    exact ⟨bs, h1, h2, h3, rfl, h4, rfl⟩
  · rw [h5] at h; cases h
  · rw [h5] at h; cases h

theorem decodeVarint_ok_lt (w : Nat) (d : Bytes) (i : Nat) (hi : i ≤ d.length) {v : BitVec w} {j : Nat}
    (h : decodeVarint w d i = .ok (v, j)) : i < j ∧ j ≤ d.length := by
  obtain ⟨bs, h1, _, _, rfl, h4, _⟩ := decodeVarint_ok w d i hi h
  have := h1.length_pos
  omega

/-- The decoder never panics or diverges. -/
theorem decodeVarint_returns (w : Nat) (d : Bytes) (i : Nat) (hi : i ≤ d.length) :
    (∃ v j, decodeVarint w d i = .ok (v, j) ∧ i < j ∧ j ≤ d.length) ∨
      ∃ e, decodeVarint w d i = .err e := by
  rcases decodeVarint_cases w d i hi with ⟨bs, h1, _, _, h4, h5⟩ | ⟨_, _, h5⟩ | ⟨_, _, h5⟩
  · have := h1.length_pos
    exact .inl ⟨_, _, h5, by omega, h4⟩
  · exact .inr ⟨_, h5⟩
  · exact .inr ⟨_, h5⟩

/-! ### Canonical encoding -/

theorem leb_length_pos (k n : Nat) (hk : 0 < k) : 1 ≤ (leb k n).length := by
  cases k with
  | zero => omega
  | succ k => rw [leb]; split <;> simp

theorem leb_shape (k n : Nat) (h : n < 128 ^ k) (hk : 0 < k) : Leb (leb k n) := by
  induction k generalizing n with
  | zero => omega
  | succ k ih =>
    rw [leb]
    split
    · rename_i h'
      exact .last _ (by rw [UInt8.lt_iff_toNat_lt]; simp; omega)
    · rename_i h'
      have hk' : 0 < k := by
        rcases Nat.eq_zero_or_pos k with rfl | h0
        · simp at h; omega
        · exact h0
      refine .more _ _ ?_ (ih _ ?_ hk')
      · rw [UInt8.le_iff_toNat_le]; simp; omega
      · rw [Nat.pow_succ] at h
        exact Nat.div_lt_of_lt_mul (by omega)

theorem leb_value (k n : Nat) (h : n < 128 ^ k) : varintValue (leb k n) = n := by
  induction k generalizing n with
  | zero => simp at h; subst h; rfl
  | succ k ih =>
    rw [leb]
    split
    · rename_i h'
      simp [varintValue]
      omega
    · rename_i h'
      simp only [varintValue]
      rw [ih]
      · simp; omega
      · rw [Nat.pow_succ] at h
        exact Nat.div_lt_of_lt_mul (by omega)

theorem leb_length_le (k n : Nat) : (leb k n).length ≤ k := by
  induction k generalizing n with
  | zero => simp [leb]
  | succ k ih => rw [leb]; split <;> simp [ih]

theorem varint_shape (n : Nat) (h : n < 2 ^ 64) : Leb (varint n) :=
  leb_shape 10 n (by omega) (by omega)

theorem varint_value (n : Nat) (h : n < 2 ^ 64) : varintValue (varint n) = n :=
  leb_value 10 n (by omega)

theorem varint_length_le (n : Nat) : (varint n).length ≤ 10 := leb_length_le 10 n

theorem varint_isVarint (n : Nat) (h : n < 2 ^ 64) : IsVarint n (varint n) :=
  ⟨varint_shape n h, varint_length_le n, varint_value n h, h⟩

theorem varint_length_pos (n : Nat) : 1 ≤ (varint n).length := leb_length_pos 10 n (by omega)

/-- Number of base-128 digits, by logarithm. -/
theorem leb_length (k n : Nat) (h : n < 128 ^ k) (hk : 0 < k) :
    (leb k n).length = (if n = 0 then 1 else (n.log2 + 7) / 7) := by
  induction k generalizing n with
  | zero => omega
  | succ k ih =>
    rw [leb]
    split
    · rename_i h'
      by_cases hn : n = 0
      · simp [hn]
      · have h2 : n.log2 < 7 := (Nat.log2_lt hn).2 (by omega)
        simp [hn]; omega
    · rename_i h'
      have hk' : 0 < k := by
        rcases Nat.eq_zero_or_pos k with rfl | h0
        · simp at h; omega
        · exact h0
      rw [List.length_cons, ih _ (by rw [Nat.pow_succ] at h; exact Nat.div_lt_of_lt_mul (by omega)) hk']
      have hn : n ≠ 0 := by omega
      have hd : n / 128 ≠ 0 := by omega
      have hl : n.log2 = (n / 128).log2 + 7 := by
        rw [Nat.log2_eq_iff hn]
        have h1 := (Nat.log2_eq_iff hd (k := (n/128).log2)).1 rfl
        rw [Nat.pow_add, show (n/128).log2 + 7 + 1 = ((n/128).log2 + 1) + 7 by omega, Nat.pow_add 2 (_ + 1) 7]
        omega
      simp [hn, hd]
      omega

theorem or_one_log2 (x : Nat) : (x ||| 1) ≠ 0 ∧ (x ||| 1).log2 = if x = 0 then 0 else x.log2 := by
  have h0 : (x ||| 1) ≠ 0 := by
    intro h; have := Nat.or_eq_zero_iff.1 h; omega
  refine ⟨h0, ?_⟩
  split
  · rename_i h; subst h; rfl
  · rename_i hx
    rw [Nat.log2_eq_iff h0]
    have h1 := (Nat.log2_eq_iff hx (k := x.log2)).1 rfl
    constructor
    · exact Nat.le_trans h1.1 Nat.left_le_or
    · exact Nat.or_lt_two_pow h1.2 (Nat.one_lt_two_pow (by omega))

/-- `SizeOfVarint` is the length of the minimal encoding. -/
theorem sizeOfVarint_eq (x : BitVec 64) : sizeOfVarint x = (varint x.toNat).length := by
  rw [varint, leb_length 10 _ (by have := x.isLt; omega) (by omega)]
  have h := or_one_log2 x.toNat
  simp only [sizeOfVarint, len64, BitVec.toNat_or, show (1 : BitVec 64).toNat = 1 from rfl, h.1, h.2, if_false]
  split
  · rfl
  · simp [Nat.add_assoc]

theorem sizeOfVarint_pos (x : BitVec 64) : 1 ≤ sizeOfVarint x := by
  rw [sizeOfVarint_eq]; exact varint_length_pos _

/-! ### Writing -/

/-- The buffer after replacing the bytes from `i` on by `bs`. -/
def splice (buf : Bytes) (i : Nat) (bs : Bytes) : Bytes :=
  buf.take i ++ bs ++ buf.drop (i + bs.length)

theorem splice_length (buf : Bytes) (i : Nat) (bs : Bytes) (h : i + bs.length ≤ buf.length) :
    (splice buf i bs).length = buf.length := by
  simp [splice]; omega

theorem set_eq_splice (buf : Bytes) (i : Nat) (b : UInt8) (h : i < buf.length) :
    buf.set i b = splice buf i [b] := by
  rw [List.set_eq_take_append_cons_drop, if_pos h]; simp [splice]

theorem splice_splice (buf : Bytes) (i : Nat) (a c : Bytes) (h : i + a.length + c.length ≤ buf.length) :
    splice (splice buf i a) (i + a.length) c = splice buf i (a ++ c) := by
  have h1 : (buf.take i).length = i := by simp; omega
  have e1 : (splice buf i a).take (i + a.length) = buf.take i ++ a := by
    unfold splice
    rw [List.take_append_of_le_length (by simp; omega), List.take_of_length_le (by simp)]
  have e2 : (splice buf i a).drop (i + a.length + c.length) = buf.drop (i + (a ++ c).length) := by
    unfold splice
    rw [List.drop_append, List.drop_eq_nil_of_le (by simp; omega), List.drop_drop]
    simp only [List.nil_append, List.length_append, h1]
    congr 1; omega
  rw [splice, e1, e2, splice]
  simp

theorem splice_nil (buf : Bytes) (i : Nat) : splice buf i [] = buf := by simp [splice]

theorem putByte_nat (buf : Bytes) (i : Nat) (b : UInt8) (h : i < buf.length) :
    putByte buf i b = .ok (splice buf i [b]) := by
  rw [putByte, if_pos ⟨by omega, by omega⟩, Int.toNat_natCast, set_eq_splice _ _ _ h]

theorem bv_low_byte (v : BitVec 64) : UInt8.ofBitVec (v.setWidth 8) = UInt8.ofNat v.toNat := by
  apply UInt8.toNat_inj.1; simp

theorem bv_cont_byte (v : BitVec 64) :
    UInt8.ofBitVec ((v &&& 0x7f ||| 0x80).setWidth 8) = UInt8.ofNat (v.toNat % 128 + 128) := by
  apply UInt8.toNat_inj.1
  have h1 : (0x7f : BitVec 64).toNat = 2 ^ 7 - 1 := rfl
  have h2 : (0x80 : BitVec 64).toNat = 2 ^ 7 * 1 := rfl
  simp only [UInt8.toNat_ofBitVec, BitVec.toNat_setWidth, BitVec.toNat_or, BitVec.toNat_and, h1, h2,
    Nat.and_two_pow_sub_one_eq_mod]
  rw [Nat.or_comm, ← Nat.two_pow_add_eq_or_of_lt (Nat.mod_lt _ (by omega))]
  simp; omega

theorem encodeVarintLoop_spec : ∀ (n : Nat) (buf : Bytes) (off : Nat) (v : BitVec 64),
    0 < n → v.toNat < 128 ^ n → off + (leb n v.toNat).length ≤ buf.length →
    encodeVarintLoop n buf off v = .ok (splice buf off (leb n v.toNat)) := by
  intro n
  induction n with
  | zero => intro _ _ _ h; omega
  | succ n ih =>
    intro buf off v _ hv hl
    rw [encodeVarintLoop]
    rw [leb] at hl ⊢
    by_cases h : v.toNat < 128
    · rw [if_neg (by omega), if_pos h, bv_low_byte]
      rw [if_pos h] at hl
      simp at hl
      exact putByte_nat _ _ _ (by omega)
    · rw [if_pos (by omega), if_neg h, bv_cont_byte]
      rw [if_neg h] at hl
      simp at hl
      rw [putByte_nat _ _ _ (by omega), Res.bind_ok]
      have hs : (v >>> 7).toNat = v.toNat / 128 := by simp [Nat.shiftRight_eq_div_pow]
      have hn : 0 < n := by
        rcases Nat.eq_zero_or_pos n with rfl | h0
        · simp at hv; omega
        · exact h0
      have hlen : (splice buf off [UInt8.ofNat (v.toNat % 128 + 128)]).length = buf.length :=
        splice_length _ _ _ (by simp; omega)
      have := ih (splice buf off [UInt8.ofNat (v.toNat % 128 + 128)]) (off + 1) (v >>> 7) hn
        (by rw [hs]; rw [Nat.pow_succ] at hv; exact Nat.div_lt_of_lt_mul (by omega))
        (by rw [hs, hlen]; omega)
      rw [show ((off : Int) + 1) = ((off + 1 : Nat) : Int) by omega, this, hs]
      rw [show off + 1 = off + [UInt8.ofNat (v.toNat % 128 + 128)].length by simp, splice_splice _ _ _ _ (by simp; omega)]
      rfl

theorem encodeVarintLoop_panics : ∀ (n : Nat) (buf : Bytes) (off : Int) (v : BitVec 64),
    0 < n → off < 0 → encodeVarintLoop n buf off v = .panic .indexOutOfRange := by
  intro n buf off v hn ho
  cases n with
  | zero => omega
  | succ n =>
    rw [encodeVarintLoop]
    split
    · rw [putByte, if_neg (by omega)]; rfl
    · rw [putByte, if_neg (by omega)]

/-- `EncodeVarint` when the bytes before `off` suffice. -/
theorem encodeVarint_spec (buf : Bytes) (off : Nat) (v : BitVec 64)
    (h1 : off ≤ buf.length) (h2 : (varint v.toNat).length ≤ off) :
    encodeVarint buf off v =
      .ok (splice buf (off - (varint v.toNat).length) (varint v.toNat), ((off - (varint v.toNat).length : Nat) : Int)) := by
  have e : (off : Int) - (sizeOfVarint v : Nat) = ((off - (varint v.toNat).length : Nat) : Int) := by
    rw [sizeOfVarint_eq]; omega
  rw [encodeVarint, e, encodeVarintLoop_spec 10 _ _ _ (by omega) (by have := v.isLt; omega)]
  · rfl
  · show off - (varint v.toNat).length + (varint v.toNat).length ≤ _
    omega

theorem encodeVarint_short (buf : Bytes) (off : Nat) (v : BitVec 64) (h2 : off < (varint v.toNat).length) :
    encodeVarint buf off v = .panic .indexOutOfRange := by
  rw [encodeVarint]
  simp only [sizeOfVarint_eq]
  rw [encodeVarintLoop_panics 10 _ _ _ (by omega) (by omega)]
  rfl

end Vtp
