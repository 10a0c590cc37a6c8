import Verif.Spec.Decode
import Verif.Lemmas.UM
import Verif.Lemmas.Zigzag
import Verif.Lemmas.Schema
/-! Reading tags and payloads of well-formed records. -/

namespace Vtp
open Spec

/-- Wire type of a payload. -/
def payloadType : Payload → Nat
  | .varint _ => 0
  | .i64 _ => 1
  | .len _ => 2
  | .group _ => 3
  | .i32 _ => 5

/-- What follows the tag of a record. -/
inductive Tail (num : Nat) : Payload → Bytes → Prop
  | varint {v : Nat} {bs : Bytes} : IsVarint v bs → Tail num (.varint v) bs
  | i64 {bs : Bytes} : bs.length = 8 → Tail num (.i64 bs) bs
  | len {lb bs : Bytes} : IsVarint bs.length lb → Tail num (.len bs) (lb ++ bs)
  | group {body etag : Bytes} : IsRecords body → IsVarint (num * 8 + 4) etag → Tail num (.group body) (body ++ etag)
  | i32 {bs : Bytes} : bs.length = 4 → Tail num (.i32 bs) bs

theorem Spec.IsRecord.split {num : Nat} {p : Payload} {raw : Bytes} (h : IsRecord num p raw) :
    ValidNum num ∧ ∃ tag bs, raw = tag ++ bs ∧ IsVarint (num * 8 + payloadType p) tag ∧ Tail num p bs := by
  cases h with
  | varint _ v tag bs h1 h2 h3 => exact ⟨h1, tag, bs, rfl, h2, .varint h3⟩
  | i64 _ tag bs h1 h2 h3 => exact ⟨h1, tag, bs, rfl, h2, .i64 h3⟩
  | len _ tag lb bs h1 h2 h3 => exact ⟨h1, tag, _, rfl, h2, .len h3⟩
  | group _ tag body etag h1 h2 h3 h4 => exact ⟨h1, tag, _, rfl, h2, .group h3 h4⟩
  | i32 _ tag bs h1 h2 h3 => exact ⟨h1, tag, bs, rfl, h2, .i32 h3⟩

theorem drop_add {d a b : Bytes} {i : Nat} (h : d.drop i = a ++ b) : d.drop (i + a.length) = b := by
  rw [← List.drop_drop, h]; simp

theorem le_of_drop {d a b : Bytes} {i : Nat} (h : d.drop i = a ++ b) (hi : i ≤ d.length) : i + a.length ≤ d.length := by
  have := congrArg List.length h
  simp at this; omega

theorem decodeVarint_isVarint {v : Nat} {bs rest d : Bytes} {i : Nat} (h : IsVarint v bs) (w : Nat) (hd : d.drop i = bs ++ rest) :
    decodeVarint w d i = .ok (BitVec.ofNat w v, i + bs.length) := by
  rw [decodeVarint_of_leb w d bs rest i h.shape h.short hd, h.value]

/-- What the decoder makes of a tag. -/
theorem tag_bits {num wt : Nat} (hn : ValidNum num) (hw : wt < 8) :
    (BitVec.ofNat 64 (num * 8 + wt) &&& 7).toNat = wt ∧
    ((BitVec.ofNat 64 (num * 8 + wt) >>> 3).setWidth 32 : BitVec 32) = BitVec.ofNat 32 num ∧
    (BitVec.ofNat 32 num).toInt = num ∧ (BitVec.ofNat 32 num).toNat = num := by
  obtain ⟨h1, h2⟩ := hn
  refine ⟨?_, ?_, ?_, ?_⟩
  · rw [bv_and7, BitVec.toNat_ofNat]; omega
  · apply BitVec.eq_of_toNat_eq
    simp only [BitVec.toNat_setWidth, BitVec.toNat_ushiftRight, BitVec.toNat_ofNat, Nat.shiftRight_eq_div_pow]
    omega
  · rw [BitVec.toInt_eq_toNat_cond, BitVec.toNat_ofNat]
    split <;> omega
  · rw [BitVec.toNat_ofNat]; omega

section
variable {A : Arch}

/-- Reading a length-delimited payload. -/
theorem readSpan_len (hA : A.Valid) {w : Nat} (hw : w = 64 ∨ w = A.bits) {d lb bs rest : Bytes} {i : Nat} (hF : A.Fits d.length)
    (hi : i ≤ d.length) (h : IsVarint bs.length lb) (hd : d.drop i = (lb ++ bs) ++ rest) :
    readSpan A w d i = .ok (i + lb.length, i + (lb ++ bs).length) := by
  have hle := le_of_drop hd hi
  have hd' : d.drop i = lb ++ (bs ++ rest) := by rw [hd, List.append_assoc]
  have hb := hA.pos
  have hp : bs.length < 2 ^ (A.bits - 1) := by unfold Arch.Fits at hF; simp at hle; omega
  have hp2 := two_pow_pred (n := A.bits) (by omega)
  have hA64 : A.bits ≤ 64 := by rcases hA with h | h <;> omega
  have hpw : bs.length < 2 ^ (w - 1) := by
    rcases hw with rfl | rfl
    · exact Nat.lt_of_lt_of_le hp (Nat.pow_le_pow_right (by omega) (by omega))
    · exact hp
  have hpw2 : 2 ^ w = 2 * 2 ^ (w - 1) := two_pow_pred (by rcases hw with rfl | rfl <;> omega)
  have hint : (BitVec.ofNat w bs.length).toInt = bs.length := by
    rw [BitVec.toInt_eq_toNat_cond, BitVec.toNat_ofNat, Nat.mod_eq_of_lt (by omega)]
    split <;> omega
  unfold readSpan
  rw [decodeVarint_isVarint h w hd']
  simp only [Res.bind_ok, hint]
  unfold Arch.Fits at hF
  simp only [List.length_append] at hle
  rw [Arch.wrap_small hA (bs.length : Int) (by omega) (by omega)]
  rw [if_neg (by omega)]
  rw [Arch.wrap_small hA _ (by omega) (by omega)]
  rw [if_neg (by omega), if_neg (by omega)]
  simp only [Res.ok.injEq, Prod.mk.injEq, List.length_append, true_and]
  omega

theorem slice_len {d lb bs rest : Bytes} {i : Nat} (hi : i ≤ d.length) (hd : d.drop i = (lb ++ bs) ++ rest) :
    slice d (i + lb.length) (i + (lb ++ bs).length) = .ok bs := by
  have hle := le_of_drop hd hi
  rw [slice_all (by simp) hle]
  have : d.drop (i + lb.length) = bs ++ rest := drop_add (by rw [hd, List.append_assoc])
  rw [this, show i + (lb ++ bs).length - (i + lb.length) = bs.length by simp; omega]
  simp

theorem fromLE_eq (bs : Bytes) : fromLE bs = leValue bs := by
  induction bs with
  | nil => rfl
  | cons b bs ih => simp [fromLE, leValue, ih]

theorem leValue_lt (bs : Bytes) : leValue bs < 256 ^ bs.length := by
  induction bs with
  | nil => simp [leValue]
  | cons b bs ih =>
    have := b.toNat_lt
    simp only [leValue, List.length_cons, Nat.pow_succ]
    omega

theorem decodeFixed_of {d bs rest : Bytes} {i : Nat} (hA : A.Valid) (hF : A.Fits d.length) (hi : i ≤ d.length) (hd : d.drop i = bs ++ rest) :
    decodeFixed A bs.length d i = .ok (leValue bs, i + bs.length) := by
  have hle := le_of_drop hd hi
  unfold Arch.Fits at hF
  unfold decodeFixed
  rw [Arch.wrap_small hA _ (by omega) (by omega), if_neg (by omega), if_pos hle, hd]
  simp

theorem low32_eq (v : Nat) : BitVec.ofInt 64 (low32 v) = (BitVec.ofNat 32 v).signExtend 64 := by
  rw [BitVec.signExtend]
  congr 1
  unfold low32
  rw [BitVec.toInt_eq_toNat_cond, BitVec.toNat_ofNat]
  split <;> split <;> simp <;> omega

theorem unzigzag32_value (v : Nat) : (unzigzag32 (BitVec.ofNat 32 v)).signExtend 64 = BitVec.ofInt 64 (unzigzag (v % 2 ^ 32)) := by
  rw [BitVec.signExtend, unzigzag32_toInt, BitVec.toNat_ofNat]

theorem unzigzag64_value {v : Nat} (h : v < 2 ^ 64) : unzigzag64 (BitVec.ofNat 64 v) = BitVec.ofInt 64 (unzigzag v) := by
  apply BitVec.eq_of_toInt_eq
  have h1 := unzigzag64_toInt (BitVec.ofNat 64 v)
  rw [BitVec.toNat_ofNat, Nat.mod_eq_of_lt h] at h1
  have h2 : BitVec.ofInt 64 (unzigzag64 (BitVec.ofNat 64 v)).toInt = unzigzag64 (BitVec.ofNat 64 v) := BitVec.ofInt_toInt
  rw [← h1, h2]

/-- Reading a number. -/
theorem readNum_value (hA : A.Valid) {k : Kind} (h64 : A.bits = 64 ∨ k ≠ .bool) {p : Payload} {bs rest d : Bytes} {i : Nat} (hF : A.Fits d.length) (hi : i ≤ d.length)
    (hp : PackedItem p bs) {v : Val} (hv : scalarValue k p = some v) (hd : d.drop i = bs ++ rest) :
    ∃ n, v = .num n ∧ readNum A k d i = .ok (n, i + bs.length) := by
  cases hp with
  | @varint x _ hx =>
    simp only [scalarValue] at hv
    split at hv
    · rename_i hk
      simp only [Option.some.injEq] at hv
      refine ⟨_, hv.symm, ?_⟩
      have hx64 := hx.small
      cases k <;> simp [wireType] at hk <;> simp only [readNum, decodeVarint_isVarint hx _ hd, Res.bind_ok, varintNum, low32_eq, id, unzigzag32_value,
        unzigzag64_value hx.small]
      · have h64 : A.bits = 64 := h64.resolve_right (by simp)
        congr 2
        rw [h64]
        simp only [← BitVec.toNat_inj, BitVec.toNat_ofNat, Nat.mod_eq_of_lt hx64]
        simp
      · congr 2
        apply BitVec.eq_of_toNat_eq
        simp
    · simp at hv
  | i64 hl =>
    simp only [scalarValue] at hv
    split at hv
    · rename_i hk
      simp only [Option.some.injEq] at hv
      refine ⟨_, hv.symm, ?_⟩
      have := decodeFixed_of hA hF hi hd
      rw [hl] at this
      cases k <;> simp [wireType] at hk <;> simp only [readNum, this, Res.bind_ok, fromLE_eq, hl]
    · simp at hv
  | i32 hl =>
    simp only [scalarValue] at hv
    split at hv
    · rename_i hk
      simp only [Option.some.injEq] at hv
      refine ⟨_, hv.symm, ?_⟩
      have := decodeFixed_of hA hF hi hd
      rw [hl] at this
      cases k <;> simp [wireType] at hk <;> simp [readNum, this, fromLE_eq, hl, low32_eq]
    · simp at hv

end

end Vtp
