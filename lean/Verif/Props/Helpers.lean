import Verif.Lemmas.Skip
import Verif.Lemmas.Zigzag
import Verif.Lemmas.Key
/-!
# Properties of the runtime helpers: C01-C09, C65
-/

namespace Vtp.Props
open Spec

/-! ## C01 -/

/-- C01. With room for the varint, `EncodeVarint` writes exactly the minimal encoding
just below `off`, touches nothing else, and returns the offset of its first byte. -/
theorem encodeVarint_writes (buf : Bytes) (off : Nat) (v : BitVec 64)
    (h1 : off ≤ buf.length) (h2 : sizeOfVarint v ≤ off) :
    ∃ buf', encodeVarint buf off v = .ok (buf', ((off - sizeOfVarint v : Nat) : Int)) ∧
      buf'.length = buf.length ∧
      buf'.take (off - sizeOfVarint v) = buf.take (off - sizeOfVarint v) ∧
      (buf'.drop (off - sizeOfVarint v)).take (sizeOfVarint v) = varint v.toNat ∧
      buf'.drop off = buf.drop off := by
  rw [sizeOfVarint_eq] at h2 ⊢
  refine ⟨_, encodeVarint_spec buf off v h1 h2, ?_⟩
  generalize varint v.toNat = w at *
  refine ⟨splice_length _ _ _ (by omega), ?_, ?_, ?_⟩
  · rw [splice, List.take_append_of_le_length (by simp; omega), List.take_append_of_le_length (by simp; omega)]
    rw [List.take_take, Nat.min_self]
  · rw [splice, List.append_assoc, List.drop_append_of_le_length (by simp; omega)]
    simp only [List.drop_take, Nat.sub_self, List.take_zero, List.nil_append]
    rw [List.take_append_of_le_length (by simp), List.take_of_length_le (by simp)]
  · rw [splice, show off - w.length + w.length = off by omega]
    rw [List.drop_append]
    simp
    rw [List.drop_eq_nil_of_le (by simp; omega), show off - (min (off - w.length) buf.length + w.length) = 0 by omega]
    simp

example : sizeOfVarint 300 ≤ 3 ∧ 3 ≤ ([0xaa, 0xbb, 0xcc, 0xdd] : Bytes).length ∧
    encodeVarint [0xaa, 0xbb, 0xcc, 0xdd] 3 300 = .ok ([0xaa, 0xac, 0x02, 0xdd], 1) := by decide

/-- C01. Without room (below or above), `EncodeVarint` panics. -/
theorem encodeVarint_no_room (buf : Bytes) (off : Int) (v : BitVec 64)
    (h : off < sizeOfVarint v ∨ (buf.length : Int) < off) : (encodeVarint buf off v).Panics := by
  have : encodeVarintLoop 10 buf (off - sizeOfVarint v) v = .panic .indexOutOfRange := by
    rcases h with h | h
    · exact encodeVarintLoop_panics 10 _ _ _ (by omega) (by omega)
    · refine encodeVarintLoop_over 10 _ _ _ (by omega) (by have := v.isLt; omega) ?_
      rw [sizeOfVarint_eq, varint]; omega
  rw [encodeVarint]
  simp only [this, Res.bind_panic]
  trivial

example : (encodeVarint [0xaa] 1 300).Panics ∧ (encodeVarint [0xaa] 2 5).Panics := by decide

/-- C01. The size is the number of base-128 digits, and no varint of `v` is shorter. -/
theorem sizeOfVarint_minimal (v : BitVec 64) :
    IsVarint v.toNat (varint v.toNat) ∧ sizeOfVarint v = (varint v.toNat).length ∧
      ∀ bs, IsVarint v.toNat bs → sizeOfVarint v ≤ bs.length := by
  refine ⟨varint_isVarint _ v.isLt, sizeOfVarint_eq v, fun bs h => ?_⟩
  rw [sizeOfVarint_eq]; exact varint_minimal _ _ h

/-! ## C02 -/

/-- C02. Writing a value with `EncodeVarint` anywhere in any buffer and decoding from the
returned offset gives the value back and stops where the encoding ends. -/
theorem decodeVarint_encodeVarint (buf : Bytes) (off : Nat) (v : BitVec 64)
    (h1 : off ≤ buf.length) (h2 : sizeOfVarint v ≤ off) :
    ∃ (buf' : Bytes) (base : Nat), encodeVarint buf off v = .ok (buf', (base : Int)) ∧
      decodeVarint 64 buf' base = .ok (v, off) := by
  rw [sizeOfVarint_eq] at h2
  refine ⟨_, _, encodeVarint_spec buf off v h1 h2, ?_⟩
  have hv := varint_value v.toNat v.isLt
  have hs := varint_shape v.toNat v.isLt
  have hl := varint_length_le v.toNat
  generalize varint v.toNat = w at *
  rw [decodeVarint_of_leb 64 _ w (buf.drop off) _ hs hl]
  · rw [hv, BitVec.ofNat_toNat, BitVec.setWidth_eq]
    congr 2; omega
  · rw [splice, List.append_assoc, List.drop_append_of_le_length (by simp; omega)]
    simp only [List.drop_take, Nat.sub_self, List.take_zero, List.nil_append]
    rw [show off - w.length + w.length = off by omega]

example : encodeVarint [1, 2, 3, 4] 3 300 = .ok ([1, 0xac, 0x02, 4], 1) ∧
    decodeVarint 64 [1, 0xac, 0x02, 4] 1 = .ok (300, 3) := by decide

/-! ## C03 -/

/-- C03. 64-bit zigzag: the code computes the zigzag map of the encoding document, the
decoder inverts it, and `SizeOfZigzag` is the length of the varint written. -/
theorem zigzag64_correct (x : BitVec 64) :
    (zigzag64 x).toNat = Spec.zigzag x.toInt ∧ unzigzag64 (zigzag64 x) = x ∧
      sizeOfZigzag x = (varint (Spec.zigzag x.toInt)).length :=
  ⟨zigzag64_toNat x, unzigzag64_zigzag64 x, by rw [sizeOfZigzag, sizeOfVarint_eq, zigzag64_toNat]⟩

/-- C03. 32-bit zigzag; the size is computed on the sign-extended value. -/
theorem zigzag32_correct (x : BitVec 32) :
    (zigzag32 x).toNat = Spec.zigzag x.toInt ∧ unzigzag32 (zigzag32 x) = x ∧
      sizeOfZigzag (x.signExtend 64) = (varint (Spec.zigzag x.toInt)).length := by
  refine ⟨zigzag32_toNat x, unzigzag32_zigzag32 x, ?_⟩
  rw [sizeOfZigzag_signExtend, sizeOfVarint_eq, BitVec.toNat_setWidth, zigzag32_toNat, Nat.mod_eq_of_lt]
  rw [← zigzag32_toNat]; have := (zigzag32 x).isLt; omega

/-- C03. The decoder is also right-inverted: every varint value is the zigzag of what it decodes to. -/
theorem unzigzag_correct (v : BitVec 64) (u : BitVec 32) :
    (unzigzag64 v).toInt = Spec.unzigzag v.toNat ∧ (unzigzag32 u).toInt = Spec.unzigzag u.toNat ∧
      Spec.zigzag (unzigzag64 v).toInt = v.toNat ∧ Spec.zigzag (unzigzag32 u).toInt = u.toNat := by
  rw [unzigzag64_toInt, unzigzag32_toInt]
  exact ⟨rfl, rfl, zigzag_unzigzag _, zigzag_unzigzag _⟩

example : zigzag32 (-3) = 5 ∧ unzigzag32 5 = -3 ∧ sizeOfZigzag (-65) = 2 := by decide

/-! ## C04 -/

/-- C04. A varint of up to ten bytes, minimal or not, decodes to its value modulo `2^w`
and the decoder stops after it, whatever surrounds it. -/
theorem decodeVarint_value (w : Nat) (pre bs post : Bytes) (h : Leb bs) (hs : bs.length ≤ 10) :
    decodeVarint w (pre ++ bs ++ post) pre.length =
      .ok (BitVec.ofNat w (varintValue bs), pre.length + bs.length) :=
  decodeVarint_of_leb w _ bs post _ h hs (by simp)

example : decodeVarint 32 ([7] ++ [0xac, 0x82, 0x00] ++ [9]) 1 = .ok (300, 4) := by decide

/-- C04. Whenever decoding succeeds the bytes consumed are a varint of at most ten bytes
and the value is that varint's, modulo `2^w`. -/
theorem decodeVarint_sound (w : Nat) (d : Bytes) (i : Nat) (hi : i ≤ d.length) (v : BitVec w) (j : Nat)
    (h : decodeVarint w d i = .ok (v, j)) :
    i < j ∧ j ≤ d.length ∧ Leb ((d.drop i).take (j - i)) ∧ j - i ≤ 10 ∧
      v = BitVec.ofNat w (varintValue ((d.drop i).take (j - i))) := by
  obtain ⟨bs, h1, h2, h3, rfl, h5, h6⟩ := decodeVarint_ok w d i hi h
  have hp := h1.length_pos
  have e : (d.drop i).take (i + bs.length - i) = bs := by
    rw [h3, show i + bs.length - i = bs.length by omega, List.take_left]
  rw [e]
  exact ⟨by omega, h5, h1, by omega, h6⟩

example : decodeVarint 8 [0xff, 0x03, 0x55] 0 = .ok (0xff, 2) := by decide

/-! ## C05 -/

/-- C05, the part that holds: ten continuation bytes (a varint longer than ten bytes)
give the overflow error. Missing: a ten-byte varint whose tenth byte exceeds 1 also
does not fit in 64 bits and should be an overflow error, but is accepted, see
`varint_overflow_accepted`. -/
theorem varint_overflow_partial (w : Nat) (pre bs : Bytes) (h : 10 ≤ bs.length)
    (hc : ∀ b ∈ bs.take 10, 128 ≤ b.toNat) :
    decodeVarint w (pre ++ bs) pre.length = .err .intOverflow := by
  have hd : (pre ++ bs).drop pre.length = bs := by simp
  rcases decodeVarint_cases w (pre ++ bs) pre.length (by simp) with ⟨cs, h1, h2, h3, _, _⟩ | ⟨_, h2, _⟩ | ⟨_, _, h3⟩
  · exfalso
    rw [hd] at h3
    obtain ⟨b, hb, hlt⟩ := h1.exists_last
    have hb' : b ∈ bs.take 10 := by
      rw [h3, List.take_append]
      exact List.mem_append_left _ (by rwa [List.take_of_length_le h2])
    have := hc b hb'
    omega
  · rw [hd] at h2; omega
  · exact h3

example : decodeVarint 64 ([1] ++ [0xff, 0xff, 0xff, 0xff, 0xff, 0xff, 0xff, 0xff, 0xff, 0xff, 0x01]) 1 =
    .err .intOverflow := by decide

/-- C05 is violated: a ten-byte varint denoting `2^64 + 1` is accepted as 1. -/
theorem varint_overflow_accepted :
    ∃ bs : Bytes, Leb bs ∧ varintValue bs = 2 ^ 64 + 1 ∧ decodeVarint 64 bs 0 = .ok (1, 10) := by
  refine ⟨[0x81, 0x80, 0x80, 0x80, 0x80, 0x80, 0x80, 0x80, 0x80, 0x02], ?_, by decide, by decide⟩
  repeat (first | exact .last _ (by decide) | refine .more _ _ (by decide) ?_)

/-- C05. Exactly which varints the decoder rejects: a prefix with no terminating byte
among the first ten bytes. -/
theorem decodeVarint_err_iff (w : Nat) (d : Bytes) :
    (∃ e, decodeVarint w d 0 = .err e) ↔ ∀ b ∈ d.take 10, 128 ≤ b.toNat := by
  rcases decodeVarint_cases w d 0 (by omega) with ⟨cs, h1, h2, h3, _, h5⟩ | ⟨h1, h2, h3⟩ | ⟨h1, h2, h3⟩
  · constructor
    · rintro ⟨e, he⟩; rw [h5] at he; simp at he
    · intro hc
      exfalso
      simp only [List.drop_zero] at h3
      obtain ⟨b, hb, hlt⟩ := h1.exists_last
      have hb' : b ∈ d.take 10 := by
        rw [h3, List.take_append]
        exact List.mem_append_left _ (by rwa [List.take_of_length_le h2])
      have := hc b hb'
      omega
  · exact ⟨fun _ b hb => h1 b (by simpa using List.mem_of_mem_take hb), fun _ => ⟨_, h3⟩⟩
  · exact ⟨fun _ b hb => h1 b (by simpa using hb), fun _ => ⟨_, h3⟩⟩

/-! ## C06 -/

/-- C06. On every input `Skip` returns, either an error or a positive offset: it does not
panic and does not run forever. -/
theorem skip_total (A : Arch) (hA : A.Valid) (d : Bytes) (hf : A.Fits d.length) :
    (∃ n, skip A d = .ok n ∧ 0 < n) ∨ ∃ e, skip A d = .err e :=
  skipFrom_returns A hA d hf (d.length + 1) 0 0 (by omega)

example : Arch.b32.Valid ∧ Arch.b32.Fits ([0x12, 0xff, 0xff, 0xff, 0xff, 0x0f] : Bytes).length ∧
    skip .b32 [0x12, 0xff, 0xff, 0xff, 0xff, 0x0f] = .err .invalidLength := by decide

/-! ## C07 -/

/-- C07. `Skip` returns exactly the length of a well-formed record, whatever follows it. -/
theorem skip_record (A : Arch) (hA : A.Valid) (num : Nat) (p : Payload) (r rest : Bytes)
    (h : IsRecord num p r) (hf : A.Fits (r ++ rest).length) : skip A (r ++ rest) = .ok r.length :=
  skip_complete A hA r rest hf (h.loose A hA (by simp [Arch.Fits] at hf ⊢; omega))

/-- A group (field 1) holding a varint field (field 2): well formed, and skipped. -/
example : IsRecord 1 (.group [0x10, 0x05]) [0x0b, 0x10, 0x05, 0x0c] ∧
    skip .b64 ([0x0b, 0x10, 0x05, 0x0c] ++ [0xff]) = .ok 4 := by
  refine ⟨.group 1 [0x0b] [0x10, 0x05] [0x0c] (by decide) ?_ ?_ ?_, by decide⟩
  · exact ⟨.last _ (by decide), by decide, by decide, by decide⟩
  · refine .cons 2 (.varint 5) [0x10, 0x05] [] (.varint 2 5 [0x10] [0x05] (by decide) ?_ ?_) .nil
    · exact ⟨.last _ (by decide), by decide, by decide, by decide⟩
    · exact ⟨.last _ (by decide), by decide, by decide, by decide⟩
  · exact ⟨.last _ (by decide), by decide, by decide, by decide⟩

/-! ## C08 -/

/-- C08. If the offset returned lies within the input, the bytes before it are one record in the
liberal sense of `Spec.LooseRecord`: complete, with legal wire types, non-negative
lengths and balanced groups. -/
theorem skip_is_record (A : Arch) (hA : A.Valid) (d : Bytes) (hf : A.Fits d.length) (m : Nat)
    (h : skip A d = .ok m) (hm : m ≤ d.length) : LooseRecord A.bits (d.take m) :=
  skip_sound A hA d hf m h hm

example : skip .b64 [0x12, 0x02, 0x61, 0x62, 0x08] = .ok 4 := by decide

/-- C08. The liberal reading is exact: `Skip` accepts within the input exactly those inputs that
start with such a record, and nothing else. -/
theorem skip_iff (A : Arch) (hA : A.Valid) (d : Bytes) (hf : A.Fits d.length) (m : Nat) (hm : m ≤ d.length) :
    skip A d = .ok m ↔ LooseRecord A.bits (d.take m) := by
  refine ⟨fun h => skip_sound A hA d hf m h hm, fun h => ?_⟩
  have := skip_complete A hA (d.take m) (d.drop m) (by simpa using hf) h
  rw [List.take_append_drop] at this
  rw [this, List.length_take, Nat.min_eq_left hm]

/-- C08. Errors for the malformed first bytes: a stray end-group, an illegal wire type. -/
theorem skip_bad_tag (A : Arch) (tag rest : Bytes) (h : AnyVarint tag) :
    (varintValue tag % 8 = 4 → skip A (tag ++ rest) = .err .unexpectedEndOfGroup) ∧
    (varintValue tag % 8 = 6 → skip A (tag ++ rest) = .err (.illegalWireType 6)) ∧
    (varintValue tag % 8 = 7 → skip A (tag ++ rest) = .err (.illegalWireType 7)) := by
  have hp := h.1.length_pos
  have e := decodeVarint_of_leb 64 (tag ++ rest) tag rest 0 h.1 h.2 (by simp)
  rw [skip, skipLoop_succ, if_pos (by simp; omega), e]
  simp only [Res.bind_ok, ofNat64_mod8]
  refine ⟨fun h => ?_, fun h => ?_, fun h => ?_⟩ <;> rw [h] <;> rfl

/-- C08. Truncated input: if a proper prefix of a well-formed record is all there is, `Skip` does
not report a length within it. -/
theorem skip_truncated (A : Arch) (hA : A.Valid) (r : Bytes) (k : Nat) (hk : k < r.length) (hf : A.Fits r.length)
    (h : LooseRecord A.bits r) : ∀ m, skip A (r.take k) = .ok m → k < m := by
  intro m hm
  by_contra hc
  have hlen : (r.take k).length = k := by simp; omega
  have h1 := skip_sound A hA (r.take k) (by simp [Arch.Fits] at hf ⊢; omega) m hm (by omega)
  rw [List.take_take, Nat.min_eq_left (by omega)] at h1
  have h2 := skip_complete A hA (r.take m) (r.drop m) (by simpa using hf) h1
  have h3 := skip_complete A hA r [] (by simpa using hf) h
  rw [List.take_append_drop] at h2
  rw [List.append_nil, h2] at h3
  simp at h3; omega

example : skip .b64 ([0x12, 0x02, 0x61, 0x62].take 3) = .ok 4 ∧ skip .b64 ([0x12, 0x02, 0x61, 0x62].take 1) = .err .unexpectedEOF := by
  decide

/-- C08, what `Skip` does not check: field numbers and the number on an end-group tag. Here a group of
field 1 is closed by an end tag of field 2, and a record has field number 0. -/
theorem skip_lenient : skip .b64 [0x0b, 0x14] = .ok 2 ∧ skip .b64 [0x00, 0x05] = .ok 2 := by decide

/-! ## C09 -/

/-- C09. The key bytes emitted for a field decode to the field number and wire type, and the
constant used by `SizeVT` is their number. -/
theorem key_correct (num wt : Nat) (hn : ValidNum num) (hw : wt < 8) (pre post : Bytes) :
    keySize num wt = (keyBuf num wt).length ∧
    ∃ wire, decodeVarint 64 (pre ++ keyBuf num wt ++ post) pre.length =
        .ok (wire, pre.length + (keyBuf num wt).length) ∧
      (wire >>> 3).toNat = num ∧ (wire &&& 7).toNat = wt := by
  have hlt : num * 8 + wt < 2 ^ 64 := by have := hn.2; omega
  rw [keySize_eq num wt hn.2 hw, keyBuf_eq num wt hn.2 hw]
  refine ⟨rfl, _, decodeVarint_value 64 pre _ post (varint_shape _ hlt) (varint_length_le _), ?_, ?_⟩
  · rw [varint_value _ hlt, BitVec.toNat_ushiftRight, BitVec.toNat_ofNat, Nat.mod_eq_of_lt hlt,
      Nat.shiftRight_eq_div_pow]; omega
  · rw [bv_and7, varint_value _ hlt, BitVec.toNat_ofNat, Nat.mod_eq_of_lt hlt]; omega

example : ValidNum 536870911 ∧ keyBuf 536870911 5 = [0xfd, 0xff, 0xff, 0xff, 0x0f] ∧ keySize 536870911 5 = 5 := by decide

/-- C09. Different (number, wire type) pairs have different keys, none a prefix of the other. -/
theorem key_prefix_free (n m w u : Nat) (hn : ValidNum n) (hm : ValidNum m) (hw : w < 8) (hu : u < 8) (r s : Bytes)
    (h : keyBuf n w ++ r = keyBuf m u ++ s) : n = m ∧ w = u ∧ r = s := by
  obtain ⟨_, x, hx, hx1, hx2⟩ := key_correct n w hn hw [] r
  obtain ⟨_, y, hy, hy1, hy2⟩ := key_correct m u hm hu [] s
  simp only [List.nil_append, List.length_nil, Nat.zero_add] at hx hy
  rw [h, hy] at hx
  simp only [Res.ok.injEq, Prod.mk.injEq] at hx
  obtain ⟨rfl, hl⟩ := hx
  exact ⟨by omega, by omega, (List.append_inj h hl.symm).2⟩

end Vtp.Props
