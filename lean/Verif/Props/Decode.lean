import Verif.Lemmas.DecodeMsg
import Verif.DemoDecode
/-!
# What `UnmarshalVT` makes of valid encodings: C22, C35
-/

namespace Vtp.Props
open Spec

/-- C22. Every valid encoding is accepted and merged as the wire format says: records in any order and number,
non-minimal varints, packed and unpacked lists, map entries, oneofs, unknown fields, sub-messages to any depth.
Missing from the full claim, because the decoder does otherwise (see `group_rejected`, `entry_duplicate`,
`entry_no_message`, `bool_32`, `extension_wipes`): records of group fields, map entries with two keys or values or
without their message, bools on 32-bit targets, extension ranges. Pooled schemas are related to unpooled ones in C51. -/
theorem unmarshal_decodes_partial {E : UEnv} (hE : PlainEnv E) {t : Nat} (hf : (E.S.msg t).foreign = false) {b : Bytes} (hb : E.A.Fits (b.length + 1))
    {m m' : Val} (hm : wtM E.S .solid t m = true) (h : Decodes E.S E.R t b m m') : unmarshalVT E t b m = (m', .ok ()) := by
  obtain ⟨n, h⟩ := h
  have := unmarshalN_run hE n (b.length + 1) hb 0 t b m m' (by omega) hm (by unfold subRel; rw [hf]; exact h)
  unfold decodeMessage at this
  rw [hf] at this
  exact this

/-- C22. What the wire format says is unambiguous: an encoding determines the merged message. -/
theorem decodes_unique {E : UEnv} (hE : PlainEnv E) {t : Nat} (hf : (E.S.msg t).foreign = false) {b : Bytes} (hb : E.A.Fits (b.length + 1))
    {m m' m'' : Val} (hm : wtM E.S .solid t m = true) (h : Decodes E.S E.R t b m m') (h' : Decodes E.S E.R t b m m'') : m' = m'' := by
  have h1 := unmarshal_decodes_partial hE hf hb hm h
  rw [unmarshal_decodes_partial hE hf hb hm h'] at h1
  exact (Prod.mk.injEq _ _ _ _ ▸ h1).1.symm

/-- Field 1 with a three byte varint, a packed list, a singular message, a oneof and an unknown field. -/
def sample : List Rec :=
  [⟨1, .varint 5, [8, 0x85, 0x80, 0]⟩, ⟨3, .len [2, 1], [26, 2, 2, 1]⟩, ⟨4, .len [8, 7], [34, 2, 8, 7]⟩, ⟨6, .varint 1, [48, 1]⟩,
   ⟨3, .varint 4, [24, 4]⟩, ⟨99, .varint 1, [152, 6, 1]⟩]

def sampleBytes : Bytes := [8, 0x85, 0x80, 0, 26, 2, 2, 1, 34, 2, 8, 7, 48, 1, 24, 4, 152, 6, 1]

theorem one_byte (b : UInt8) (h : b < 128) : IsVarint b.toNat [b] := by
  have : b.toNat < 128 := h
  exact ⟨.last b h, by simp, by simp [varintValue]; omega, by omega⟩

theorem sample_records : Records sample sampleBytes := by
  have tag : ∀ b : UInt8, b < 128 → IsVarint b.toNat [b] := one_byte
  have h1 : IsVarint 5 [0x85, 0x80, 0] := ⟨.more _ _ (by decide) (.more _ _ (by decide) (.last _ (by decide))), by decide, by decide, by decide⟩
  have h99 : IsVarint (99 * 8 + 0) [152, 6] := ⟨.more _ _ (by decide) (.last _ (by decide)), by decide, by decide, by decide⟩
  refine .cons (.varint 1 5 [8] _ (by decide) (tag 8 (by decide)) h1) (.cons (.len 3 [26] [2] _ (by decide) (tag 26 (by decide)) (tag 2 (by decide)))
    (.cons (.len 4 [34] [2] _ (by decide) (tag 34 (by decide)) (tag 2 (by decide))) (.cons (.varint 6 1 [48] _ (by decide) (tag 48 (by decide)) (tag 1 (by decide)))
    (.cons (.varint 3 4 [24] _ (by decide) (tag 24 (by decide)) (tag 4 (by decide))) (.cons (.varint 99 1 [152, 6] _ (by decide) h99 (tag 1 (by decide))) .nil)))))

theorem small_decodes : DecodesN Demo.schema3 Runtime.none 1 1 [8, 7] (zeroMsg Demo.schema3 1) (Demo.small 7) := by
  refine ⟨[⟨1, .varint 7, [8, 7]⟩], .cons (.varint 1 7 [8] [7] (by decide) (one_byte 8 (by decide)) (one_byte 7 (by decide))) .nil, ?_, ?_⟩
  · exact .cons (.scalar (f := { num := 1, slot := 0, kind := .int64, card := .required, presence := true }) (by decide) rfl (by decide) rfl) .nil
  · intro f hf hc
    simp only [List.mem_cons, List.not_mem_nil, or_false, exists_eq_left]
    revert f; decide

/-- What the sample makes of a new message. -/
def sampleMsg : Val :=
  .msg [.num 5, .str [], .list [.num 1, .num (-1), .num 2] [], Demo.small 7, .nil, .wrap 6 (.num 1), .nil, .nil, .nil, .nil, .num 0] [152, 6, 1] []

theorem sample_steps : Steps Demo.schema3 (subRel Demo.schema3 Runtime.none (DecodesN Demo.schema3 Runtime.none 1)) (Demo.schema3.msg 0) sample
    (zeroMsg Demo.schema3 0) sampleMsg := by
  refine .cons (.scalar (f := { num := 1, slot := 0, kind := .int32 }) (by decide) rfl (by decide) rfl) ?_
  refine .cons (.packed (f := { num := 3, slot := 2, kind := .sint64, card := .repeated, packed := true }) (vs := [.num 1, .num (-1)]) (by decide) rfl rfl rfl
    (.cons (bs := [2]) (.varint (one_byte 2 (by decide))) rfl (.cons (bs := [1]) (.varint (one_byte 1 (by decide))) rfl .nil))) ?_
  refine .cons (.message (f := { num := 4, slot := 3, kind := .message, presence := true, msg := 1 }) (x := Demo.small 7) (by decide) rfl (by decide) rfl
    small_decodes) ?_
  refine .cons (.member (f := { num := 6, slot := 5, kind := .bool, presence := true, oneof := true }) (by decide) rfl rfl) ?_
  refine .cons (.element (f := { num := 3, slot := 2, kind := .sint64, card := .repeated, packed := true }) (by decide) rfl rfl rfl) ?_
  exact .cons (.unknown (by decide) (by decide)) .nil

theorem sample_decodes : Decodes Demo.schema3 Runtime.none 0 sampleBytes (zeroMsg Demo.schema3 0) sampleMsg := by
  refine ⟨2, sample, sample_records, sample_steps, ?_⟩
  intro f hf hc
  revert f; decide

example : unmarshalVT Demo.penv 0 sampleBytes (zeroMsg Demo.schema3 0) = (sampleMsg, .ok ()) :=
  unmarshal_decodes_partial Demo.penv_ok rfl (by decide) (by decide) sample_decodes

/-! ## What C22 leaves out -/

/-- C22 fails for map entries with two keys or values: numbers are combined bit by bit (1 | 2 = 3) where the last must win. -/
theorem entry_duplicate :
    unmarshalVT (Demo.uenv4 .b64) 0 [10, 6, 8, 5, 16, 1, 16, 2] (zeroMsg Demo.schema4 0) = (.msg [.map [(.num 5, .num 3)], .nil, .num 0, .nil] [] [], .ok ()) := by
  decide

/-- C22 fails for map entries without their message: the value is a nil pointer where it must be an empty message. -/
theorem entry_no_message :
    unmarshalVT (Demo.uenv4 .b64) 0 [18, 2, 8, 5] (zeroMsg Demo.schema4 0) = (.msg [.nil, .map [(.num 5, .nil)], .num 0, .nil] [] [], .ok ()) := by decide

/-- C22 fails for bools on 32-bit targets: the varint 2^32 is not zero, so true. -/
theorem bool_32 : IsVarint (2 ^ 32) [128, 128, 128, 128, 16] ∧ scalarValue .bool (.varint (2 ^ 32)) = some (.num 1) ∧
    (unmarshalVT (Demo.uenv4 .b32) 0 [24, 128, 128, 128, 128, 16] (zeroMsg Demo.schema4 0)) = (.msg [.nil, .nil, .num 0, .nil] [] [], .ok ()) ∧
    (unmarshalVT (Demo.uenv4 .b64) 0 [24, 128, 128, 128, 128, 16] (zeroMsg Demo.schema4 0)) = (.msg [.nil, .nil, .num 1, .nil] [] [], .ok ()) :=
  ⟨⟨.more _ _ (by decide) (.more _ _ (by decide) (.more _ _ (by decide) (.more _ _ (by decide) (.last _ (by decide))))), by decide, by decide, by decide⟩,
    by decide, by decide, by decide⟩

end Vtp.Props
