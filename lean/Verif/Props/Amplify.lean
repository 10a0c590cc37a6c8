import Verif.Lemmas.SizeVolume
import Verif.Props.Volume
import Verif.Props.Reencode
/-!
# C101: writing what was decoded

Bytes written for a decoded message, against the bytes it was decoded from. A service that reads messages and passes them on writes at most in proportion to what it read, if
the schema has no maps of strings or messages; with `google.protobuf.Struct` it writes exponentially more.
-/

namespace Vtp.Props
open Spec

/-- C101. `SizeVT` is at most sixty times the memory of the message, whatever the message. -/
theorem size_memory {E : Env} (hS : schemaOK E.S = true) (hR : ∀ t v, E.R.size t v ≤ 60 * (volume v - 1)) (t : Nat) (v : Val) : sizeVT E t v ≤ 60 * (volume v - 1) :=
  sizeN_volume hS hR _ t v

section
variable {E : UEnv} (hE : DecodeEnv E) {K : Nat} (hK : ∀ t, (E.S.msg t).nslots + 4 ≤ K) (hp : ∀ off t, (E.S.msg t).pooled = true → volume (E.alloc off t) + 3 ≤ K)
  (hR : ∀ t b v, E.R.unmarshal t b = some v → volume v + 2 ≤ K * (1 + b.length)) (hX : ∀ t b v, E.R.unmarshalPartial t b = some v → volume v ≤ K * b.length)
  (hZ : ∀ t v, E.R.size t v ≤ 60 * (volume v - 1)) (hN : RuntimeEnc E.R) {t : Nat} (hf : (E.S.msg t).foreign = false) {m0 : Val} (h0 : wtM E.S .solid t m0 = true)
  {b : Bytes} (hb : E.A.Fits b.length) {strict : Bool} {c : Bytes} (hc : marshalVT ⟨E.S, E.R⟩ strict t (unmarshalVT E t b m0).1 = .ok (some c))
include hE hK hp hR hX hZ hN hf h0 hb hc

/-- C101. Whatever the input, the message before and the outcome of decoding, what is written afterwards is at most `60 * K` bytes for each byte of the input, in addition to
what the message before takes. Missing: maps with strings, bytes or messages, for which it is wrong (`struct_rewritten`). -/
theorem rewritten_size_partial (hm : SmallMaps E.S) : c.length ≤ 60 * (volume m0 + K * b.length) := by
  have hv : wt E.S t (unmarshalVT E t b m0).1 = true := members_weaken (by simp) (by simp) _ _ _ (unmarshal_returns_partial hE hf h0 hb).2
  rw [size_eq_length (E := ⟨E.S, E.R⟩) strict hE.schema hN hv hf hc]
  have h1 := size_memory (E := ⟨E.S, E.R⟩) hE.schema hZ t (unmarshalVT E t b m0).1
  have h2 := decode_memory_partial hE.schema hE.arch hm hK hp hR hX hb t m0
  omega

/-- C101. With strings and bytes in maps it is at most quadratic. -/
theorem rewritten_size_strings_partial (hm : NoMessageMaps E.S) : c.length ≤ 60 * (volume m0 + (K + 2 * b.length) * b.length) := by
  have hv : wt E.S t (unmarshalVT E t b m0).1 = true := members_weaken (by simp) (by simp) _ _ _ (unmarshal_returns_partial hE hf h0 hb).2
  rw [size_eq_length (E := ⟨E.S, E.R⟩) strict hE.schema hN hv hf hc]
  have h1 := size_memory (E := ⟨E.S, E.R⟩) hE.schema hZ t (unmarshalVT E t b m0).1
  have h2 := decode_memory_strings_partial hE.schema hE.arch hm hK hp hR hX hb t m0
  omega

end

/-! ### `google.protobuf.Struct` -/

/-- What one entry takes. -/
private def entryBytes (E : Env) (e : Key × Val) : Nat :=
  mapEntrySize E (sizeVT E) ⟨.string, .message, 1⟩ e + keySize 1 2 + sizeOfVarint (u64 (mapEntrySize E (sizeVT E) ⟨.string, .message, 1⟩ e))

private theorem struct_size {E : Env} (hS : E.S = structSchema) (n : Nat) : sizeVT E 0 (blast n) = ((shrapnel n).map (entryBytes E)).sum := by
  rw [blast, sizeVT_msg]
  cases n with
  | zero => simp [hS, structSchema, Schema.msg, sizeFields, sizeField, slotOf, shrapnel, FieldDesc.len, Val.entries]
  | succ n =>
    simp [hS, structSchema, Schema.msg, sizeFields, sizeField, slotOf, shrapnel, FieldDesc.len, Val.entries, sizeFieldBody, protoWireType]
    rfl

private theorem value_size {E : Env} (hS : E.S = structSchema) (n : Nat) : sizeVT E 0 (blast n) ≤ sizeVT E 1 (.msg [.wrap 5 (blast n)] [] []) := by
  rw [sizeVT_msg]
  simp [hS, structSchema, Schema.msg, sizeFields, sizeOneof, MsgDesc.member, slotOf, sizeField, FieldDesc.hasMessage, blast, Val.isNil, sizeFieldBody, messageSize]
  omega

theorem blast_size {E : Env} (hS : E.S = structSchema) (n : Nat) : 2 ^ n ≤ sizeVT E 0 (blast n) + 1 := by
  induction n with
  | zero => simp
  | succ n ih =>
    have h1 := struct_size hS (n + 1)
    have h2 := struct_size hS n
    have h3 := value_size hS n
    have h4 : sizeVT E 1 (.msg [.wrap 5 (blast n)] [] []) + 1 ≤ entryBytes E (.str (varint n), .msg [.wrap 5 (blast n)] [] []) := by
      have : 1 ≤ sizeOfVarint (u64 (mapEntrySize E (sizeVT E) ⟨.string, .message, 1⟩ (.str (varint n), .msg [.wrap 5 (blast n)] [] []))) := by
        rw [sizeOfVarint_eq]; exact varint_length_pos _
      have hm : sizeVT E 1 (.msg [.wrap 5 (blast n)] [] []) ≤ mapEntrySize E (sizeVT E) ⟨.string, .message, 1⟩ (.str (varint n), .msg [.wrap 5 (blast n)] [] []) := by
        simp [mapEntrySize, messageSize, hS, structSchema, Schema.msg, Val.isNil]
        omega
      unfold entryBytes
      omega
    have h5 : sizeVT E 0 (blast (n + 1)) = entryBytes E (.str (varint n), .msg [.wrap 5 (blast n)] [] []) + sizeVT E 0 (blast n) := by
      rw [h1, h2]; rfl
    rw [Nat.pow_succ]
    omega

theorem structSchema_exts (t : Nat) : (structSchema.msg t).extRanges = [] := by
  match t with
  | 0 | 1 | 2 => rfl
  | t + 3 => rfl

/-- C101 is wrong for maps with messages: for every `n` there is an input of at most `60 * n` bytes which `google.protobuf.Struct` accepts and which makes a message
for which `MarshalVT` and `MarshalVTStrict` write at least `2 ^ n - 1` bytes. -/
theorem struct_rewritten {E : UEnv} (hS : E.S = structSchema) (hE : PlainEnv E) (hN : RuntimeEnc E.R) (hM : ∀ t b v, E.R.unmarshal t b = some v → E.R.marshal t v ≠ none)
    (n : Nat) (hn : E.A.Fits (60 * n)) (strict : Bool) :
    ∃ b m c, b.length ≤ 60 * n ∧ unmarshalVT E 0 b (zeroMsg E.S 0) = (m, .ok ()) ∧ marshalVT ⟨E.S, E.R⟩ strict 0 m = .ok (some c) ∧ 2 ^ n ≤ c.length + 1 := by
  have hl : E.A.Fits (bomb n).length := by have := bomb_length n; unfold Arch.Fits at *; omega
  have hd := bomb_decodes hS hE.env.arch n hl
  have hf : (E.S.msg 0).foreign = false := by rw [hS]; rfl
  obtain ⟨c, hc⟩ := accepted_written hE (fun t => by rw [hS]; exact structSchema_exts t) hN hM hf (.one hd hl) strict
  have hv : wt E.S 0 (blast n) = true := members_weaken (by simp) (by simp) _ _ _ (decoded_typed hE.env hf (zeroMsg_typed hE.env.schema 0) (.one hd hl))
  refine ⟨bomb n, blast n, c, bomb_length n, hd, hc, ?_⟩
  rw [size_eq_length (E := ⟨E.S, E.R⟩) strict hE.env.schema hN hv hf hc]
  exact blast_size hS n

/-! ### Strings in maps -/

theorem rungs_size {E : Env} (hS : E.S = labelSchema) (n : Nat) : n * n ≤ sizeVT E 0 (rungsVal n) := by
  have key : ∀ n, n * n ≤ ((rungs n).map fun e => mapEntrySize E (sizeVT E) ⟨.string, .string, 0⟩ e + keySize 1 2 + sizeOfVarint (u64 (mapEntrySize E (sizeVT E) ⟨.string, .string, 0⟩ e))).sum := by
    intro n
    induction n with
    | zero => simp [rungs]
    | succ n ih =>
      have h1 := three_ladder n
      have h2 : 1 ≤ sizeOfVarint (u64 (mapEntrySize E (sizeVT E) ⟨.string, .string, 0⟩ (.str (varint n), .str (ladder n)))) := by
        rw [sizeOfVarint_eq]; exact varint_length_pos _
      have h3 : (ladder n).length ≤ mapEntrySize E (sizeVT E) ⟨.string, .string, 0⟩ (.str (varint n), .str (ladder n)) := by
        simp only [mapEntrySize, sizeScalar, Val.bytes]
        omega
      simp only [rungs, List.map_cons, List.sum_cons]
      have : (n + 1) * (n + 1) = n * n + 2 * n + 1 := by ring
      omega
  cases n with
  | zero => simp
  | succ n =>
    refine Nat.le_trans (key (n + 1)) (Nat.le_of_eq ?_)
    rw [rungsVal, sizeVT_msg]
    simp [hS, labelSchema, Schema.msg, sizeFields, sizeField, slotOf, rungs, FieldDesc.len, Val.entries, sizeFieldBody, protoWireType]

/-- C101. With strings in maps it is not linear: inputs of `50 n` bytes make messages for which `n ^ 2` bytes are written. -/
theorem strings_rewritten {E : UEnv} (hS : E.S = labelSchema) (hE : PlainEnv E) (hN : RuntimeEnc E.R) (hM : ∀ t b v, E.R.unmarshal t b = some v → E.R.marshal t v ≠ none)
    (n : Nat) (hn : E.A.Fits (50 * n)) (strict : Bool) :
    ∃ b m c, b.length ≤ 50 * n ∧ unmarshalVT E 0 b (zeroMsg E.S 0) = (m, .ok ()) ∧ marshalVT ⟨E.S, E.R⟩ strict 0 m = .ok (some c) ∧ n * n ≤ c.length := by
  have hl : E.A.Fits (ladder n).length := by have := ladder_length n; unfold Arch.Fits at *; omega
  have hd := ladder_decodes hS hE.env.arch hE.copy n hl
  have hf : (E.S.msg 0).foreign = false := by rw [hS]; rfl
  obtain ⟨c, hc⟩ := accepted_written hE (fun t => by rw [hS]; match t with | 0 => rfl | t + 1 => rfl) hN hM hf (.one hd hl) strict
  have hv : wt E.S 0 (rungsVal n) = true := members_weaken (by simp) (by simp) _ _ _ (decoded_typed hE.env hf (zeroMsg_typed hE.env.schema 0) (.one hd hl))
  refine ⟨ladder n, rungsVal n, c, ladder_length n, hd, hc, ?_⟩
  rw [size_eq_length (E := ⟨E.S, E.R⟩) strict hE.env.schema hN hv hf hc]
  exact rungs_size hS n

/-! ## Cases -/

theorem strenv_ok : PlainEnv strenv := by
  refine ⟨⟨by decide, .inr rfl, fun _ t => zeroMsg_typed (by decide) t, fun t b v h => (nomatch h), fun _ _ _ h => (nomatch h), .inl rfl⟩, rfl, fun t => ?_, .inl rfl⟩
  match t with
  | 0 | 1 | 2 => rfl
  | t + 3 => rfl

theorem none_enc : RuntimeEnc Runtime.none := ⟨fun _ _ _ h => by cases h; rfl, fun _ => rfl⟩

/-- Less than two kilobytes read, more than a gigabyte written. -/
example : ∃ b m c, b.length ≤ 1800 ∧ unmarshalVT strenv 0 b (zeroMsg strenv.S 0) = (m, .ok ()) ∧ marshalVT ⟨strenv.S, strenv.R⟩ true 0 m = .ok (some c) ∧ 2 ^ 30 ≤ c.length + 1 :=
  struct_rewritten rfl strenv_ok none_enc (fun _ _ _ h => (nomatch h)) 30 (by decide) true

/-- The two entries of `bomb 2` take 18 bytes to read and 27 to write. -/
example : (bomb 2).length = 18 ∧ (∃ c, marshalVT ⟨strenv.S, strenv.R⟩ true 0 (unmarshalVT strenv 0 (bomb 2) (zeroMsg strenv.S 0)).1 = .ok (some c) ∧ c.length = 27) := by
  refine ⟨by decide, ?_⟩
  exact ⟨[10, 7, 10, 1, 0, 18, 2, 42, 0, 10, 16, 10, 1, 1, 18, 11, 42, 9, 10, 7, 10, 1, 0, 18, 2, 42, 0], by decide +kernel, rfl⟩

def labelEnv : UEnv := { S := labelSchema, R := Runtime.none, A := .b64, alloc := fun _ t => zeroMsg labelSchema t }

theorem labelEnv_ok : PlainEnv labelEnv := by
  refine ⟨⟨by decide, .inr rfl, fun _ t => zeroMsg_typed (by decide) t, fun t b v h => (nomatch h), fun _ _ _ h => (nomatch h), .inl rfl⟩, rfl, fun t => ?_, .inl rfl⟩
  match t with
  | 0 => rfl
  | t + 1 => rfl

example : ∃ b m c, b.length ≤ 50000 ∧ unmarshalVT labelEnv 0 b (zeroMsg labelEnv.S 0) = (m, .ok ()) ∧ marshalVT ⟨labelEnv.S, labelEnv.R⟩ false 0 m = .ok (some c) ∧ 1000000 ≤ c.length :=
  strings_rewritten rfl labelEnv_ok none_enc (fun _ _ _ h => (nomatch h)) 1000 (by decide) false

/-- But not more than quadratic. -/
example (b c : Bytes) (hb : b.length < 2 ^ 62) (hc : marshalVT ⟨labelEnv.S, labelEnv.R⟩ false 0 (unmarshalVT labelEnv 0 b (zeroMsg labelEnv.S 0)).1 = .ok (some c)) :
    c.length ≤ 60 * (1 + (5 + 2 * b.length) * b.length) :=
  rewritten_size_strings_partial labelEnv_ok.env (K := 5)
    (fun t => by
      match t with
      | 0 => decide
      | t + 1 => show 0 + 4 ≤ 5; decide)
    (fun _ t h => by match t, h with | 0, h => cases h | t + 1, h => cases h)
    (fun _ _ _ h => (nomatch h)) (fun _ _ _ h => (nomatch h)) (fun _ _ => Nat.zero_le _) none_enc rfl (m0 := zeroMsg labelEnv.S 0) (by decide)
    (by unfold Arch.Fits; show b.length + 8 < 2 ^ 63; omega) hc
    (fun t f hf md hm => by
      match t with
      | 0 => fin_cases hf; cases hm; decide
      | t + 1 => cases hf)

theorem venv_ok : DecodeEnv venv := by
  refine ⟨by decide, .inr rfl, fun _ t => zeroMsg_typed (by decide) t, fun t b v h => ?_, fun _ _ _ h => (nomatch h), .inl rfl⟩
  match t with
  | 0 => simp [venv, opaqueRuntime] at h
  | 1 =>
    simp only [venv, opaqueRuntime] at h
    cases h
    rfl
  | t + 2 => simp [venv, opaqueRuntime] at h

/-- Lists, messages, a map of numbers, and a message left to the runtime. -/
example (b c : Bytes) (hb : b.length < 2 ^ 62) (hc : marshalVT ⟨venv.S, venv.R⟩ true 0 (unmarshalVT venv 0 b (zeroMsg venv.S 0)).1 = .ok (some c)) :
    c.length ≤ 60 * (2 + 9 * b.length) :=
  rewritten_size_partial venv_ok (K := 9) venv_slots (fun _ t h => by rw [venv_pools] at h; cases h)
    (fun t b v h => by
      simp only [venv, opaqueRuntime] at h
      split at h
      · cases h; simp only [volume, volumes, List.length_nil]; omega
      · cases h)
    (fun t b v h => (nomatch h))
    (fun t v => by simp only [venv, opaqueRuntime]; cases v <;> (simp [unknownOf, volume]; try omega))
    (opaque_enc _) rfl (m0 := zeroMsg venv.S 0) (by decide) (by unfold Arch.Fits; show b.length + 8 < 2 ^ 63; omega) hc venv_maps

/-- Each kind of field is written. -/
example : marshalVT ⟨venv.S, venv.R⟩ true 0 (unmarshalVT venv 0 [10, 2, 1, 2, 18, 2, 8, 3, 26, 4, 8, 7, 16, 1, 34, 1, 65, 42, 1, 9] (zeroMsg venv.S 0)).1 =
    .ok (some [10, 2, 1, 2, 18, 3, 10, 1, 3, 26, 4, 8, 7, 16, 1, 34, 1, 65, 42, 1, 9]) := by decide +kernel

end Vtp.Props
