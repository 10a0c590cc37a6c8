import Verif.Lemmas.Volume
import Verif.Lemmas.Bomb
import Verif.Lemmas.Ladder
import Verif.Props.RoundTrip
import Verif.Props.Pool
/-!
# C98: memory of decoded messages

A message takes memory in proportion to the input it was decoded from. `volume` counts struct fields, elements, entries, pointers and bytes; it does not count capacity
beyond the length of lists of scalars, for which see C38.
-/

namespace Vtp.Props
open Spec

/-- C98. Decoding, whatever the input, the message before, and the outcome, adds at most `K` for each byte of the input, where `K` is four more than the largest number of
struct fields of a message type, and not less than what messages from pools come with. The runtime is assumed to keep to the same price. Missing: maps with strings
or bytes as keys or values and maps with messages, for which it is wrong (`strings_memory`, `struct_memory`). -/
theorem decode_memory_partial {E : UEnv} (hS : schemaOK E.S = true) (hA : E.A.Valid) (hm : SmallMaps E.S) {K : Nat} (hK : ∀ t, (E.S.msg t).nslots + 4 ≤ K)
    (hp : ∀ off t, (E.S.msg t).pooled = true → volume (E.alloc off t) + 3 ≤ K)
    (hR : ∀ t b v, E.R.unmarshal t b = some v → volume v + 2 ≤ K * (1 + b.length)) (hX : ∀ t b v, E.R.unmarshalPartial t b = some v → volume v ≤ K * b.length)
    {b : Bytes} (hb : E.A.Fits b.length) (t : Nat) (m : Val) : volume (unmarshalVT E t b m).1 ≤ volume m + K * b.length :=
  unmarshalN_volume ⟨hA, hp, .inl hm, hK, hR, hX⟩ hS hb _ 0 t b m (Nat.le_refl _)

/-- C98. With strings and bytes in maps it is at most quadratic: each byte costs at most twice the length of the input in addition. -/
theorem decode_memory_strings_partial {E : UEnv} (hS : schemaOK E.S = true) (hA : E.A.Valid) (hm : NoMessageMaps E.S) {K : Nat}
    (hK : ∀ t, (E.S.msg t).nslots + 4 ≤ K) (hp : ∀ off t, (E.S.msg t).pooled = true → volume (E.alloc off t) + 3 ≤ K) (hR : ∀ t b v, E.R.unmarshal t b = some v → volume v + 2 ≤ K * (1 + b.length))
    (hX : ∀ t b v, E.R.unmarshalPartial t b = some v → volume v ≤ K * b.length)
    {b : Bytes} (hb : E.A.Fits b.length) (t : Nat) (m : Val) : volume (unmarshalVT E t b m).1 ≤ volume m + (K + 2 * b.length) * b.length := by
  have h4 := hK 0
  refine unmarshalN_volume (L := b.length) ⟨hA, fun off t h => by have := hp off t h; omega, .inr ⟨hm, by omega⟩, fun t => by have := hK t; omega, fun t c v h => ?_, fun t c v h => ?_⟩ hS hb _ 0 t b m (Nat.le_refl _)
  · exact Nat.le_trans (hR t c v h) (Nat.mul_le_mul_right _ (by omega))
  · exact Nat.le_trans (hX t c v h) (Nat.mul_le_mul_right _ (by omega))

/-- C98 is wrong for maps: the key and the value of an entry are checked to end before the end of the input, not of the entry, and decoding goes on after the entry
(`features/unmarshal/unmarshal.go:219-227`, `575`), so the same bytes are read again. For every `n` there is an input of at most `60 * n` bytes which
`google.protobuf.Struct` accepts and of which it makes a message that takes `2 ^ n`. -/
theorem struct_memory {E : UEnv} (hS : E.S = structSchema) (hA : E.A.Valid) (n : Nat) (hn : E.A.Fits (60 * n)) :
    ∃ b m, b.length ≤ 60 * n ∧ unmarshalVT E 0 b (zeroMsg E.S 0) = (m, .ok ()) ∧ 2 ^ n ≤ volume m :=
  ⟨bomb n, blast n, bomb_length n, bomb_decodes hS hA n (by have := bomb_length n; unfold Arch.Fits at *; omega), blast_volume n⟩

/-- C98. No better bound holds with strings in maps: inputs of `50 n` bytes make messages of size `n ^ 2`, as strings in map entries may reach beyond the entry too. -/
theorem strings_memory {E : UEnv} (hS : E.S = labelSchema) (hA : E.A.Valid) (hal : E.aliasing = false) (n : Nat) (hn : E.A.Fits (50 * n)) :
    ∃ b m, b.length ≤ 50 * n ∧ unmarshalVT E 0 b (zeroMsg E.S 0) = (m, .ok ()) ∧ n * n ≤ volume m :=
  ⟨ladder n, rungsVal n, ladder_length n, ladder_decodes hS hA hal n (by have := ladder_length n; unfold Arch.Fits at *; omega), rungs_volume n⟩

/-! ## Cases -/

/-- The kilobytes that make megabytes. -/
example : ∃ b m, b.length ≤ 50000 ∧ unmarshalVT { S := labelSchema, R := Runtime.none, A := .b64, alloc := fun _ _ => .nil } 0 b (zeroMsg labelSchema 0) = (m, .ok ()) ∧ 1000000 ≤ volume m :=
  strings_memory (E := { S := labelSchema, R := Runtime.none, A := .b64, alloc := fun _ _ => .nil }) rfl (.inr rfl) rfl 1000 (by unfold Arch.Fits; decide)

/-- Two entries: the second is also the value of the first. -/
example : ladder 2 = [10, 5, 10, 1, 1, 18, 7, 10, 5, 10, 1, 0, 18, 0] ∧
    unmarshalVT { S := labelSchema, R := Runtime.none, A := .b64, alloc := fun _ _ => .nil } 0 (ladder 2) (zeroMsg labelSchema 0) =
      (.msg [.map [(.str [1], .str [10, 5, 10, 1, 0, 18, 0]), (.str [0], .str [])]] [] [], .ok ()) := by decide +kernel


/-- Lists, a message, a map of numbers, and a message left to the runtime. -/
def schemaV : Schema := [
  { fields := [
      { num := 1, slot := 0, kind := .int32, card := .repeated, packed := true },
      { num := 2, slot := 1, kind := .message, card := .repeated, msg := 0 },
      { num := 3, slot := 2, kind := .message, card := .repeated, map := some ⟨.int32, .bool, 0⟩ },
      { num := 4, slot := 3, kind := .string },
      { num := 5, slot := 4, kind := .message, presence := true, msg := 1 }], nslots := 5 },
  { fields := [], nslots := 0, foreign := true }]

def venv : UEnv := { S := schemaV, R := opaqueRuntime (fun t => t == 1), A := .b64, alloc := fun _ t => zeroMsg schemaV t }

theorem venv_maps : SmallMaps venv.S := by
  intro t f hf md hm
  match t with
  | 0 => fin_cases hf <;> first | (cases hm; done) | (cases hm; exact ⟨rfl, rfl⟩)
  | 1 => cases hf
  | t + 2 => cases hf

theorem venv_pools (t : Nat) : (venv.S.msg t).pooled = false := by
  match t with
  | 0 | 1 => rfl
  | t + 2 => rfl

theorem venv_slots (t : Nat) : (venv.S.msg t).nslots + 4 ≤ 9 := by
  match t with
  | 0 | 1 => decide
  | t + 2 => show 0 + 4 ≤ 9; decide

example (b : Bytes) (hb : b.length < 2 ^ 62) : volume (unmarshalVT venv 0 b (zeroMsg venv.S 0)).1 ≤ 6 + 9 * b.length := by
  have h := decode_memory_partial (E := venv) (by decide) (.inr rfl) venv_maps (K := 9) venv_slots (fun _ t h => by rw [venv_pools] at h; cases h)
    (fun t b v h => by
      simp only [venv, opaqueRuntime] at h
      split at h
      · cases h; simp only [volume, volumes, List.length_nil]; omega
      · cases h)
    (fun t b v h => (nomatch h)) (b := b) (by unfold Arch.Fits; show b.length + 8 < 2 ^ 63; omega) 0 (zeroMsg venv.S 0)
  have : volume (zeroMsg venv.S 0) ≤ 6 := by decide
  omega

/-- Pools that hand out messages with memory kept for reuse. -/
def nodeMemory : UEnv := { S := nodes, R := Runtime.none, A := .b64, alloc := fun _ t => if t = 0 then nodeReset else zeroMsg nodes t }

example (b : Bytes) (hb : b.length < 2 ^ 62) : volume (unmarshalVT nodeMemory 0 b nodeReset).1 ≤ volume nodeReset + 30 * b.length :=
  decode_memory_partial (E := nodeMemory) (by decide) (.inr rfl)
    (fun t f hf md hm => by
      match t with
      | 0 | 1 => fin_cases hf <;> cases hm
      | t + 2 => cases hf)
    (fun t => by match t with | 0 | 1 => decide | t + 2 => show 0 + 4 ≤ 30; decide)
    (fun off t h => by
      match t, h with
      | 0, _ => show volume nodeReset + 3 ≤ 30; decide
      | 1, h => cases h
      | t + 2, h => cases h)
    (fun _ _ _ h => (nomatch h)) (fun _ _ _ h => (nomatch h)) (by unfold Arch.Fits; show b.length + 8 < 2 ^ 63; omega) 0 nodeReset

/-- Each kind of field is there. -/
example : unmarshalVT venv 0 [10, 2, 1, 2, 18, 2, 8, 3, 26, 4, 8, 7, 16, 1, 34, 1, 65, 42, 1, 9] (zeroMsg venv.S 0) =
    (.msg [.list [.num 1, .num 2] [], .list [.msg [.list [.num 3] [], .nil, .nil, .str [], .nil] [] []] [], .map [(.num 7, .num 1)], .str [65], .msg [] [9] []] [] [], .ok ()) := by
  decide

/-- A map from strings to bytes. -/
def menv : UEnv := { S := [{ fields := [{ num := 1, slot := 0, kind := .message, card := .repeated, map := some ⟨.string, .bytes, 0⟩ }], nslots := 1 }], R := Runtime.none, A := .b64,
                     alloc := fun _ _ => .nil }

example (b : Bytes) (hb : b.length < 2 ^ 62) : volume (unmarshalVT menv 0 b (zeroMsg menv.S 0)).1 ≤ 1 + (5 + 2 * b.length) * b.length :=
  decode_memory_strings_partial (E := menv) (by decide) (.inr rfl)
    (fun t f hf md hm => by
      match t with
      | 0 => fin_cases hf; cases hm; decide
      | t + 1 => cases hf)
    (fun t => by
      match t with
      | 0 => decide
      | t + 1 => show 0 + 4 ≤ 5; decide)
    (fun _ t h => by match t, h with | 0, h => cases h | t + 1, h => cases h)
    (fun _ _ _ h => (nomatch h)) (fun _ _ _ h => (nomatch h)) (by unfold Arch.Fits; show b.length + 8 < 2 ^ 63; omega) 0 (zeroMsg menv.S 0)

/-- Seven bytes are the value of one entry and, read again, the next entry. -/
example : unmarshalVT menv 0 [10, 2, 18, 7, 10, 5, 10, 1, 65, 18, 0] (zeroMsg menv.S 0) =
    (.msg [.map [(.str [], .str [10, 5, 10, 1, 65, 18, 0]), (.str [65], .str [])]] [] [], .ok ()) := by decide

def strenv : UEnv := { S := structSchema, R := Runtime.none, A := .b64, alloc := fun _ t => zeroMsg structSchema t }

example : schemaOK strenv.S = true := by decide

/-- Twenty entries. -/
example : ∃ b m, b.length ≤ 1200 ∧ unmarshalVT strenv 0 b (zeroMsg strenv.S 0) = (m, .ok ()) ∧ 2 ^ 20 ≤ volume m :=
  struct_memory rfl (.inr rfl) 20 (by decide)

/-- The input for two entries: the first one ends after nine bytes, its value, begun at byte 7, at the end of the input, so that the second entry is in it. -/
example : bomb 2 = [10, 7, 10, 1, 1, 18, 11, 42, 9, 10, 7, 10, 1, 0, 18, 2, 42, 0] := by decide

end Vtp.Props
