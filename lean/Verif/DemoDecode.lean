import Verif.Demo
import Verif.Lemmas.Safe
/-!
# Decoding environments and inputs used in examples
-/

namespace Vtp.Demo
open Spec

/-- 64-bit target, no foreign types, a pool that always makes new messages. -/
def uenv : UEnv := { S := schema, R := Runtime.none, A := .b64, alloc := fun _ t => zeroMsg schema t }

/-- The bytes `big` marshals to. -/
def bigBytes : Bytes :=
  [8, 150, 1, 18, 2, 104, 105, 26, 2, 2, 1, 34, 2, 8, 7, 42, 9, 8, 3, 18, 5, 8, 4, 18, 1, 9, 42, 6, 8, 1, 18, 2, 8, 2, 65,
   0, 0, 0, 0, 0, 0, 240, 63, 74, 2, 8, 1, 74, 2, 8, 2, 82, 3, 1, 2, 3, 90, 0, 90, 1, 65, 101, 0, 0, 128, 63, 58, 2, 8, 5,
   152, 6, 1]

theorem uenv_ok : DecodeEnv uenv :=
  ⟨schema_ok, .inr rfl, fun _ t => zeroMsg_typed schema_ok t, fun _ _ _ h => (nomatch h), fun _ _ _ h => (nomatch h), .inl rfl⟩

/-- `message M { map<int32, bytes> m = 1; }` and `message One { oneof o { One a = 1; } }`. -/
def schema2 : Schema := [
  { fields := [{ num := 1, slot := 0, kind := .message, card := .repeated, map := some ⟨.int32, .bytes, 0⟩ }], nslots := 1 },
  { fields := [{ num := 1, slot := 0, kind := .message, presence := true, oneof := true, msg := 1 }], nslots := 1 }]

theorem schema2_ok : schemaOK schema2 = true := by decide

def uenv2 (A : Arch) : UEnv := { S := schema2, R := Runtime.none, A := A, alloc := fun _ t => zeroMsg schema2 t }

/-- The schema of the examples without pooling. -/
def schema3 : Schema := schema.map fun d => { d with pooled := false }

theorem schema3_ok : schemaOK schema3 = true := by decide

def penv : UEnv := { S := schema3, R := Runtime.none, A := .b64, alloc := fun _ t => zeroMsg schema3 t }

theorem penv_unpooled (t : Nat) : (schema3.msg t).pooled = false := by
  unfold Schema.msg
  match t with
  | 0 | 1 | 2 | 3 | 4 | 5 => rfl
  | t + 6 => rfl

theorem penv_ok : PlainEnv penv :=
  ⟨⟨schema3_ok, .inr rfl, fun _ t => zeroMsg_typed schema3_ok t, fun _ _ _ h => (nomatch h), fun _ _ _ h => (nomatch h), .inl rfl⟩, rfl, penv_unpooled,
    .inl rfl⟩

/-- `message N { map<int32, int32> a = 1; map<int32, N> b = 2; bool c = 3; repeated int32 d = 4; }`. -/
def schema4 : Schema := [
  { fields := [
      { num := 1, slot := 0, kind := .message, card := .repeated, map := some ⟨.int32, .int32, 0⟩ },
      { num := 2, slot := 1, kind := .message, card := .repeated, map := some ⟨.int32, .message, 0⟩ },
      { num := 3, slot := 2, kind := .bool },
      { num := 4, slot := 3, kind := .int32, card := .repeated }],
    nslots := 4 }]

theorem schema4_ok : schemaOK schema4 = true := by decide

def uenv4 (A : Arch) : UEnv := { S := schema4, R := Runtime.none, A := A, alloc := fun _ t => zeroMsg schema4 t }

end Vtp.Demo
