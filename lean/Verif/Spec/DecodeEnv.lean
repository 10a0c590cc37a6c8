import Verif.Model.Unmarshal
import Verif.Spec.Typing
/-!
# What is assumed of the decoder's surroundings
-/

namespace Vtp.Spec

/-- No map field has bytes values. -/
def noBytesMaps (S : Schema) : Prop :=
  ∀ t, ∀ f ∈ (S.msg t).fields, ∀ md, f.map = some md → md.val ≠ .bytes

/-- A coherent schema, a 32- or 64-bit target, and a pool and a runtime that return messages of the
right type without nil oneof members. On 32-bit targets map fields with bytes values are excluded for
the copying decoder. -/
structure DecodeEnv (E : UEnv) : Prop where
  schema : schemaOK E.S = true
  arch : E.A.Valid
  alloc : ∀ off t, wtM E.S .solid t (E.alloc off t) = true
  unmarshal : ∀ t b v, E.R.unmarshal t b = some v → wtM E.S .solid t v = true
  unmarshalPartial : ∀ t b v, E.R.unmarshalPartial t b = some v → wtM E.S .solid t v = true
  bytesMap : E.A.bits = 64 ∨ E.aliasing = true ∨ noBytesMaps E.S

/-- No field, map key or map value is a bool. -/
def noBools (S : Schema) : Prop :=
  ∀ t, ∀ f ∈ (S.msg t).fields, f.kind ≠ .bool ∧ ∀ md, f.map = some md → md.key ≠ .bool ∧ md.val ≠ .bool

/-- `UnmarshalVT` of a schema without pooled messages. On 32-bit targets bools are excluded: a varint that is a multiple
of `2^32` reads as false there. -/
structure PlainEnv (E : UEnv) : Prop where
  env : DecodeEnv E
  copy : E.aliasing = false
  unpooled : ∀ t, (E.S.msg t).pooled = false
  bool : E.A.bits = 64 ∨ noBools E.S

end Vtp.Spec
