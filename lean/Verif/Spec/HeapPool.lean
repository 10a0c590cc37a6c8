import Verif.Spec.HeapVal
import Verif.Spec.Reuse
import Verif.Model.HeapClone
/-! # Contents of memory and of the pools -/

namespace Vtp.Spec

/-- The items stand for what they say, and the pools hold empty messages, all in unshared memory. -/
def HoldsPool (S : Schema) (B : Bufs) (σ : HState) (I : List VItem) : Prop :=
  ∃ L : List (Nat × Addr × Val), L.map (fun q => (q.1, q.2.1)) = σ.pool ∧ (∀ q ∈ L, Blank S q.1 q.2.2) ∧
    Holds S B σ (I ++ L.map fun q => (.msg q.1, .ptr q.2.1, q.2.2))

/-- The value-level surroundings of `CloneVT` without pools. -/
def _root_.Vtp.HKEnv.plain (E : HKEnv) : KEnv := ⟨unpool E.S, E.R, fun _ t => zeroMsg E.S t, E.direct⟩

/-- The contents given to buffers are those they have. -/
def Bufs.Live (B : Bufs) : Prop := ∀ a c, B.mem a = some c → B.now a = c

/-- What is needed of the surroundings of `CloneVT`: `proto.Clone` gives nil for nil only. -/
structure CloneEnv (S : Schema) (B : Bufs) (E : HKEnv) : Prop where
  schema : E.S = S
  ok : schemaOK S = true
  live : B.Live
  nil : ∀ t, E.R.clone t .nil = .nil
  some : ∀ t v, v ≠ .nil → E.R.clone t v ≠ .nil

/-- The value-level surroundings of the decoder without pools. -/
def _root_.Vtp.HEnv.plain (E : HEnv) (later : Bytes) : UEnv := ⟨unpool E.S, E.R, E.A, E.aliasing, later, fun _ t => zeroMsg E.S t⟩

/-- What is needed of the surroundings of the decoder; the pools may hand out anything that is in them. -/
structure HPoolEnv (S : Schema) (B : Bufs) (E : HEnv) (later : Bytes) : Prop where
  schema : E.S = S
  ok : schemaOK S = true
  ext : ExtOK S E.R E.A
  run : ∀ t b v, E.R.unmarshal t b = some v → v ≠ .nil
  buf : E.aliasing = true → B.byt ∧ B.mem E.buf = some later
  safe : E.aliasing = false → B.byt → noOwnBytes S

end Vtp.Spec
