import Verif.Lemmas.Safe
import Verif.DemoDecode
/-!
# Properties of `UnmarshalVT`: C20-C38

`DecodeEnv E`: the schema is coherent, the target is 32- or 64-bit, the runtime and the pool return
messages of the right type (and, for the copying decoder on 32-bit targets, no map has bytes values).
`wtM E.S .solid t m`: `m` is a non-nil Go value of the generated type `t` whose oneofs do not hold typed
nil wrappers or nil messages.
-/

namespace Vtp.Props
open Spec

/-! ## C20 -/

/-- C20. `UnmarshalVT` and `UnmarshalVTUnsafe` return an error or nil, and leave a well-typed message,
whatever the bytes. Not covered, because it does panic: `nil_member_panics`, `map_bytes_32_panics`. -/
theorem unmarshal_returns_partial {E : UEnv} (hE : DecodeEnv E) {t : Nat} (hf : (E.S.msg t).foreign = false) {m : Val}
    (hm : wtM E.S .solid t m = true) {b : Bytes} (hb : E.A.Fits b.length) :
    (unmarshalVT E t b m).2.Returns ∧ wtM E.S .solid t (unmarshalVT E t b m).1 = true := by
  have := safe_unmarshalN hE b.length hb (b.length + 1) (Nat.le_refl _) 0 t b hf (Nat.lt_succ_self _) m hm
  refine ⟨?_, this.1⟩
  have h2 := this.2
  unfold unmarshalVT
  generalize (unmarshalN E (b.length + 1) 0 t b m).2 = r at h2
  cases r <;> trivial

/-- The new message is a legitimate receiver. -/
theorem new_message_typed {S : Schema} (hS : schemaOK S = true) (t : Nat) : wtM S .solid t (zeroMsg S t) = true :=
  zeroMsg_typed hS t

/-- C20 fails for a oneof holding a wrapper around a nil message, or a nil wrapper: `UnmarshalVT` merges
into the nil message. -/
theorem nil_member_panics :
    (unmarshalVT (Demo.uenv2 .b64) 1 [10, 2, 10, 0] (.msg [.wrap 1 .nil] [] [])).2 = .panic .nilDeref ∧
    (unmarshalVT (Demo.uenv2 .b64) 1 [10, 0] (.msg [.wrapNil 1] [] [])).2 = .panic .nilDeref := by decide

/-- C20 fails on 32-bit targets for maps with bytes values: the 64-bit length is given to `make`. -/
theorem map_bytes_32_panics :
    (unmarshalVT (Demo.uenv2 .b32) 0 [10, 6, 18, 128, 128, 128, 128, 16] (.msg [.nil] [] [])).2 = .panic .makeLen := by decide

/-- The wrapper with a nil message is a value the Go type can hold. -/
example : wtM Demo.schema2 .plain 1 (.msg [.wrap 1 .nil] [] []) = true := by decide
example : wtM Demo.schema2 .typedNil 1 (.msg [.wrapNil 1] [] []) = true := by decide

/-- The hypotheses of `unmarshal_returns_partial` hold for a message with every field set and any input. -/
example (b : Bytes) (hb : b.length < 2 ^ 62) : (unmarshalVT Demo.uenv 0 b Demo.big).2.Returns :=
  (unmarshal_returns_partial Demo.uenv_ok rfl (by decide) (by simp only [Arch.Fits, Demo.uenv, Arch.b64]; omega)).1

/-- And the decoder does accept input. -/
example : (unmarshalVT Demo.uenv 0 Demo.bigBytes (zeroMsg Demo.schema 0)).2 = .ok () := by decide

/-! ## C21 -/

/-- C21. Every record consumes at least one byte and stays within the input. -/
theorem record_progress {E : UEnv} (hE : DecodeEnv E) {t : Nat} (hf : (E.S.msg t).foreign = false) {b : Bytes} (hb : E.A.Fits b.length)
    (base : Nat) {i : Nat} (hi : i ≤ b.length) {m m' : Val} (hm : wtM E.S .solid t m = true) {has has' : List (BitVec 64)}
    (hl : has.length = (noFields (E.S.msg t)).length) {j : Nat}
    (h : recordStep E (unmarshalN E b.length) t b base i has m = (m', .ok (j, has'))) : i < j ∧ j ≤ b.length := by
  have := (safe_recordStep hE (safe_unmarshalN hE b.length hb b.length (by omega)) hb hf base hi hl m hm).2
  rw [h] at this
  exact ⟨this.1, this.2.1⟩

/-- C21. `UnmarshalVT` terminates: a recursion depth of `len(b) + 1` and `len(b) + 1` turns of each loop
are always enough. -/
theorem unmarshal_terminates {E : UEnv} (hE : DecodeEnv E) {t : Nat} (hf : (E.S.msg t).foreign = false) {m : Val}
    (hm : wtM E.S .solid t m = true) {b : Bytes} (hb : E.A.Fits b.length) : (unmarshalVT E t b m).2 ≠ .diverge := by
  intro h
  have := (unmarshal_returns_partial hE hf hm hb).1
  rw [h] at this
  exact this

example : (recordStep Demo.uenv (unmarshalN Demo.uenv 70) 0 Demo.bigBytes 0 0 [] (zeroMsg Demo.schema 0)).2 = .ok (3, []) := by decide

end Vtp.Props
