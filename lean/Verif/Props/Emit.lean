import Verif.Lemmas.EmitSized
import Verif.Props.Marshal
/-!
# Properties of the code the generator prints: C82, C83

`Go.Emit` is the text the generator prints for a schema, as syntax trees; `Go.exec` is its meaning. The theorems
say that the printed methods, run as Go programs, do what the rest of the model says of them.

`G.OK E.S`: message types outside of the generation run are not among the well-known types with methods of
their own and are not local. `2 * v.depth + 1` bounds the depth of calls: a method call and a call on a
oneof wrapper per level of nesting.
-/

namespace Vtp.Props
open Spec

/-! ## C82 -/

/-- C82. The printed `SizeVT`, called on any value of the message type (also with nil pointers in oneofs, or on
nil), terminates and returns what `sizeVT` says. -/
theorem emitted_size {G : Go.GenCfg} {E : Env} (hG : G.OK E.S) (hS : schemaOK E.S = true) {t : Nat} {v : Val}
    (hf : (E.S.msg t).foreign = false) (hv : (v.isNil || wtM E.S .typedNil t v) = true) (K : Nat) (hK : 2 * v.depth + 1 ≤ K) :
    Go.runSizeN G E K (.msg t) v = .ok (sizeVT E t v : Nat) :=
  Go.runSizeN_eq hG hS .typedNil v.depth t v hf hv K hK

/-- C82. The printed `SizeVT` returns the length of the message's encoding. -/
theorem emitted_size_length {G : Go.GenCfg} {E : Env} (hG : G.OK E.S) (strict : Bool) (hS : schemaOK E.S = true) (hR : RuntimeEnc E.R)
    {t : Nat} {v : Val} (hf : (E.S.msg t).foreign = false) (hv : wt E.S t v = true) {b : Bytes} (hb : encode E strict t v = some b)
    (K : Nat) (hK : 2 * v.depth + 1 ≤ K) : Go.runSizeN G E K (.msg t) v = .ok (b.length : Nat) := by
  have h := size_eq_length strict hS hR hv hf (((marshal_encodes strict hS hR hv hf).1 b).2 hb)
  rw [h]
  exact Go.runSizeN_eq hG hS .plain v.depth t v hf (by rw [Bool.or_eq_true]; exact .inr hv) K hK

namespace EmitDemo

/-- Every message of the demo schema is in the generation run, none is well known. -/
def gen : Go.GenCfg := ⟨fun _ => false, fun t => !(Demo.schema.msg t).foreign, true⟩
/-- The other branch of `IsWellKnownType` for the messages of the run, and `size` as the only feature. -/
def genKnown : Go.GenCfg := ⟨fun t => !(Demo.schema.msg t).foreign, fun _ => false, false⟩
theorem gen_ok : gen.OK Demo.schema := fun t h => ⟨rfl, by simp [gen, h]⟩
theorem genKnown_ok : genKnown.OK Demo.schema := fun t h => ⟨by simp [genKnown, h], rfl⟩

end EmitDemo

example : ∀ K ≥ 2 * Demo.big.depth + 1, Go.runSizeN EmitDemo.gen Demo.env K (.msg 0) Demo.big = .ok (sizeVT Demo.env 0 Demo.big : Nat) :=
  fun K hK => emitted_size (E := Demo.env) EmitDemo.gen_ok Demo.schema_ok (by decide) (by decide) K hK
example : Go.runSizeN EmitDemo.gen Demo.env 20 (.msg 0) Demo.big = .ok 73 ∧ Go.runSizeN EmitDemo.genKnown Demo.env 20 (.msg 0) Demo.big = .ok 73 := by
  decide +kernel

/-! ## C83 -/

/-- C83. The printed `MarshalToSizedBufferVT` (`MarshalToSizedBufferVTStrict` with `strict`), called on any value of
the message type and any buffer, does what `marshalToSized` says: the same bytes in the buffer and the same
count, or the same error, or the same panic. -/
theorem emitted_sized {G : Go.GenCfg} {E : Env} (hG : G.OK E.S) (hS : schemaOK E.S = true) (strict : Bool) {t : Nat} {v : Val}
    (hf : (E.S.msg t).foreign = false) (hv : (v.isNil || wtM E.S .typedNil t v) = true) (K : Nat) (hK : 2 * v.depth + 1 ≤ K) (buf : Bytes) :
    Go.CallAgree (marshalToSized E strict t v buf) (Go.runSizedN G E strict K (.msg t) v buf) :=
  Go.runSizedN_agree hG hS .typedNil strict v.depth t v hf hv K hK buf

/-- C83. The same for the printed `MarshalToVT[Strict]`. -/
theorem emitted_marshalTo {G : Go.GenCfg} {E : Env} (hG : G.OK E.S) (hS : schemaOK E.S = true) (strict : Bool) {t : Nat} {v : Val}
    (hf : (E.S.msg t).foreign = false) (hv : (v.isNil || wtM E.S .typedNil t v) = true) (K : Nat) (hK : 2 * v.depth + 1 ≤ K) (arr : Bytes) :
    Go.CallAgree (marshalTo E strict t v arr) (Go.runMarshalTo G E strict K t v arr) :=
  Go.runMarshalTo_agree hG hS .typedNil strict hf hv hK arr

/-- C83. The printed `MarshalVT[Strict]` is `marshalVT`. -/
theorem emitted_marshal {G : Go.GenCfg} {E : Env} (hG : G.OK E.S) (hS : schemaOK E.S = true) (strict : Bool) {t : Nat} {v : Val}
    (hf : (E.S.msg t).foreign = false) (hv : (v.isNil || wtM E.S .typedNil t v) = true) (K : Nat) (hK : 2 * v.depth + 1 ≤ K) :
    Go.runMarshal G E strict K t v = marshalVT E strict t v :=
  Go.runMarshal_eq hG hS .typedNil strict hf hv hK

/-- C83. On a well-typed message the printed `MarshalVT[Strict]` returns the encoding of the message, or an error if
it has none; it does not panic. -/
theorem emitted_marshal_encodes {G : Go.GenCfg} {E : Env} (hG : G.OK E.S) (strict : Bool) (hS : schemaOK E.S = true) (hR : RuntimeEnc E.R)
    {t : Nat} {v : Val} (hf : (E.S.msg t).foreign = false) (hv : wt E.S t v = true) (K : Nat) (hK : 2 * v.depth + 1 ≤ K) :
    (∀ b, Go.runMarshal G E strict K t v = .ok (some b) ↔ encode E strict t v = some b) ∧
    ((Go.runMarshal G E strict K t v).Fails ↔ encode E strict t v = none) ∧ (Go.runMarshal G E strict K t v).Returns := by
  rw [Go.runMarshal_eq hG hS .plain strict hf (by rw [Bool.or_eq_true]; exact .inr hv) hK]
  exact marshal_encodes strict hS hR hv hf

example : ∀ K ≥ 2 * Demo.big.depth + 1, ∀ b, Go.runMarshal EmitDemo.gen Demo.env false K 0 Demo.big = .ok (some b) ↔ encode Demo.env false 0 Demo.big = some b :=
  fun K hK => (emitted_marshal_encodes (E := Demo.env) EmitDemo.gen_ok false Demo.schema_ok Demo.runtime_ok (by decide) (by decide) K hK).1
example : ∃ b, b.length = 73 ∧ Go.runMarshal EmitDemo.gen Demo.env true 20 0 Demo.big = .ok (some b) ∧
    Go.runMarshal EmitDemo.genKnown Demo.env true 20 0 Demo.big = .ok (some b) := by
  rw [emitted_marshal (E := Demo.env) EmitDemo.gen_ok Demo.schema_ok true (by decide) (by decide) 20 (by decide),
    emitted_marshal (E := Demo.env) EmitDemo.genKnown_ok Demo.schema_ok true (by decide) (by decide) 20 (by decide)]
  have h : (marshalVT Demo.env true 0 Demo.big).bind (fun b => .ok (b.getD []).length) = .ok 73 := by decide +kernel
  cases h' : marshalVT Demo.env true 0 Demo.big with
  | ok o =>
    cases o with
    | some b => rw [h'] at h; exact ⟨b, by simpa [Res.bind] using h, rfl, rfl⟩
    | none => rw [h'] at h; simp [Res.bind] at h
  | err e => rw [h'] at h; simp [Res.bind] at h
  | panic p => rw [h'] at h; simp [Res.bind] at h
  | diverge => rw [h'] at h; simp [Res.bind] at h
/-- A required field that is missing: the printed code returns the error. -/
example : (Go.runMarshal EmitDemo.gen Demo.env false 20 0 lacking).Fails ∧ Go.runMarshal EmitDemo.gen Demo.env true 20 0 lacking = .err (.requiredNotSet 1) := by
  rw [emitted_marshal (E := Demo.env) EmitDemo.gen_ok Demo.schema_ok false (by decide) (by decide) 20 (by decide),
    emitted_marshal (E := Demo.env) EmitDemo.gen_ok Demo.schema_ok true (by decide) (by decide) 20 (by decide)]
  decide +kernel

end Vtp.Props
