/-!
# Base definitions of the model

Go byte slices are lists of bytes, indices are natural numbers, and every Go
operation that can fail is given an explicit outcome.
-/

namespace Vtp

/-- Contents of a Go `[]byte` or `string`.
Go semantics, as used by the code at `features/marshal/marshalto.go:575-586`. -/
abbrev Bytes := List UInt8

/-- Errors returned by the modelled code.

* `protohelpers/protohelpers.go:11-18` (`ErrInvalidLength`, `ErrIntOverflow`,
  `ErrUnexpectedEndOfGroup`), `io.ErrUnexpectedEOF`;
* `protohelpers/protohelpers.go:112` (illegal wire type);
* `features/unmarshal/unmarshal.go:823,826,774,778,883` (end group, illegal tag,
  wrong wire type, required field not set), `features/marshal/marshalto.go:124`;
* `foreign`: any error of the protobuf-go runtime;
* `badPattern`: `generator/pattern/match.go:8`; `unknownFeature`: `generator/features.go:27`; `noHelpers`:
  `codec/grpc/grpc_codec.go:18,26`.
Error texts are not modelled, only the field number they are about. -/
inductive Err where
  | invalidLength
  | intOverflow
  | unexpectedEndOfGroup
  | unexpectedEOF
  | illegalWireType (wt : Nat)
  | endGroupForNonGroup
  | illegalTag
  | wrongWireType (field : Nat)
  | requiredNotSet (field : Nat)
  | foreign
  | badPattern
  | unknownFeature
  | noHelpers
  deriving DecidableEq, Repr

/-- Run-time panics of the Go code. `typeConfusion` marks states Go's type system
excludes (a value of the wrong shape for its field); it is never reached from
well-typed values, which is part of the no-panic theorems.
Go semantics, as used by the code at `features/marshal/marshalto.go:54-81` (index out of range)
and `features/unmarshal/unmarshal.go:797-892` (nil receivers). -/
inductive Panic where
  | indexOutOfRange
  | sliceOutOfRange
  | nilDeref
  | makeLen
  | typeAssertion
  | typeConfusion
  deriving DecidableEq, Repr

/-- Outcome of running a piece of Go code. `diverge` is "the fuel given to the
model ran out"; theorems show it does not occur.
Go semantics, as used by the code at `features/marshal/marshalto.go:575-586`. -/
inductive Res (α : Type) where
  | ok (a : α)
  | err (e : Err)
  | panic (p : Panic)
  | diverge
  deriving DecidableEq, Repr

namespace Res

/-- Sequencing: a non-nil `error` is returned to the caller and a panic goes on.
(`features/marshal/marshalto.go:582-585`) -/
def bind {α β : Type} : Res α → (α → Res β) → Res β
  | .ok a, f => f a
  | .err e, _ => .err e
  | .panic p, _ => .panic p
  | .diverge, _ => .diverge

instance : Monad Res where
  pure := Res.ok
  bind := Res.bind

@[simp] theorem bind_ok {α β : Type} (a : α) (f : α → Res β) : (Res.ok a >>= f) = f a := rfl
@[simp] theorem bind_err {α β : Type} (e : Err) (f : α → Res β) : ((Res.err e : Res α) >>= f) = .err e := rfl
@[simp] theorem bind_panic {α β : Type} (p : Panic) (f : α → Res β) : ((Res.panic p : Res α) >>= f) = .panic p := rfl
@[simp] theorem bind_diverge {α β : Type} (f : α → Res β) : ((Res.diverge : Res α) >>= f) = .diverge := rfl
@[simp] theorem pure_eq {α : Type} (a : α) : (pure a : Res α) = .ok a := rfl

/-- The code returned normally, with a value or with an `error`.
Go semantics, as used by the code at `features/marshal/marshalto.go:575-586`. -/
def Returns {α : Type} : Res α → Prop
  | .ok _ => True
  | .err _ => True
  | .panic _ => False
  | .diverge => False

/-- The code panicked.
Go semantics, as used by the code at `features/marshal/marshalto.go:54-81`. -/
def Panics {α : Type} : Res α → Prop
  | .panic _ => True
  | _ => False

/-- The code returned a non-nil `error`.
Go semantics, as used by the code at `features/marshal/marshalto.go:575-586`. -/
def Fails {α : Type} : Res α → Prop
  | .err _ => True
  | _ => False

instance {α : Type} (r : Res α) : Decidable r.Returns := by cases r <;> simp [Returns] <;> infer_instance
instance {α : Type} (r : Res α) : Decidable r.Panics := by cases r <;> simp [Panics] <;> infer_instance
instance {α : Type} (r : Res α) : Decidable r.Fails := by cases r <;> simp [Fails] <;> infer_instance

theorem bind_eq_ok {α β : Type} {r : Res α} {f : α → Res β} {b : β} :
    (r >>= f) = .ok b ↔ ∃ a, r = .ok a ∧ f a = .ok b := by
  cases r <;> simp

end Res

/-- Width in bits of Go's `int` on the target (`32` or `64`).
Go semantics, as used by the code at `features/size/size.go:42-59` and
`protohelpers/protohelpers.go:82-101`. -/
structure Arch where
  bits : Nat
  deriving DecidableEq, Repr

namespace Arch

/-- 64-bit targets.
Go semantics, as used by the code at `features/size/size.go:42-59` and
`protohelpers/protohelpers.go:82-101`. -/
def b64 : Arch := ⟨64⟩
/-- 32-bit targets.
Go semantics, as used by the code at `features/size/size.go:42-59` and
`protohelpers/protohelpers.go:82-101`. -/
def b32 : Arch := ⟨32⟩

/-- Two's-complement wrap-around of Go's `int` arithmetic.
Go semantics, as used by the code at `features/unmarshal/unmarshal.go:584-596`. -/
def wrap (A : Arch) (x : Int) : Int := x.bmod (2 ^ A.bits)

/-- One of the two widths Go supports.
Go semantics, as used by the code at `features/size/size.go:42-59` and
`protohelpers/protohelpers.go:82-101`. -/
def Valid (A : Arch) : Prop := A.bits = 32 ∨ A.bits = 64

instance (A : Arch) : Decidable A.Valid := by unfold Valid; infer_instance

/-- `n` is a length a Go slice can have with room for the index arithmetic
`iNdEx+8`. Go's allocator keeps slices below this on both widths.
(`features/unmarshal/unmarshal.go:584-596`) -/
def Fits (A : Arch) (n : Nat) : Prop := n + 8 < 2 ^ (A.bits - 1)

instance (A : Arch) (n : Nat) : Decidable (A.Fits n) := by unfold Fits; infer_instance

end Arch

end Vtp
