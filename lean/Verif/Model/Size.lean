import Verif.Model.Schema
import Mathlib.Data.List.Sort
/-!
# `SizeVT`: `features/size/size.go`

Sizes are natural numbers: overflow of `int` by a message of 2^63 bytes is not modelled.
-/

namespace Vtp

/-- What every generated method has around it: the schema and the protobuf-go runtime.
(`features/size/size.go:42-59`) -/
structure Env where
  S : Schema
  R : Runtime

/-- `uint64(n)` for a non-negative `int`.
Go semantics, as used by the code at `features/size/size.go:61-276`. -/
def u64 (n : Nat) : BitVec 64 := BitVec.ofNat 64 n

/-- Size of one scalar value after its key: the expressions for each kind at
`features/size/size.go:78-151,230-264` (fields) and `165-201` (map keys and values). -/
def sizeScalar (k : Kind) (v : Val) : Nat :=
  match k with
  | .double => 8
  | .fixed64 => 8
  | .sfixed64 => 8
  | .float => 4
  | .fixed32 => 4
  | .sfixed32 => 4
  | .int64 => sizeOfVarint v.bits
  | .uint64 => sizeOfVarint v.bits
  | .uint32 => sizeOfVarint v.bits
  | .enum => sizeOfVarint v.bits
  | .int32 => sizeOfVarint v.bits
  | .bool => 1
  | .string => v.bytes.length + sizeOfVarint (u64 v.bytes.length)
  | .bytes => v.bytes.length + sizeOfVarint (u64 v.bytes.length)
  | .sint32 => sizeOfZigzag v.bits
  | .sint64 => sizeOfZigzag v.bits
  | .message => 0
  | .group => 0

/-- `messageSize`, `features/size/size.go:42-59`: the type's own `SizeVT` (`rec`), or `proto.Size`. -/
def messageSize (E : Env) (rec : Nat → Val → Nat) (t : Nat) (v : Val) : Nat :=
  if (E.S.msg t).foreign then E.R.size t v else rec t v

/-- `mapEntrySize`, `features/size/size.go:163-218`. -/
def mapEntrySize (E : Env) (rec : Nat → Val → Nat) (md : MapDesc) (e : Key × Val) : Nat :=
  let keyPart := keySize 1 (protoWireType md.key) + sizeScalar md.key e.1.toVal
  match md.val with
  | .message =>
    -- lines 203-208
    let l := if e.2.isNil then 0 else messageSize E rec md.valMsg e.2
    keyPart + (l + (keySize 2 (protoWireType md.val) + sizeOfVarint (u64 l)))
  | k => keyPart + (keySize 2 (protoWireType md.val) + sizeScalar k e.2)

/-- Is the value the zero of an implicit-presence field: `m.F != 0` and `len(m.F) > 0` tests of
`features/size/size.go` and `features/marshal/marshalto.go`. (`features/size/size.go:61-276`) -/
def isZeroVal (k : Kind) (v : Val) : Bool :=
  match k with
  | .string => v.bytes.length == 0
  | .bytes => v.bytes.length == 0
  | k => isZeroNum k v.bits

/-- The part of `field` inside the outer `if`, `features/size/size.go:77-267`. `v` is the value of
the struct field. -/
def sizeFieldBody (E : Env) (rec : Nat → Val → Nat) (oneof : Bool) (f : FieldDesc) (v : Val) : Nat :=
  let nullable := f.hasMessage || (!oneof && f.presence)
  let repeated := f.card == .repeated
  let wireType := if f.packed then 2 else protoWireType f.kind
  let key := keySize f.num wireType
  -- the common tail of the scalar kinds: one value, guarded by `!= 0` for implicit presence
  let single (n : Nat) : Nat := if !oneof && !nullable && isZeroVal f.kind v then 0 else key + n
  -- lines 78-89, 90-101, 122-133
  let fixed (n : Nat) : Nat :=
    if f.packed then key + sizeOfVarint (u64 (v.elems.length * n)) + v.elems.length * n
    else if repeated then (key + n) * v.elems.length
    else single n
  -- lines 102-121, 245-264
  let var : Nat :=
    if f.packed then
      let l := (v.elems.map (sizeScalar f.kind)).sum
      key + sizeOfVarint (u64 l) + l
    else if repeated then (v.elems.map fun e => key + sizeScalar f.kind e).sum
    else single (sizeScalar f.kind v)
  -- lines 134-151, 230-244
  let str : Nat :=
    if repeated then (v.elems.map fun e => key + sizeScalar f.kind e).sum
    else single (sizeScalar f.kind v)
  match f.kind with
  | .double => fixed 8
  | .fixed64 => fixed 8
  | .sfixed64 => fixed 8
  | .float => fixed 4
  | .fixed32 => fixed 4
  | .sfixed32 => fixed 4
  | .bool => fixed 1
  | .int64 => var
  | .uint64 => var
  | .uint32 => var
  | .enum => var
  | .int32 => var
  | .sint32 => var
  | .sint64 => var
  | .string => str
  | .bytes => str
  | .group => messageSize E rec f.msg v + 2 * key
  | .message =>
    match f.map with
    | some md =>
      (v.entries.map fun e =>
        let s := mapEntrySize E rec md e
        s + keySize f.num (protoWireType f.kind) + sizeOfVarint (u64 s)).sum
    | none =>
      if repeated then
        (v.elems.map fun e => let l := messageSize E rec f.msg e; key + l + sizeOfVarint (u64 l)).sum
      else let l := messageSize E rec f.msg v; key + l + sizeOfVarint (u64 l)

/-- `field`, `features/size/size.go:61-276`, with its guards (65-69) and the `else` for an empty
message in a oneof (271-272). -/
def sizeField (E : Env) (rec : Nat → Val → Nat) (oneof : Bool) (f : FieldDesc) (v : Val) : Nat :=
  let nullable := f.hasMessage || (!oneof && f.presence)
  let repeated := f.card == .repeated
  let key := keySize f.num (if f.packed then 2 else protoWireType f.kind)
  if repeated then (if f.len v > 0 then sizeFieldBody E rec oneof f v else 0)
  else if nullable then
    if !v.isNil then sizeFieldBody E rec oneof f v
    else if oneof && f.kind == .message && f.map.isNone then key + 1
    else 0
  else sizeFieldBody E rec oneof f v

/-- The struct field holding `f`.
(`generator/generatedfile.go:67-108` and `features/size/size.go:309-320`) -/
def slotOf (slots : List Val) (f : FieldDesc) : Val := slots.getD f.slot .nil

/-- The member of the oneof with the given number (the Go wrapper type determines the member).
(`features/size/size.go:309-320`) -/
def MsgDesc.member (d : MsgDesc) (slot n : Nat) : Option FieldDesc :=
  d.fields.find? fun f => f.oneof && f.slot == slot && f.num == n

/-- The oneof part of `SizeVT`, `features/size/size.go:309-320` and the wrappers' `SizeVT`, `338-347`. -/
def sizeOneof (E : Env) (rec : Nat → Val → Nat) (d : MsgDesc) (slot : Nat) (v : Val) : Nat :=
  match v with
  | .wrap n x => match d.member slot n with
    | some f => sizeField E rec true f x
    | none => 0
  | _ => 0

/-- The loop over the fields, `features/size/size.go:298-322`; `seen` are the oneofs done. -/
def sizeFields (E : Env) (rec : Nat → Val → Nat) (d : MsgDesc) (slots : List Val) :
    List Nat → List FieldDesc → Nat
  | _, [] => 0
  | seen, f :: fs =>
    if f.oneof then
      if seen.contains f.slot then sizeFields E rec d slots seen fs
      else sizeOneof E rec d f.slot (slotOf slots f) + sizeFields E rec d slots (f.slot :: seen) fs
    else sizeField E rec false f (slotOf slots f) + sizeFields E rec d slots seen fs

/-- `SizeVT` with bounded recursion depth, `features/size/size.go:292-327`. -/
def sizeN (E : Env) : Nat → Nat → Val → Nat
  | 0, _, _ => 0
  | n + 1, t, v =>
    match v with
    | .msg slots unk _ =>
      let d := E.S.msg t
      sizeFields E (sizeN E n) d slots [] d.fields + (if d.keepUnknown then unk.length else 0)
    | _ => 0

/-- `SizeVT` of message type `t`, `features/size/size.go:292-327`. -/
def sizeVT (E : Env) (t : Nat) (v : Val) : Nat := sizeN E v.depth t v

end Vtp
