import Verif.Model.Helpers
/-!
# Schemas and Go values of generated message types

A `Schema` stands for the `.proto` files given to the generator together with the
generator's configuration. A `Val` stands for a Go value of a generated type.
-/

namespace Vtp

/-- `protoreflect.Kind`, the 18 kinds listed at `generator/helpers.go:24-43`. -/
inductive Kind where
  | bool | enum | int32 | sint32 | uint32 | int64 | sint64 | uint64
  | sfixed32 | fixed32 | float | sfixed64 | fixed64 | double
  | string | bytes | message | group
  deriving DecidableEq, Repr

/-- `wireTypes` / `ProtoWireType`, `generator/helpers.go:24-47`
(0 varint, 1 fixed64, 2 bytes, 3 start group, 4 end group, 5 fixed32). -/
def protoWireType : Kind → Nat
  | .bool => 0
  | .enum => 0
  | .int32 => 0
  | .sint32 => 0
  | .uint32 => 0
  | .int64 => 0
  | .sint64 => 0
  | .uint64 => 0
  | .sfixed32 => 5
  | .fixed32 => 5
  | .float => 5
  | .sfixed64 => 1
  | .fixed64 => 1
  | .double => 1
  | .string => 2
  | .bytes => 2
  | .message => 2
  | .group => 3

/-- `uint32(fieldNumber)<<3 | uint32(wireType)`: `generator/helpers.go:15`,
`features/marshal/marshalto.go:69`. -/
def keyBits (num wt : Nat) : BitVec 32 := (BitVec.ofNat 32 num <<< 3) ||| BitVec.ofNat 32 wt

/-- Loop of `KeySize`, `generator/helpers.go:16-20`; five rounds exhaust 32 bits. -/
def keySizeLoop : Nat → BitVec 32 → Nat
  | 0, _ => 0
  | n + 1, x => if x.toNat > 127 then keySizeLoop n (x >>> 7) + 1 else 1

/-- `KeySize`, `generator/helpers.go:14-22`. -/
def keySize (num wt : Nat) : Nat := keySizeLoop 5 (keyBits num wt)

/-- Loop building `keybuf` in `encodeKey`, `features/marshal/marshalto.go:72-76`. -/
def keyBufLoop : Nat → BitVec 32 → Bytes
  | 0, _ => []
  | n + 1, x =>
    if x.toNat > 127 then UInt8.ofBitVec (0x80 ||| (x &&& 0x7f).setWidth 8) :: keyBufLoop n (x >>> 7)
    else [UInt8.ofBitVec (x.setWidth 8)]

/-- The key bytes, `features/marshal/marshalto.go:69-76`. -/
def keyBuf (num wt : Nat) : Bytes := keyBufLoop 5 (keyBits num wt)

/-- `protoreflect.Cardinality`.
(`features/equal/equal.go:193` and `features/unmarshal/unmarshal.go:716-795`) -/
inductive Card where
  | optional | required | repeated
  deriving DecidableEq, Repr

/-- Key and value of a map field: `field.Message.Fields[0]` and `[1]`.
(`generator/generatedfile.go:102-105` and `features/equal/equal.go:208`) -/
structure MapDesc where
  key : Kind
  val : Kind
  /-- index of the value's message type, for message values -/
  valMsg : Nat := 0
  deriving DecidableEq, Repr

/-- What the generator reads of a `protogen.Field`.
(`generator/generatedfile.go:67-108` and `features/marshal/marshalto.go:115-532`) -/
structure FieldDesc where
  /-- `field.Desc.Number()` -/
  num : Nat
  /-- which struct field of the Go message holds the value; the members of a oneof
  share the slot of the oneof's interface field -/
  slot : Nat
  /-- `field.Desc.Kind()` -/
  kind : Kind
  /-- `field.Desc.Cardinality()` -/
  card : Card := .optional
  /-- `field.Desc.HasPresence()` -/
  presence : Bool := false
  /-- `field.Desc.IsPacked()` -/
  packed : Bool := false
  /-- `field.Oneof != nil && !field.Oneof.Desc.IsSynthetic()` -/
  oneof : Bool := false
  /-- `field.Oneof != nil && field.Oneof.Desc.IsSynthetic()` -/
  synthetic : Bool := false
  /-- index of the message type of `field.Message` for message and group kinds -/
  msg : Nat := 0
  /-- key and value descriptors if `field.Desc.IsMap()` -/
  map : Option MapDesc := none
  deriving DecidableEq, Repr

namespace FieldDesc

/-- `field.Message != nil`. (`features/equal/equal.go:110`) -/
def hasMessage (f : FieldDesc) : Bool := f.kind == .message || f.kind == .group

/-- `field.Desc.IsList()`: repeated and not a map. (`generator/generatedfile.go:100-101`) -/
def isList (f : FieldDesc) : Bool := f.card == .repeated && f.map.isNone

end FieldDesc

/-- What the generator reads of a `protogen.Message`, and the configuration for it.
(`generator/generatedfile.go:27-52` and `features/unmarshal/unmarshal.go:797-892`) -/
structure MsgDesc where
  fields : List FieldDesc
  /-- number of struct fields of the Go type (oneofs count once) -/
  nslots : Nat
  /-- `file.Desc.Syntax() == protoreflect.Proto3`, `features/unmarshal/unmarshal.go:41` -/
  proto3 : Bool := true
  /-- `!p.Wrapper() && !p.ShouldIgnoreUnknownFields(message)` -/
  keepUnknown : Bool := true
  /-- `message.Desc.ExtensionRanges()`, half open -/
  extRanges : List (Nat × Nat) := []
  /-- `p.ShouldPool(message)` -/
  pooled : Bool := false
  /-- the Go type is from another package and has no vtproto methods, so the
  protobuf-go runtime is used for it (the `else` branches at
  `features/size/size.go:55`, `features/marshal/marshalto.go:736`,
  `features/unmarshal/unmarshal.go:75`) -/
  foreign : Bool := false
  deriving DecidableEq, Repr

/-- All message types, referred to by index. (`features/marshal/marshalto.go:561-573`) -/
abbrev Schema := List MsgDesc

/-- The descriptor of message type `t`. (`features/marshal/marshalto.go:561-573`) -/
def Schema.msg (S : Schema) (t : Nat) : MsgDesc := S.getD t ⟨[], 0, true, true, [], false, false⟩

/-- Map keys. (`features/marshal/marshalto.go:83-113`) -/
inductive Key where
  | num (n : BitVec 64)
  | str (b : Bytes)
  deriving DecidableEq, Repr

/-- A Go value held by a generated message.

* `num n`: any numeric, bool or enum value; `n` is `uint64(x)`, that is the value
  sign- or zero-extended to 64 bits; for floats the IEEE bits. A pointer to a
  scalar (explicit presence) is `nil` or the scalar itself.
* `str b`: a string, or a non-nil `[]byte`; the capacity of byte slices is not
  represented here (see the aliasing layer).
* `msg slots unk ext`: a non-nil message pointer: struct fields, `unknownFields`,
  and the contents of the runtime's extension store, which no vtproto method
  except `UnmarshalVT` touches.
* `list xs spare`: a non-nil slice; `spare` are the leading elements between length and
  capacity, kept because pooled messages reuse them.
* `map es`: a non-nil map; the order of `es` is the iteration order.
* `wrap n v`: a oneof wrapper struct for the member with number `n`;
  `wrapNil n`: a typed nil pointer to that wrapper.
(`generator/generatedfile.go:67-108`) -/
inductive Val where
  | nil
  | num (n : BitVec 64)
  | str (b : Bytes)
  | msg (slots : List Val) (unk : Bytes) (ext : Bytes)
  | list (xs : List Val) (spare : List Val)
  | map (es : List (Key × Val))
  | wrap (num : Nat) (v : Val)
  | wrapNil (num : Nat)
  deriving Repr, Inhabited

mutual
/-- Nesting depth of a value; fuel for the recursion through messages.
Go semantics, as used by the code at `features/marshal/marshalto.go:720-748`. -/
def Val.depth : Val → Nat
  | .nil => 0
  | .num _ => 0
  | .str _ => 0
  | .msg s _ _ => 1 + Val.depthList s
  | .list xs sp => 1 + max (Val.depthList xs) (Val.depthList sp)
  | .map es => 1 + Val.depthEntries es
  | .wrap _ v => 1 + v.depth
  | .wrapNil _ => 1
/-- `Val.depth` over a list. Go semantics, as used by the code at
`features/marshal/marshalto.go:720-748`. -/
def Val.depthList : List Val → Nat
  | [] => 0
  | v :: vs => max v.depth (Val.depthList vs)
/-- `Val.depth` over the entries of a map. Go semantics, as used by the code at
`features/marshal/marshalto.go:720-748`. -/
def Val.depthEntries : List (Key × Val) → Nat
  | [] => 0
  | (_, v) :: vs => max v.depth (Val.depthEntries vs)
end

mutual
/-- Boolean equality of values (structural).
Go semantics, as used by the code at `features/equal/equal.go:57-121`. -/
def Val.beq : Val → Val → Bool
  | .nil, .nil => true
  | .num a, .num b => a == b
  | .str a, .str b => a == b
  | .msg s u e, .msg s' u' e' => Val.beqList s s' && u == u' && e == e'
  | .list a b, .list a' b' => Val.beqList a a' && Val.beqList b b'
  | .map a, .map b => Val.beqEntries a b
  | .wrap a v, .wrap b w => a == b && v.beq w
  | .wrapNil a, .wrapNil b => a == b
  | _, _ => false
/-- `Val.beq` on lists. Go semantics, as used by the code at `features/equal/equal.go:57-121`. -/
def Val.beqList : List Val → List Val → Bool
  | [], [] => true
  | a :: as, b :: bs => a.beq b && Val.beqList as bs
  | _, _ => false
/-- `Val.beq` on the entries of maps. Go semantics, as used by the code at
`features/equal/equal.go:57-121`. -/
def Val.beqEntries : List (Key × Val) → List (Key × Val) → Bool
  | [], [] => true
  | (k, v) :: as, (k', v') :: bs => k == k' && v.beq v' && Val.beqEntries as bs
  | _, _ => false
end

mutual
theorem Val.eq_of_beq : (a b : Val) → a.beq b = true → a = b
  | .nil, b, h => by cases b <;> simp_all [Val.beq]
  | .num _, b, h => by cases b <;> simp_all [Val.beq]
  | .str _, b, h => by cases b <;> simp_all [Val.beq]
  | .msg s u e, b, h => by
    cases b <;> simp_all [Val.beq]
    exact Val.eq_of_beqList _ _ h.1.1
  | .list a a', b, h => by
    cases b <;> simp_all [Val.beq]
    exact ⟨Val.eq_of_beqList _ _ h.1, Val.eq_of_beqList _ _ h.2⟩
  | .map es, b, h => by
    cases b <;> simp_all [Val.beq]
    exact Val.eq_of_beqEntries _ _ h
  | .wrap n v, b, h => by
    cases b <;> simp_all [Val.beq]
    exact Val.eq_of_beq _ _ h.2
  | .wrapNil n, b, h => by cases b <;> simp_all [Val.beq]
theorem Val.eq_of_beqList : (a b : List Val) → Val.beqList a b = true → a = b
  | [], b, h => by cases b <;> simp_all [Val.beqList]
  | a :: as, b, h => by
    cases b <;> simp_all [Val.beqList]
    exact ⟨Val.eq_of_beq _ _ h.1, Val.eq_of_beqList _ _ h.2⟩
theorem Val.eq_of_beqEntries : (a b : List (Key × Val)) → Val.beqEntries a b = true → a = b
  | [], b, h => by cases b <;> simp_all [Val.beqEntries]
  | (k, v) :: as, b, h => by
    cases b with
    | nil => simp [Val.beqEntries] at h
    | cons p bs =>
      obtain ⟨k', v'⟩ := p
      simp [Val.beqEntries] at h
      simp [h.1.1, Val.eq_of_beq _ _ h.1.2, Val.eq_of_beqEntries _ _ h.2]
end

mutual
theorem Val.beq_self : (a : Val) → a.beq a = true
  | .nil => rfl
  | .num _ => by simp [Val.beq]
  | .str _ => by simp [Val.beq]
  | .msg s _ _ => by simp [Val.beq, Val.beqList_self s]
  | .list a b => by simp [Val.beq, Val.beqList_self a, Val.beqList_self b]
  | .map es => by simp [Val.beq, Val.beqEntries_self es]
  | .wrap _ v => by simp [Val.beq, Val.beq_self v]
  | .wrapNil _ => by simp [Val.beq]
theorem Val.beqList_self : (a : List Val) → Val.beqList a a = true
  | [] => rfl
  | a :: as => by simp [Val.beqList, Val.beq_self a, Val.beqList_self as]
theorem Val.beqEntries_self : (a : List (Key × Val)) → Val.beqEntries a a = true
  | [] => rfl
  | (_, v) :: as => by simp [Val.beqEntries, Val.beq_self v, Val.beqEntries_self as]
end

instance : DecidableEq Val := fun a b =>
  if h : a.beq b = true then .isTrue (Val.eq_of_beq a b h)
  else .isFalse (fun e => h (e ▸ Val.beq_self a))

namespace Val

/-- `x == nil` for pointers, slices, maps and interfaces.
Go semantics, as used by the code at `features/equal/equal.go:59-63,83-87`. -/
def isNil : Val → Bool
  | .nil => true
  | _ => false

/-- The 64-bit pattern of a scalar.
Go semantics, as used by the code at `features/marshal/marshalto.go:54-66`. -/
def bits : Val → BitVec 64
  | .num n => n
  | _ => 0

/-- The contents of a string or byte slice (nil slices are empty).
Go semantics, as used by the code at `features/size/size.go:61-276`. -/
def bytes : Val → Bytes
  | .str b => b
  | _ => []

/-- Elements of a slice (nil slices are empty).
Go semantics, as used by the code at `features/size/size.go:61-276`. -/
def elems : Val → List Val
  | .list xs _ => xs
  | _ => []

/-- Entries of a map in iteration order (nil maps are empty).
Go semantics, as used by the code at `features/size/size.go:61-276`. -/
def entries : Val → List (Key × Val)
  | .map es => es
  | _ => []

end Val

/-- Go's `len(m.F)` for a repeated or map field.
Go semantics, as used by the code at `features/size/size.go:61-276`. -/
def FieldDesc.len (f : FieldDesc) (v : Val) : Nat :=
  if f.map.isSome then v.entries.length else v.elems.length

/-- A map key as a value. (`features/size/size.go:163-218`) -/
def Key.toVal : Key → Val
  | .num n => .num n
  | .str b => .str b

/-- Go's `x != 0` (or `x` for bool) on a scalar of the kind: both zeros of a float
are equal to 0. Go semantics, as used by the code at `features/size/size.go:61-276`. -/
def isZeroNum (k : Kind) (n : BitVec 64) : Bool :=
  match k with
  | .double => (n <<< 1) == 0
  | .float => ((n.setWidth 32) <<< 1) == 0
  | _ => n == 0

/-- The protobuf-go runtime (`google.golang.org/protobuf/proto`), used for messages
without vtproto methods and for extensions. It is not part of the repository; the
functions are parameters of the model and theorems state what they assume of them.
`none` stands for an error.
(`features/size/size.go:42-59`, `features/marshal/marshalto.go:720-748`,
`features/unmarshal/unmarshal.go:55-81,844-858` and `features/equal/equal.go:284-291`) -/
structure Runtime where
  /-- `proto.Size` -/
  size : Nat → Val → Nat
  /-- `proto.Marshal` -/
  marshal : Nat → Val → Option Bytes
  /-- `proto.Unmarshal(b, m)`: resets `m`, then decodes -/
  unmarshal : Nat → Bytes → Option Val
  /-- `proto.UnmarshalOptions{AllowPartial: true}.Unmarshal(b, m)`: resets `m`, then decodes -/
  unmarshalPartial : Nat → Bytes → Option Val
  /-- `proto.Equal` -/
  equal : Nat → Val → Val → Bool
  /-- `proto.Clone` -/
  clone : Nat → Val → Val

/-- A runtime for schemas which do not use it.
(`features/size/size.go:42-59`, `features/marshal/marshalto.go:720-748`,
`features/unmarshal/unmarshal.go:55-81,844-858` and `features/equal/equal.go:284-291`) -/
def Runtime.none : Runtime :=
  ⟨fun _ _ => 0, fun _ _ => some [], fun _ _ => Option.none, fun _ _ => Option.none, fun _ _ _ => false, fun _ v => v⟩

end Vtp
