import Verif.Model.Config
import Verif.Model.Schema
/-!
# The generator: which methods it declares and which it calls

`Generator.Generate` and the seven feature generators, as far as they decide which files are written, which methods and pools are declared in
them, and which methods and pools the emitted code refers to. The emitted statements themselves are modelled by the interpreters in the other
files of the model; here every line that neither declares nor refers to a method, a pool or a wrapper type is left out.
-/

namespace Vtp

/-- Text as bytes. Go semantics, as used by the code at `generator/generatedfile.go:126-171`. -/
def asc (s : String) : Bytes := s.toList.map fun c => UInt8.ofNat c.toNat

/-- What the generator reads of `field.Message`: `GoIdent`, `Desc.FullName()`, `Desc.ParentFile().Package()` and the two options.
(`generator/generatedfile.go:110-116,173-204`) -/
structure MsgRef extends MsgInfo where
  fullName : Bytes
  pkg : Bytes
  deriving DecidableEq, Repr

/-- What the generator reads of `*protogen.Field` to decide what to declare and what to call.
(`generator/generatedfile.go:67-124`) -/
structure GField where
  /-- `field.GoIdent`: for members of a oneof the wrapper type -/
  goIdent : GoIdent
  /-- `field.Desc.FullName()` -/
  fullName : Bytes
  /-- `field.Desc.Kind()` -/
  kind : Kind
  /-- `field.Desc.Cardinality()` -/
  card : Card := .optional
  /-- `field.Oneof`: its name and `IsSynthetic()` -/
  oneof : Option (Bytes × Bool) := none
  /-- `field.Message`, for fields of message or group kind that are no maps -/
  message : Option MsgRef := none
  /-- for maps: kinds of key and value and the value's message -/
  map : Option (Kind × Kind × Option MsgRef) := none
  deriving DecidableEq, Repr

/-- `*protogen.Message`: what it says about itself, `Desc.IsMapEntry()`, its fields, whether it has extension ranges, and the messages declared
inside of it. (`generator/generatedfile.go:27-52` and `features/marshal/marshalto.go:561-572`) -/
inductive GMsg where
  | mk (info : MsgRef) (mapEntry : Bool) (fields : List GField) (extensions : Bool) (nested : List GMsg)

namespace GMsg
/-- the message as others refer to it
(`generator/generatedfile.go:27-52` and `features/marshal/marshalto.go:561-572`) -/
def info : GMsg → MsgRef | mk i _ _ _ _ => i
/-- `message.Desc.IsMapEntry()`
(`generator/generatedfile.go:27-52` and `features/marshal/marshalto.go:561-572`) -/
def mapEntry : GMsg → Bool | mk _ e _ _ _ => e
/-- `message.Fields`
(`generator/generatedfile.go:27-52` and `features/marshal/marshalto.go:561-572`) -/
def fields : GMsg → List GField | mk _ _ f _ _ => f
/-- `message.Desc.ExtensionRanges().Len() > 0`
(`generator/generatedfile.go:27-52` and `features/marshal/marshalto.go:561-572`) -/
def extensions : GMsg → Bool | mk _ _ _ x _ => x
/-- `message.Messages`
(`generator/generatedfile.go:27-52` and `features/marshal/marshalto.go:561-572`) -/
def nested : GMsg → List GMsg | mk _ _ _ _ n => n
end GMsg

/-- `*protogen.Method`: the types of its messages. (`features/grpc/grpc.go:238-318`) -/
structure Rpc where
  input : MsgRef
  output : MsgRef
  deriving DecidableEq, Repr

/-- `*protogen.File`: import path of its Go package, `Desc.Package()`, whether protoc asked for it, its messages, the methods of each of its
services, and the import path of the package into which a wrapper file is put.
(`generator/generator.go:84-113`) -/
structure GFile where
  name : Bytes
  goImportPath : Bytes
  pkg : Bytes
  generate : Bool
  messages : List GMsg
  services : List (List Rpc) := []
  wrapPath : Bytes := []

/-- `Config`, `generator/generator.go:54-65`, without the build tag. -/
structure GenConfig extends Config where
  wrap : Bool := false
  allowEmpty : Bool := false

/-- The features registered at `features/*/*.go`; `true` are the variants `marshal_strict` and `unmarshal_unsafe`.
(`features/marshal/marshalto.go:20-27`) -/
inductive Feature where
  | clone | equal | grpc | marshal (strict : Bool) | pool | size | unmarshal (uns : Bool)
  deriving DecidableEq, Repr

/-- The methods. (`features/marshal/marshalto.go:534-559`) -/
inductive Meth where
  | sizeVT | marshalVT (strict : Bool) | marshalToVT (strict : Bool) | marshalToSizedBufferVT (strict : Bool) | unmarshalVT (uns : Bool)
  | cloneVT | cloneMessageVT | equalVT | equalMessageVT | resetVT | returnToVTPool
  deriving DecidableEq, Repr

/-- The static type of an expression on which a method is called: pointer to a message or wrapper, slice of such, or the interface of a oneof.
(`features/marshal/marshalto.go:720-748`) -/
inductive Recv where
  | ptr (g : GoIdent) | slice (g : GoIdent) | iface
  deriving DecidableEq, Repr

/-- `(*g)(x)`: a conversion to a type with the same underlying type.
(`features/equal/equal.go:275-279`) -/
def Recv.conv : Recv → GoIdent → Recv
  | .ptr _, g => .ptr g
  | .slice _, g => .slice g
  | .iface, _ => .iface

/-- What is recorded of the emitted text.
Go semantics, as used by the code at `features/marshal/marshalto.go:575-591`. -/
inductive Item where
  /-- `type name orig` -/
  | type (name orig : GoIdent)
  /-- `func (m *recv) meth(...)` -/
  | method (recv : GoIdent) (meth : Meth)
  /-- the variable `vtprotoPool_g` and the function `gFromVTPool` -/
  | pool (g : GoIdent)
  /-- a call of a method, to be resolved by the compiler -/
  | call (x : Recv) (meth : Meth)
  /-- a call through a type assertion on the value of a oneof, to be resolved at run time -/
  | expects (g : GoIdent) (meth : Meth)
  /-- use as a `proto.Message`, or a call of `Reset` -/
  | message (x : Recv)
  /-- `gFromVTPool()` -/
  | fromPool (g : GoIdent)
  /-- the generator panics -/
  | crash
  deriving DecidableEq, Repr

/-- `GeneratedFile`, `generator/generatedfile.go:17-21`. -/
structure GenFile where
  file : GFile
  cfg : GenConfig
  localPackages : List Bytes

namespace GenFile
variable (p : GenFile)

/-- The package the file is written to, `generator/generator.go:104-109`. -/
def outPkg : Bytes := if p.cfg.wrap then p.file.wrapPath else p.file.goImportPath

/-- A name printed without its package. (`features/marshal/marshalto.go:573-575`) -/
def bare (name : Bytes) : GoIdent := ⟨p.outPkg, name⟩

/-- `QualifiedGoIdent` of protogen: an identifier of the file's own package, which is empty for wrapper files
(`generator/generator.go:104-109`), is printed without its package. -/
def qualified (g : GoIdent) : GoIdent :=
  if g.importPath = (if p.cfg.wrap then [] else p.file.goImportPath) then p.bare g.goName else g

/-- `ShouldPool`, `generator/generatedfile.go:27-42`. -/
def pools (r : Option MsgRef) : Bool := shouldPool p.cfg.toConfig (r.map (·.toMsgInfo))

/-- `IsLocalMessage`, `generator/generatedfile.go:110-116`. -/
def isLocalMessage (r : MsgRef) : Bool := p.localPackages.contains r.pkg

/-- `vtWellKnownPackage`, `generator/generatedfile.go:142`. -/
def vtWellKnownPackage : Bytes := asc "github.com/planetscale/vtprotobuf/types/known/"

/-- `wellKnownTypes`, `generator/generatedfile.go:144-162`. -/
def wellKnownTypes : List (Bytes × GoIdent) := [
  (asc "google.protobuf.Any",         ⟨vtWellKnownPackage ++ asc "anypb", asc "Any"⟩),
  (asc "google.protobuf.Duration",    ⟨vtWellKnownPackage ++ asc "durationpb", asc "Duration"⟩),
  (asc "google.protobuf.Empty",       ⟨vtWellKnownPackage ++ asc "emptypb", asc "Empty"⟩),
  (asc "google.protobuf.FieldMask",   ⟨vtWellKnownPackage ++ asc "fieldmaskpb", asc "FieldMask"⟩),
  (asc "google.protobuf.Timestamp",   ⟨vtWellKnownPackage ++ asc "timestamppb", asc "Timestamp"⟩),
  (asc "google.protobuf.DoubleValue", ⟨vtWellKnownPackage ++ asc "wrapperspb", asc "DoubleValue"⟩),
  (asc "google.protobuf.FloatValue",  ⟨vtWellKnownPackage ++ asc "wrapperspb", asc "FloatValue"⟩),
  (asc "google.protobuf.Int64Value",  ⟨vtWellKnownPackage ++ asc "wrapperspb", asc "Int64Value"⟩),
  (asc "google.protobuf.UInt64Value", ⟨vtWellKnownPackage ++ asc "wrapperspb", asc "UInt64Value"⟩),
  (asc "google.protobuf.Int32Value",  ⟨vtWellKnownPackage ++ asc "wrapperspb", asc "Int32Value"⟩),
  (asc "google.protobuf.UInt32Value", ⟨vtWellKnownPackage ++ asc "wrapperspb", asc "UInt32Value"⟩),
  (asc "google.protobuf.BoolValue",   ⟨vtWellKnownPackage ++ asc "wrapperspb", asc "BoolValue"⟩),
  (asc "google.protobuf.StringValue", ⟨vtWellKnownPackage ++ asc "wrapperspb", asc "StringValue"⟩),
  (asc "google.protobuf.BytesValue",  ⟨vtWellKnownPackage ++ asc "wrapperspb", asc "BytesValue"⟩),
  (asc "google.protobuf.Struct",      ⟨vtWellKnownPackage ++ asc "structpb", asc "Struct"⟩),
  (asc "google.protobuf.Value",       ⟨vtWellKnownPackage ++ asc "structpb", asc "Value"⟩),
  (asc "google.protobuf.ListValue",   ⟨vtWellKnownPackage ++ asc "structpb", asc "ListValue"⟩)]

/-- `wellKnownFields`, `generator/generatedfile.go:164-171`. -/
def wellKnownFields : List (Bytes × GoIdent) := [
  (asc "google.protobuf.Value.null_value",   ⟨vtWellKnownPackage ++ asc "structpb", asc "Value_NullValue"⟩),
  (asc "google.protobuf.Value.number_value", ⟨vtWellKnownPackage ++ asc "structpb", asc "Value_NumberValue"⟩),
  (asc "google.protobuf.Value.string_value", ⟨vtWellKnownPackage ++ asc "structpb", asc "Value_StringValue"⟩),
  (asc "google.protobuf.Value.bool_value",   ⟨vtWellKnownPackage ++ asc "structpb", asc "Value_BoolValue"⟩),
  (asc "google.protobuf.Value.struct_value", ⟨vtWellKnownPackage ++ asc "structpb", asc "Value_StructValue"⟩),
  (asc "google.protobuf.Value.list_value",   ⟨vtWellKnownPackage ++ asc "structpb", asc "Value_ListValue"⟩)]

/-- Lookup in one of the two tables. (`generator/generatedfile.go:144-171`) -/
def lookup (l : List (Bytes × GoIdent)) (n : Bytes) : Option GoIdent := (l.find? fun e => e.1 = n).map (·.2)

/-- `IsWellKnownType` together with `WellKnownTypeMap`, `generator/generatedfile.go:173-179` and `:195-204`: `none` if the message is no
well-known type. -/
def wellKnownTypeMap (r : MsgRef) : Option GoIdent :=
  (lookup wellKnownTypes r.fullName).map fun g => if p.isLocalMessage r then ⟨[], g.goName⟩ else g

/-- `IsWellKnownType`, `generator/generatedfile.go:173-179`. -/
def isWellKnownType (_p : GenFile) (r : MsgRef) : Bool := (lookup wellKnownTypes r.fullName).isSome

/-- `WellKnownFieldMap`, `generator/generatedfile.go:181-193`, of a field of message `m`, which is in the same file: `none` where it panics. -/
def wellKnownFieldMap (m : GMsg) (f : GField) : Option GoIdent :=
  (lookup wellKnownFields f.fullName).map fun g => if p.isLocalMessage m.info then ⟨[], g.goName⟩ else g

end GenFile

namespace GField

/-- `field.Oneof != nil && !field.Oneof.Desc.IsSynthetic()`. (`features/equal/equal.go:72,109`) -/
def isOneof (f : GField) : Bool := match f.oneof with
  | some (_, s) => !s
  | none => false

/-- Type of `m.F` for a field of message or group kind.
(`features/marshal/marshalto.go:115-532`) -/
def recv (f : GField) (r : MsgRef) : Recv := if f.card = .repeated then .slice r.ident else .ptr r.ident

end GField

/-- The oneofs that are not synthetic, each once and with its members (`oneof.Fields`).
(`features/equal/equal.go:69-106`) -/
def GMsg.oneofs (m : GMsg) : List (List GField) :=
  ((m.fields.filter (·.isOneof)).map (·.oneof)).eraseDups.map fun o => m.fields.filter fun f => f.oneof = o

/-- A call on the value of a member of a oneof after conversion to the type of package `types/known`:
`features/size/size.go:310-314`, `features/marshal/marshalto.go:631-633` and `:655-661`, `features/equal/equal.go:90-97`,
`features/clone/clone.go:58-63`. -/
def wellKnownOneof (p : GenFile) (m : GMsg) (meth : Meth) (f : GField) : Item := match p.wellKnownFieldMap m f with
  | none => .crash
  | some g => .call (.ptr (p.qualified g)) meth

/-! ## size -/

/-- `messageSize`, `features/size/size.go:42-59`. -/
def genMessageSize (p : GenFile) (x : Recv) (r : MsgRef) : List Item := match p.wellKnownTypeMap r with
  | some g => [.call (x.conv (p.qualified g)) .sizeVT]
  | none => if p.isLocalMessage r then [.call x .sizeVT] else [.message x]

/-- `field`, `features/size/size.go:61-275`: the calls for group, map, list and singular fields. -/
def genSizeField (p : GenFile) (f : GField) : List Item := match f.kind, f.map, f.message with
  | .group, none, some r => genMessageSize p (f.recv r) r
  | .message, some (_, .message, some r), _ => genMessageSize p (.ptr r.ident) r
  | .message, none, some r => genMessageSize p (.ptr r.ident) r
  | _, _, _ => []

/-- The type with which the methods for a member of a oneof are declared, `features/size/size.go:334-338`. -/
def genSizeOneofType (p : GenFile) (m : GMsg) (f : GField) : GoIdent :=
  p.qualified (if p.isWellKnownType m.info && p.isLocalMessage m.info then ⟨[], f.goIdent.goName⟩ else f.goIdent)

/-- `message`, `features/size/size.go:278-349`. -/
def genSize (p : GenFile) (m : GMsg) : List Item :=
  .method (p.bare m.info.ident.goName) .sizeVT
  :: (m.fields.filter (! ·.isOneof)).flatMap (genSizeField p)
  ++ m.oneofs.flatMap (·.map fun f => if p.isWellKnownType m.info then wellKnownOneof p m .sizeVT f else .expects f.goIdent .sizeVT)
  ++ (m.fields.filter (·.isOneof)).flatMap fun f => .method (genSizeOneofType p m f) .sizeVT :: genSizeField p f

/-! ## marshal -/

/-- `marshalBackward`, `features/marshal/marshalto.go:719-748`. -/
def genMarshalBackward (p : GenFile) (strict : Bool) (x : Recv) (r : MsgRef) : List Item := match p.wellKnownTypeMap r with
  | some g => [.call (x.conv (p.qualified g)) (.marshalToSizedBufferVT strict)]
  | none => if p.isLocalMessage r then [.call x (.marshalToSizedBufferVT strict)] else [.message x]

/-- `field` and `mapField`, `features/marshal/marshalto.go:82-532`. -/
def genMarshalField (p : GenFile) (strict : Bool) (f : GField) : List Item := match f.kind, f.map, f.message with
  | .group, none, some r => genMarshalBackward p strict (f.recv r) r
  | .message, some (_, .message, some r), _ => genMarshalBackward p strict (.ptr r.ident) r
  | .message, none, some r => genMarshalBackward p strict (.ptr r.ident) r
  | _, _, _ => []

/-- The code for oneofs, `features/marshal/marshalto.go:624-676`; the strict variant names the type of every member, the other asks whether
the value has the method. -/
def genMarshalOneof (p : GenFile) (strict : Bool) (m : GMsg) (f : GField) : Item :=
  if p.isWellKnownType m.info then wellKnownOneof p m (.marshalToSizedBufferVT strict) f
  else if strict then .call (.ptr (p.bare f.goIdent.goName)) (.marshalToSizedBufferVT strict)
  else .expects f.goIdent (.marshalToSizedBufferVT strict)

/-- `message`, `features/marshal/marshalto.go:561-703`. -/
def genMarshal (p : GenFile) (strict : Bool) (m : GMsg) : List Item :=
  let self := p.bare m.info.ident.goName
  [.method self (.marshalVT strict), .call (.ptr self) .sizeVT, .call (.ptr self) (.marshalToSizedBufferVT strict),
   .method self (.marshalToVT strict), .method self (.marshalToSizedBufferVT strict)]
  ++ (m.fields.filter (! ·.isOneof)).flatMap (genMarshalField p strict)
  ++ m.oneofs.flatMap (·.map (genMarshalOneof p strict m))
  ++ (m.fields.filter (·.isOneof)).flatMap fun f =>
    let self := p.bare f.goIdent.goName
    [.method self (.marshalToVT strict), .call (.ptr self) .sizeVT, .call (.ptr self) (.marshalToSizedBufferVT strict),
     .method self (.marshalToSizedBufferVT strict)] ++ genMarshalField p strict f

/-! ## unmarshal -/

/-- `decodeMessage`, `features/unmarshal/unmarshal.go:56-81`. -/
def genDecodeMessage (p : GenFile) (uns : Bool) (x : Recv) (r : MsgRef) : List Item := match p.wellKnownTypeMap r with
  | some g => [.call (x.conv (p.qualified g)) (.unmarshalVT uns)]
  | none => if p.isLocalMessage r then [.call x (.unmarshalVT uns)] else [.message x]

/-- `field`, `fieldItem` and `mapField`, `features/unmarshal/unmarshal.go:159-790`. For a group in a oneof, `m.F` is the interface of the
oneof (`:717-719`). -/
def genUnmarshalField (p : GenFile) (uns : Bool) (m : GMsg) (f : GField) : List Item := match f.kind, f.map, f.message with
  | .group, none, some r => genDecodeMessage p uns (if f.isOneof then .iface else f.recv r) r
  | .message, some (_, .message, some r), _ => genDecodeMessage p uns (.ptr r.ident) r
  | .message, none, some r =>
    (if f.card ≠ .repeated && p.pools (some m.info) && p.pools (some r) then [.fromPool (p.qualified r.ident)] else [])
    ++ genDecodeMessage p uns (.ptr r.ident) r
  | _, _, _ => []

/-- `message`, `features/unmarshal/unmarshal.go:792-892`. -/
def genUnmarshal (p : GenFile) (uns : Bool) (m : GMsg) : List Item :=
  let self := p.bare m.info.ident.goName
  [.method self (.unmarshalVT uns)] ++ m.fields.flatMap (genUnmarshalField p uns m)
  ++ if m.extensions then [.message (.ptr self)] else []

/-! ## equal -/

/-- `compareCall`, `features/equal/equal.go:258-294`. -/
def genCompareCall (p : GenFile) (x : Recv) (r : MsgRef) : List Item := match p.wellKnownTypeMap r with
  | some g => [.call (x.conv (p.qualified g)) .equalVT]
  | none => if p.isLocalMessage r then [.call x .equalVT] else [.message x]

/-- `field` and the end of `oneof`, `features/equal/equal.go:174-232`. -/
def genEqualField (p : GenFile) (f : GField) : List Item := match f.kind, f.map, f.message with
  | .group, none, some r => genCompareCall p (.ptr r.ident) r
  | .message, some (_, .message, some r), _ => genCompareCall p (.ptr r.ident) r
  | .message, none, some r => genCompareCall p (.ptr r.ident) r
  | _, _, _ => []

/-- `message` and `oneof`, `features/equal/equal.go:45-188`. -/
def genEqual (p : GenFile) (m : GMsg) : List Item :=
  let self := p.bare m.info.ident.goName
  [.method self .equalVT]
  ++ m.oneofs.flatMap (·.map fun f => if p.isWellKnownType m.info then wellKnownOneof p m .equalVT f else .expects f.goIdent .equalVT)
  ++ (m.fields.filter (! ·.isOneof)).flatMap (genEqualField p)
  ++ (if p.cfg.wrap then [] else [.method self .equalMessageVT, .message (.ptr self), .call (.ptr self) .equalVT])
  ++ (m.fields.filter (·.isOneof)).flatMap fun f => .method (p.bare f.goIdent.goName) .equalVT :: genEqualField p f

/-! ## clone -/

/-- `cloneFieldSingular` and the shortcuts at `features/clone/clone.go:72-96`, `:205-214` and `:250-262`. -/
def genCloneMessage (p : GenFile) (x : Recv) (r : MsgRef) : List Item := match p.wellKnownTypeMap r with
  | some g => [.call (x.conv (p.qualified g)) .cloneVT]
  | none => if p.isLocalMessage r then [.call x .cloneVT] else [.message x]

/-- `cloneField`, `body` and `bodyForOneOf`, `features/clone/clone.go:99-268`, for one field. -/
def genCloneField (p : GenFile) (f : GField) : List Item := match f.kind, f.map, f.message with
  | .group, none, some r => genCloneMessage p (.ptr r.ident) r
  | .message, some (_, .message, some r), _ => genCloneMessage p (.ptr r.ident) r
  | .message, none, some r => genCloneMessage p (.ptr r.ident) r
  | _, _, _ => []

/-- `generateCloneMethodsForMessage` and `processMessageOneofs`, `features/clone/clone.go:154-168` and `:271-303`. -/
def genClone (p : GenFile) (m : GMsg) : List Item :=
  let self := p.bare m.info.ident.goName
  [.method self .cloneVT]
  ++ (if p.pools (some m.info) then [.fromPool self] else [])
  ++ (m.fields.filter (! ·.isOneof)).flatMap (genCloneField p)
  ++ m.oneofs.flatMap (·.map fun f => if p.isWellKnownType m.info then wellKnownOneof p m .cloneVT f else .expects f.goIdent .cloneVT)
  ++ (if p.cfg.wrap then [] else [.method self .cloneMessageVT, .message (.ptr self), .call (.ptr self) .cloneVT])
  ++ (m.fields.filter (·.isOneof)).flatMap fun f => .method (p.bare f.goIdent.goName) .cloneVT :: genCloneField p f

/-! ## pool -/

/-- The body of `ResetVT` for one field, `features/pool/pool.go:54-88`. -/
def genPoolField (p : GenFile) (f : GField) : List Item :=
  if f.map.isSome then []
  else if f.card = .repeated then match f.kind, f.message with
    | .message, some r => if p.pools (some r) then [.call (.ptr r.ident) .resetVT] else [.message (.ptr r.ident)]
    | .group, some r => if p.pools (some r) then [.call (.ptr r.ident) .resetVT] else [.message (.ptr r.ident)]
    | _, _ => []
  else match f.message with
    | some r => if p.pools (some r) then [.call (.ptr r.ident) .returnToVTPool] else []
    | none => []

/-- `message`, `features/pool/pool.go:32-107`, for a message that is to be pooled. -/
def genPool (p : GenFile) (m : GMsg) : List Item :=
  let self := p.qualified m.info.ident
  [.pool self, .method self .resetVT] ++ m.fields.flatMap (genPoolField p)
  ++ [.message (.ptr self), .method self .returnToVTPool, .call (.ptr self) .resetVT]

/-! ## files -/

mutual
/-- The recursion common to all features: first the messages declared inside, then the message itself unless it is a map entry
(or, for pools, is not to be pooled). What is returned has one entry for each message that sets `once`.
(`features/marshal/marshalto.go:47-52,561-568`) -/
def walk (take : GMsg → Bool) (emit : GMsg → List Item) : GMsg → List (List Item)
  | .mk i e f x ns => walkAll take emit ns ++ if !e && take (.mk i e f x ns) then [emit (.mk i e f x ns)] else []
/-- All messages of a list, in order. (`features/marshal/marshalto.go:47-52,561-568`) -/
def walkAll (take : GMsg → Bool) (emit : GMsg → List Item) : List GMsg → List (List Item)
  | [] => []
  | m :: ms => walk take emit m ++ walkAll take emit ms
end

/-- `Alloc`, `generator/generatedfile.go:54-65`, with a qualified name. -/
def genAlloc (p : GenFile) (r : MsgRef) : List Item := if p.pools (some r) then [.fromPool (p.qualified r.ident)] else []

/-- The messages allocated for a method: the output by the client (`features/grpc/grpc.go:248`, `:302` or `:312`), the input by the server
(`:343`, `:362` or `:410`), in each case at exactly one of the places, depending on who streams. See `Model/Grpc.lean` for everything else. -/
def genRpc (p : GenFile) (m : Rpc) : List Item := genAlloc p m.output ++ genAlloc p m.input

/-- `GenerateFile` of the features: what is emitted, in parts, none if it reports that nothing was generated. For `grpc` see
`features/grpc/grpc_plugin.go:27-34`. -/
def generateFeature (p : GenFile) : Feature → List (List Item)
  | .clone => walkAll (fun _ => true) (genClone p) p.file.messages
  | .equal => walkAll (fun _ => true) (genEqual p) p.file.messages
  | .grpc => if p.file.services.length = 0 then [] else [p.file.services.flatten.flatMap (genRpc p)]
  | .marshal strict => walkAll (fun _ => true) (genMarshal p strict) p.file.messages
  | .pool => walkAll (fun m => p.pools (some m.info)) (genPool p) p.file.messages
  | .size => walkAll (fun _ => true) (genSize p) p.file.messages
  | .unmarshal uns => walkAll (fun _ => true) (genUnmarshal p uns) p.file.messages

/-- The wrapper types, `generator/generator.go:145-154`; synthetic oneofs are not left out. -/
def genTypes (p : GenFile) : List Item :=
  if p.cfg.wrap then p.file.messages.flatMap fun m =>
    .type (p.bare m.info.ident.goName) (p.qualified m.info.ident)
    :: (m.fields.filter (·.oneof.isSome)).map fun f => .type (p.bare f.goIdent.goName) (p.qualified f.goIdent)
  else []

/-- A file as written. (`generator/generator.go:99-113,156-166`) -/
structure GenOut where
  name : Bytes
  pkg : Bytes
  items : List Item

/-- `generateFile`, `generator/generator.go:116-168`: nothing is written if no feature generated anything and empty files are not allowed. -/
def generateFile (features : List Feature) (p : GenFile) : Option GenOut :=
  let parts := features.flatMap (generateFeature p)
  if parts = [] ∧ p.cfg.allowEmpty = false then none
  else some ⟨p.file.name ++ asc "_vtproto.pb.go", p.outPkg, genTypes p ++ parts.flatten⟩

/-- `local` of `NewGenerator`, `generator/generator.go:84-89`. -/
def localPackages (files : List GFile) : List Bytes := (files.filter (·.generate)).map (·.pkg)

/-- `NewGenerator` and `Generate`, `generator/generator.go:76-114`, after the features are found. -/
def generate (cfg : GenConfig) (features : List Feature) (files : List GFile) : List GenOut :=
  (files.filter (·.generate)).filterMap fun f => generateFile features ⟨f, cfg, localPackages files⟩

end Vtp
