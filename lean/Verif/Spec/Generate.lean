import Verif.Model.Generate
/-!
# What it means that generated files link

Everything a generated file refers to exists: declared in one of the files of the run, in code generated before, in the package `types/known`
of vtprotobuf, or by protoc-gen-go.
-/

namespace Vtp

/-- `m` is one of the messages in the list or declared inside one of them, at any depth. -/
inductive Inside : List GMsg → GMsg → Prop
  | here {l : List GMsg} {m : GMsg} : m ∈ l → Inside l m
  | deep {l : List GMsg} {m n : GMsg} : m ∈ l → Inside m.nested n → Inside l n

/-- protoc-gen-go declares a message type `g` for the request. -/
def IsMessage (req : List GFile) (g : GoIdent) : Prop :=
  ∃ f ∈ req, ∃ m, Inside f.messages m ∧ m.mapEntry = false ∧ m.info.ident = g

/-- protoc-gen-go declares a wrapper type `g` for a member of a oneof. -/
def IsWrapper (req : List GFile) (g : GoIdent) : Prop :=
  ∃ f ∈ req, ∃ m, Inside f.messages m ∧ m.mapEntry = false ∧ ∃ x ∈ m.fields, x.isOneof = true ∧ x.goIdent = g

/-- Code that exists before the run: methods and pools of other packages. -/
structure Before where
  method : GoIdent → Meth → Prop
  pool : GoIdent → Prop

/-- Nothing but vtprotobuf itself. -/
def nothing : Before := ⟨fun _ _ => False, fun _ => False⟩

/-- The methods each message type of package `types/known` has, `types/known/*/*.pb.go`. -/
def shippedMessage : List Meth := [.sizeVT, .marshalVT false, .marshalVT true, .marshalToVT false, .marshalToVT true,
  .marshalToSizedBufferVT false, .marshalToSizedBufferVT true, .unmarshalVT false, .unmarshalVT true, .cloneVT, .equalVT]

/-- The methods each wrapper type of package `types/known/structpb` has, `types/known/structpb/struct_vtproto.pb.go`. -/
def shippedWrapper : List Meth := [.sizeVT, .marshalToVT false, .marshalToVT true, .marshalToSizedBufferVT false, .marshalToSizedBufferVT true,
  .cloneVT, .equalVT]

/-- A type of `types/known`. -/
def knownType (dir name : String) : GoIdent := ⟨asc "github.com/planetscale/vtprotobuf/types/known/" ++ asc dir, asc name⟩

/-- The message types of `types/known`: the `type` declarations at the head of `types/known/*/*.pb.go`. -/
def knownMessages : List GoIdent := [knownType "anypb" "Any", knownType "durationpb" "Duration", knownType "emptypb" "Empty",
  knownType "fieldmaskpb" "FieldMask", knownType "timestamppb" "Timestamp", knownType "wrapperspb" "DoubleValue",
  knownType "wrapperspb" "FloatValue", knownType "wrapperspb" "Int64Value", knownType "wrapperspb" "UInt64Value",
  knownType "wrapperspb" "Int32Value", knownType "wrapperspb" "UInt32Value", knownType "wrapperspb" "BoolValue",
  knownType "wrapperspb" "StringValue", knownType "wrapperspb" "BytesValue", knownType "structpb" "Struct", knownType "structpb" "Value",
  knownType "structpb" "ListValue"]

/-- The wrapper types of `types/known/structpb`. -/
def knownWrappers : List GoIdent := [knownType "structpb" "Value_NullValue", knownType "structpb" "Value_NumberValue",
  knownType "structpb" "Value_StringValue", knownType "structpb" "Value_BoolValue", knownType "structpb" "Value_StructValue",
  knownType "structpb" "Value_ListValue"]

/-- `*g` has the method. -/
def HasMethod (before : Before) (out : List GenOut) (g : GoIdent) (meth : Meth) : Prop :=
  (∃ o ∈ out, .method g meth ∈ o.items) ∨ before.method g meth
  ∨ (g ∈ knownMessages ∧ meth ∈ shippedMessage) ∨ (g ∈ knownWrappers ∧ meth ∈ shippedWrapper)

/-- The function `gFromVTPool` exists. -/
def HasPool (before : Before) (out : List GenOut) (g : GoIdent) : Prop := (∃ o ∈ out, .pool g ∈ o.items) ∨ before.pool g

/-- Type `g` exists. -/
def HasType (req : List GFile) (out : List GenOut) (g : GoIdent) : Prop :=
  IsMessage req g ∨ IsWrapper req g ∨ ∃ o ∈ out, ∃ g', .type g g' ∈ o.items

/-- What is declared or referred to in file `o` is in order. -/
def Links (before : Before) (req : List GFile) (out : List GenOut) (o : GenOut) : Item → Prop
  | .type name orig => name.importPath = o.pkg ∧ (IsMessage req orig ∨ IsWrapper req orig)
  | .method recv _ => recv.importPath = o.pkg ∧ HasType req out recv
  | .pool g => g.importPath = o.pkg ∧ HasType req out g
  | .call (.ptr g) meth => HasMethod before out g meth
  | .call _ _ => False
  | .expects g meth => HasMethod before out g meth
  | .message (.ptr g) => IsMessage req g
  | .message _ => False
  | .fromPool g => HasPool before out g
  | .crash => False

/-- The message types a field refers to. -/
def GField.refs (f : GField) : List MsgRef := match f.map with
  | some (_, _, r) => r.toList
  | none => f.message.toList

/-- What protoc and protogen guarantee of a request: messages are in the Go package and the proto package of their file, wrapper types in the
same Go package, and the messages referred to are part of the request. -/
structure Request (req : List GFile) : Prop where
  ident : ∀ f ∈ req, ∀ m, Inside f.messages m → m.info.ident.importPath = f.goImportPath ∧ m.info.pkg = f.pkg
  wrapper : ∀ f ∈ req, ∀ m, Inside f.messages m → ∀ x ∈ m.fields, x.isOneof = true → x.goIdent.importPath = f.goImportPath
  refs : ∀ f ∈ req, ∀ m, Inside f.messages m → ∀ x ∈ m.fields, ∀ r ∈ x.refs,
    ∃ f' ∈ req, ∃ m', Inside f'.messages m' ∧ m'.mapEntry = false ∧ m'.info = r
  rpcs : ∀ f ∈ req, ∀ s ∈ f.services, ∀ c ∈ s, ∀ r ∈ [c.input, c.output],
    ∃ f' ∈ req, ∃ m', Inside f'.messages m' ∧ m'.mapEntry = false ∧ m'.info = r

/-- No group is repeated or in a oneof. -/
def PlainGroups (req : List GFile) : Prop :=
  ∀ f ∈ req, ∀ m, Inside f.messages m → ∀ x ∈ m.fields, x.kind = .group → x.card ≠ .repeated ∧ x.isOneof = false

/-- The methods of a message generated by a feature, as listed in `README.md:11-59`. -/
def messageApi : Feature → List Meth
  | .clone => [.cloneVT, .cloneMessageVT]
  | .equal => [.equalVT, .equalMessageVT]
  | .grpc => []
  | .marshal s => [.marshalVT s, .marshalToVT s, .marshalToSizedBufferVT s]
  | .pool => [.resetVT, .returnToVTPool]
  | .size => [.sizeVT]
  | .unmarshal u => [.unmarshalVT u]

/-- The methods of the wrapper types of oneofs generated by a feature. -/
def wrapperApi : Feature → List Meth
  | .clone => [.cloneVT]
  | .equal => [.equalVT]
  | .marshal s => [.marshalToVT s, .marshalToSizedBufferVT s]
  | .size => [.sizeVT]
  | _ => []

/-- Features go with those whose methods they call. -/
def Complete (features : List Feature) : Prop := ∀ s, .marshal s ∈ features → .size ∈ features

/-- Every file of a package to which a file to generate belongs is itself to be generated, or its messages already have the methods. -/
def ClosedRun (before : Before) (features : List Feature) (req : List GFile) : Prop :=
  ∀ f ∈ req, ∀ f' ∈ req, f'.generate = true → f.pkg = f'.pkg →
    f.generate = true ∨ ∀ m, Inside f.messages m → m.mapEntry = false → ∀ φ ∈ features, ∀ meth ∈ messageApi φ, before.method m.info.ident meth

/-- Features whose code uses pools. -/
def usesPools : Feature → Prop
  | .clone | .pool | .grpc | .unmarshal _ => True
  | _ => False

/-- If pools are used, those of the messages selected for pooling exist: generated in this run or before. -/
def PoolsExist (before : Before) (cfg : GenConfig) (features : List Feature) (req : List GFile) : Prop :=
  (∃ φ ∈ features, usesPools φ) → ∀ f ∈ req, ∀ m, Inside f.messages m → m.mapEntry = false → shouldPool cfg.toConfig (some m.info.toMsgInfo) = true →
    (f.generate = true ∧ .pool ∈ features)
    ∨ (before.pool m.info.ident ∧ before.method m.info.ident .resetVT ∧ before.method m.info.ident .returnToVTPool)

/-- No message of a package to generate is one of the well-known types of `generator/generatedfile.go:144-162`. -/
def NoKnown (req : List GFile) : Prop :=
  ∀ f ∈ req, f.pkg ∈ localPackages req → ∀ m, Inside f.messages m → GenFile.lookup GenFile.wellKnownTypes m.info.fullName = none

/-- A run without the flag `wrap` under the conditions above. -/
structure Plain (before : Before) (cfg : GenConfig) (features : List Feature) (req : List GFile) : Prop where
  wrap : cfg.wrap = false
  request : Request req
  groups : PlainGroups req
  complete : Complete features
  closed : ClosedRun before features req
  pools : PoolsExist before cfg features req
  known : NoKnown req

/-- A run with the flag `wrap`, as `gen-wkt` of the `Makefile`: all messages to generate are well-known types declared at the top of their file,
their oneofs are those of the table, no message is pooled, and fields refer to messages of the same file or of packages not generated. -/
structure Wrapped (cfg : GenConfig) (features : List Feature) (req : List GFile) : Prop where
  wrap : cfg.wrap = true
  request : Request req
  groups : PlainGroups req
  complete : Complete features
  path : ∀ f ∈ req, f.goImportPath ≠ []
  flat : ∀ f ∈ req, f.generate = true → ∀ m, Inside f.messages m → (m ∈ f.messages ↔ m.mapEntry = false)
  known : ∀ f ∈ req, f.generate = true → ∀ m ∈ f.messages, ∃ g, GenFile.lookup GenFile.wellKnownTypes m.info.fullName = some g
    ∧ g.goName = m.info.ident.goName
  members : ∀ f ∈ req, f.generate = true → ∀ m ∈ f.messages, ∀ x ∈ m.fields, x.oneof.isSome = true → x.isOneof = true
    ∧ ∃ g, GenFile.lookup GenFile.wellKnownFields x.fullName = some g ∧ g.goName = x.goIdent.goName
  extensions : ∀ f ∈ req, f.generate = true → ∀ m ∈ f.messages, m.extensions = false
  own : ∀ f ∈ req, f.generate = true → ∀ m ∈ f.messages, ∀ x ∈ m.fields, ∀ r ∈ x.refs, r.pkg ∈ localPackages req → ∃ m' ∈ f.messages, m'.info = r
  pools : ∀ f ∈ req, ∀ m, Inside f.messages m → shouldPool cfg.toConfig (some m.info.toMsgInfo) = false

/-! ## what is declared -/

mutual
/-- A message after all those declared inside of it. -/
def GMsg.all : GMsg → List GMsg
  | .mk i e f x ns => GMsg.allIn ns ++ [.mk i e f x ns]
/-- All messages of a list, those declared inside of others included. -/
def GMsg.allIn : List GMsg → List GMsg
  | [] => []
  | m :: ms => GMsg.all m ++ GMsg.allIn ms
end

/-- The messages of a file for which there is a Go type. -/
def GFile.msgs (f : GFile) : List GMsg := (GMsg.allIn f.messages).filter fun m => !m.mapEntry

/-- The Go types of a message: its own and those for the members of its oneofs. -/
def GMsg.types (m : GMsg) : List GoIdent := m.info.ident :: (m.fields.filter (·.isOneof)).map (·.goIdent)

/-- The Go types of a file. -/
def GFile.types (f : GFile) : List GoIdent := f.msgs.flatMap GMsg.types

/-- protoc-gen-go gives all types different names, or its output does not compile. -/
def DistinctTypes (req : List GFile) : Prop := ((req.filter (·.generate)).flatMap GFile.types).Nodup

/-- The method a line declares. -/
def declOf : Item → Option (GoIdent × Meth)
  | .method g meth => some (g, meth)
  | _ => none

/-- What is to be declared for one message and one feature. -/
def declsFor (φ : Feature) (m : GMsg) : List (GoIdent × Meth) :=
  (messageApi φ).map (fun meth => (m.info.ident, meth))
  ++ (m.fields.filter (·.isOneof)).flatMap fun x => (wrapperApi φ).map fun meth => (x.goIdent, meth)

/-- File `f` is to declare the method: `g` is the type of one of its messages or of a member of a oneof, and the method belongs to one of the
features, which for pools must be selected for the message. -/
def Promised (cfg : GenConfig) (features : List Feature) (f : GFile) (g : GoIdent) (meth : Meth) : Prop :=
  ∃ m, Inside f.messages m ∧ m.mapEntry = false ∧ ∃ φ ∈ features, (φ = .pool → shouldPool cfg.toConfig (some m.info.toMsgInfo) = true)
    ∧ ((g = m.info.ident ∧ meth ∈ messageApi φ) ∨ ∃ x ∈ m.fields, x.isOneof = true ∧ g = x.goIdent ∧ meth ∈ wrapperApi φ)

/-- The feature finds something to do in the file. -/
def Applies (cfg : GenConfig) (f : GFile) : Feature → Prop
  | .grpc => f.services ≠ []
  | .pool => ∃ m, Inside f.messages m ∧ m.mapEntry = false ∧ shouldPool cfg.toConfig (some m.info.toMsgInfo) = true
  | _ => ∃ m, Inside f.messages m ∧ m.mapEntry = false

/-- The packages a file's code depends on: its own and those of the messages its fields refer to. -/
def RefersTo (f : GFile) (pkg : Bytes) : Prop :=
  ∃ m, Inside f.messages m ∧ (m.info.pkg = pkg ∨ ∃ x ∈ m.fields, ∃ r ∈ x.refs, r.pkg = pkg)

end Vtp
