import Verif.Model.Size
/-!
# The part of Go the generator emits

Syntax and meaning of the Go statements printed by `features/size` and `features/marshal`. The syntax is what the calls of `p.P`
print, with names of struct fields resolved to struct positions. The meaning follows the Go language
specification, with these simplifications: `int` is unbounded; the operands of an operation have the static
types the Go compiler would accept (anything else is `typeConfusion`); the condition of a two-result type
assertion is part of the `if` statement, and its variable is not in scope of the `else` branch.
-/

namespace Vtp.Go

/-- Go's types of scalars. (`generator/generatedfile.go:67-108`) -/
inductive NumTy where
  | bool | uint8 | int32 | uint32 | int64 | uint64 | float32 | float64
  deriving DecidableEq, Repr

/-- Static types of the expressions in emitted code. (`generator/generatedfile.go:67-108`) -/
inductive GTy where
  /-- a scalar; enums have the representation of `int32` -/
  | num (T : NumTy)
  | str
  /-- `[]byte` -/
  | bytes
  /-- pointer to the scalar or string of a kind (fields with explicit presence) -/
  | ptr (k : Kind)
  /-- pointer to the struct of message type `t` -/
  | msg (t : Nat)
  /-- slice with elements of a kind (message type `t` for messages) -/
  | list (k : Kind) (t : Nat)
  | map (md : MapDesc)
  /-- the interface type of a oneof: message type and struct position -/
  | iface (t slot : Nat)
  /-- pointer to a oneof wrapper struct: message type and field number -/
  | wrapper (t num : Nat)
  deriving DecidableEq, Repr

/-- `FieldGoType` of scalars, `generator/generatedfile.go:67-96`. -/
def numTy : Kind → NumTy
  | .bool => .bool
  | .enum => .int32
  | .int32 => .int32
  | .sint32 => .int32
  | .sfixed32 => .int32
  | .uint32 => .uint32
  | .fixed32 => .uint32
  | .float => .float32
  | .int64 => .int64
  | .sint64 => .int64
  | .sfixed64 => .int64
  | .uint64 => .uint64
  | .fixed64 => .uint64
  | .double => .float64
  | _ => .uint64

/-- Type of one value of a kind: list elements, map keys and values, members of oneofs, fields without
presence. `generator/generatedfile.go:67-99`. -/
def elemTy (k : Kind) (t : Nat) : GTy :=
  match k with
  | .message => .msg t
  | .group => .msg t
  | .string => .str
  | .bytes => .bytes
  | k => .num (numTy k)

/-- Type of the struct field of a field outside of oneofs, `generator/generatedfile.go:67-108` (pointers for
explicit presence: `protoc-gen-go`). -/
def fieldTy (f : FieldDesc) : GTy :=
  match f.map with
  | some md => .map md
  | none =>
    if f.card == .repeated then .list f.kind f.msg
    else if f.hasMessage then .msg f.msg
    else if f.kind == .bytes then .bytes
    else if f.presence then .ptr f.kind
    else elemTy f.kind f.msg

/-- Type of the struct field at a position, as declared by `protoc-gen-go`.
(`generator/generatedfile.go:67-108`) -/
def slotTy (S : Schema) (t i : Nat) : GTy :=
  match (S.msg t).fields.find? (fun f => f.slot == i) with
  | some f => if f.oneof then .iface t i else fieldTy f
  | none => .bytes

/-- Type of the single field of a oneof wrapper struct.
(`generator/generatedfile.go:67-108` and `features/marshal/marshalto.go:655-668`) -/
def memberTy (S : Schema) (t num : Nat) : GTy :=
  match (S.msg t).fields.find? (fun f => f.num == num) with
  | some f => elemTy f.kind f.msg
  | none => .bytes

/-- Local variables of the emitted code.
(`features/marshal/marshalto.go:593-600` and `features/size/size.go:292-327`) -/
inductive Id where
  | m | n | l | e | s | b | k | v | mapEntrySize | size | vtmsg | c
  | i | err | baseI | iNdEx | num | num1 | encoded | msg
  | f (n : Nat) | j (n : Nat) | pksize (n : Nat) | x (n : Nat)
  deriving DecidableEq, Repr

/-- Selectors: a struct field of a message, the field of a oneof wrapper, `unknownFields`.
(`features/marshal/marshalto.go:602-607` and `features/size/size.go:61-276`) -/
inductive Sel where
  | slot (t i : Nat)
  | member (t num : Nat)
  | unknown
  deriving DecidableEq, Repr

/-- Binary operators.
Go semantics, as used by the code at `features/size/size.go:61-347` and
`features/marshal/marshalto.go:54-748`. -/
inductive BinOp where
  | add | sub | mul | eq | ne | lt | gt | ge
  | shl | shr | xor | and | or
  deriving DecidableEq, Repr

/-- Expressions.
Go semantics, as used by the code at `features/size/size.go:61-347` and
`features/marshal/marshalto.go:54-748`. -/
inductive Expr where
  /-- an integer constant -/
  | lit (n : Nat)
  | nil
  | id (x : Id)
  | sel (e : Expr) (f : Sel)
  /-- `*e` -/
  | star (e : Expr)
  /-- `e[x]` for a slice or map -/
  | index (e x : Expr)
  /-- `len(e)` -/
  | len (e : Expr)
  /-- `len(dAtA)` -/
  | lenBuf
  /-- `dAtA[:e]`, as a result -/
  | bufTo (e : Expr)
  /-- `uint64(e)` -/
  | toU64 (e : Expr)
  /-- `uint32(e)` -/
  | toU32 (e : Expr)
  /-- `uint8(e)` -/
  | toU8 (e : Expr)
  /-- `math.Float64bits(float64(e))` -/
  | f64bits (e : Expr)
  /-- `math.Float32bits(float32(e))` -/
  | f32bits (e : Expr)
  | bin (o : BinOp) (a b : Expr)
  /-- `protohelpers.SizeOfVarint(e)` -/
  | sov (e : Expr)
  /-- `protohelpers.SizeOfZigzag(e)` -/
  | soz (e : Expr)
  /-- `(*T)(e)`, `T` being the type of `types/known` for the message or wrapper type of `e` -/
  | known (e : Expr)
  /-- `e.SizeVT()` -/
  | callSize (e : Expr)
  /-- `proto.Size(e)` -/
  | protoSize (e : Expr)
  /-- `fmt.Errorf("proto: required field ... not set")` -/
  | errRequired (num : Nat)
  deriving DecidableEq, Repr

/-- Interfaces in type assertions, by their method.
(`features/marshal/marshalto.go:720-748` and `features/size/size.go:42-59`) -/
inductive Meth where
  /-- `SizeVT() int` -/
  | size
  /-- `MarshalToSizedBufferVT([]byte) (int, error)`, or with `Strict` -/
  | marshal
  deriving DecidableEq, Repr

/-- Statements.
Go semantics, as used by the code at `features/size/size.go:61-347` and
`features/marshal/marshalto.go:54-748`. -/
inductive Stmt where
  | skip
  | seq (a b : Stmt)
  /-- `x := e` -/
  | define (x : Id) (e : Expr)
  /-- `var x int` -/
  | varInt (x : Id)
  /-- `_ = e` -/
  | blank (e : Expr)
  /-- `x = e` -/
  | assign (x : Id) (e : Expr)
  /-- `x += e` -/
  | addAssign (x : Id) (e : Expr)
  /-- `x -= e` -/
  | subAssign (x : Id) (e : Expr)
  /-- `x >>= n` -/
  | shrAssign (x : Id) (n : Nat)
  /-- `x++` -/
  | inc (x : Id)
  /-- `x--` -/
  | dec (x : Id)
  /-- `if c { a } else { b }` -/
  | ite (c : Expr) (a b : Stmt)
  /-- `if x, ok := e.(interface{ ... }); ok { a } else { b }`; `interface{}(e)` first if `e` is a pointer -/
  | ifImpl (x : Id) (e : Expr) (i : Meth) (a b : Stmt)
  /-- `if x, ok := e.(*W); ok { a } else { b }`, also one case of `switch x := e.(type)` -/
  | ifType (x : Id) (e : Expr) (t num : Nat) (a b : Stmt)
  /-- `for x, y := range e { body }`; `none` is `_` -/
  | range (x y : Option Id) (e : Expr) (body : Stmt)
  /-- `for x := len(e) - 1; x >= 0; x-- { body }`; the body does not assign to `x` -/
  | down (x : Id) (e : Expr) (body : Stmt)
  /-- `for c { body }` -/
  | while (c : Expr) (body : Stmt)
  /-- `return es` -/
  | ret (es : List Expr)
  /-- `dAtA[x] = e` -/
  | setByte (x : Id) (e : Expr)
  /-- `copy(dAtA[i:], e)` -/
  | copy (e : Expr)
  /-- `binary.LittleEndian.PutUint64(dAtA[i:], e)`, or `PutUint32` with 4 for 8 -/
  | putUint (n : Nat) (e : Expr)
  /-- `i = protohelpers.EncodeVarint(dAtA, i, e)` -/
  | encodeVarint (e : Expr)
  /-- `dAtA = make([]byte, e)` -/
  | makeBuf (e : Expr)
  /-- `x, err := e.MarshalToSizedBufferVT(dAtA[:y])`, or with `Strict` -/
  | callMarshal (x : Id) (e : Expr) (y : Id)
  /-- `return e.MarshalToSizedBufferVT(dAtA[:y])`, or with `Strict` -/
  | retMarshal (e : Expr) (y : Id)
  /-- `x, err := proto.Marshal(e)` -/
  | protoMarshal (x : Id) (e : Expr)
  deriving DecidableEq, Repr

@[inherit_doc] infixr:40 " ;; " => Stmt.seq

/-- Values of expressions.
Go semantics, as used by the code at `features/size/size.go:61-347` and
`features/marshal/marshalto.go:54-748`. -/
inductive GV where
  /-- an untyped integer constant -/
  | const (n : Nat)
  /-- an `int` -/
  | int (n : Int)
  | bool (b : Bool)
  /-- untyped `nil` -/
  | nil
  /-- an `error` -/
  | err (e : Option Err)
  /-- a value of a static type -/
  | val (T : GTy) (v : Val)
  deriving DecidableEq, Repr

/-- State: local variables, innermost first, and the bytes of `dAtA`.
Go semantics, as used by the code at `features/size/size.go:61-347` and
`features/marshal/marshalto.go:54-748`. -/
structure St where
  vars : List (Id × GV)
  buf : Bytes
  deriving DecidableEq, Repr

/-- How a statement ends.
Go semantics, as used by the code at `features/size/size.go:61-347` and
`features/marshal/marshalto.go:54-748`. -/
inductive Ctrl where
  | next
  | ret (vs : List GV)
  deriving DecidableEq, Repr

/-- What emitted code finds around it: message types, the protobuf-go runtime, and the methods of the types.
(`features/size/size.go:42-59` and `features/marshal/marshalto.go:720-748`) -/
structure Ctx where
  S : Schema
  R : Runtime
  /-- `SizeVT` of a dynamic type -/
  size : GTy → Val → Res Int
  /-- `MarshalToSizedBufferVT` of a dynamic type: the buffer afterwards, and the results -/
  marshal : GTy → Val → Bytes → Res (Bytes × Int × Option Err)

/-- The type system excludes this.
Go semantics, as used by the code at `features/size/size.go:61-347` and
`features/marshal/marshalto.go:54-748`. -/
abbrev confused {α : Type} : Res α := .panic .typeConfusion

/-- The value of a variable.
Go semantics, as used by the code at `features/size/size.go:61-347` and
`features/marshal/marshalto.go:54-748`. -/
def lookup (x : Id) : List (Id × GV) → Res GV
  | [] => confused
  | (y, v) :: vs => if x = y then .ok v else lookup x vs

/-- Assignability of a constant to a variable: it takes the variable's type.
Go semantics, as used by the code at `features/size/size.go:61-347` and
`features/marshal/marshalto.go:54-748`. -/
def coerce : GV → GV → GV
  | .int _, .const n => .int n
  | _, v => v

/-- The variables after an assignment.
Go semantics, as used by the code at `features/size/size.go:61-347` and
`features/marshal/marshalto.go:54-748`. -/
def update (x : Id) (v : GV) : List (Id × GV) → Res (List (Id × GV))
  | [] => confused
  | (y, w) :: vs => if x = y then .ok ((y, coerce w v) :: vs) else do
    let vs ← update x v vs
    .ok ((y, w) :: vs)

/-- `x == nil`. An interface holding a typed nil pointer is not nil.
Go semantics, as used by the code at `features/size/size.go:292-296` and
`features/marshal/marshalto.go:594-596`. -/
def isNilG (T : GTy) (v : Val) : Bool :=
  match T with
  | .wrapper _ _ => match v with
    | .wrapNil _ => true
    | _ => false
  | _ => v.isNil

/-- Go's `x == 0` for the type.
Go semantics, as used by the code at `features/size/size.go:61-276`. -/
def isZeroTy (T : NumTy) (n : BitVec 64) : Bool :=
  match T with
  | .float64 => (n <<< 1) == 0
  | .float32 => ((n.setWidth 32) <<< 1) == 0
  | _ => n == 0

/-- Integers: constants and values of type `int`.
Go semantics, as used by the code at `features/marshal/marshalto.go:54-81`. -/
def asInt : GV → Option Int
  | .const n => some n
  | .int n => some n
  | _ => none

/-- Selection of a field; selecting from a nil pointer panics. A nil slice of unknown fields is not told apart from
an empty one, which the emitted code copies to no effect.
Go semantics, as used by the code at `features/marshal/marshalto.go:602-607`. -/
def selG (S : Schema) (f : Sel) (g : GV) : Res GV :=
  match g with
  | .val (.msg t') v => match f with
    | .slot t i => if t = t' then match v with
        | .msg slots _ _ => .ok (.val (slotTy S t i) (slots.getD i .nil))
        | .nil => .panic .nilDeref
        | _ => confused
      else confused
    | .unknown => match v with
        | .msg _ unk _ => .ok (.val .bytes (.str unk))
        | .nil => .panic .nilDeref
        | _ => confused
    | .member _ _ => confused
  | .val (.wrapper t' n') v => match f with
    | .member t n => if t = t' ∧ n = n' then match v with
        | .wrap _ x => .ok (.val (memberTy S t n) x)
        | .wrapNil _ => .panic .nilDeref
        | _ => confused
      else confused
    | _ => confused
  | _ => confused

/-- `*p` for a pointer to a scalar.
Go semantics, as used by the code at `features/size/size.go:61-276`. -/
def starG (g : GV) : Res GV :=
  match g with
  | .val (.ptr k) v => if v.isNil then .panic .nilDeref else .ok (.val (elemTy k 0) v)
  | _ => confused

/-- `len`. Go semantics, as used by the code at `features/size/size.go:61-276`. -/
def lenG (g : GV) : Res GV :=
  match g with
  | .val .str v => .ok (.int v.bytes.length)
  | .val .bytes v => .ok (.int v.bytes.length)
  | .val (.list _ _) v => .ok (.int v.elems.length)
  | .val (.map _) v => .ok (.int v.entries.length)
  | _ => confused

/-- Conversion to `uint64`: sign extension of signed types, wrap-around of `int`.
Go semantics, as used by the code at `features/marshal/marshalto.go:54-66,190-219`. -/
def u64G (g : GV) : Res GV :=
  match g with
  | .const n => .ok (.val (.num .uint64) (.num (BitVec.ofNat 64 n)))
  | .int n => .ok (.val (.num .uint64) (.num (BitVec.ofInt 64 n)))
  | .val (.num .uint8) (.num x) => .ok (.val (.num .uint64) (.num x))
  | .val (.num .int32) (.num x) => .ok (.val (.num .uint64) (.num x))
  | .val (.num .uint32) (.num x) => .ok (.val (.num .uint64) (.num x))
  | .val (.num .int64) (.num x) => .ok (.val (.num .uint64) (.num x))
  | .val (.num .uint64) (.num x) => .ok (.val (.num .uint64) (.num x))
  | _ => confused

/-- Conversion to `uint32` of an integer.
Go semantics, as used by the code at `features/marshal/marshalto.go:54-66,190-219`. -/
def u32G (g : GV) : Res GV :=
  match g with
  | .val (.num .int32) (.num x) => .ok (.val (.num .uint32) (.num ((x.setWidth 32).setWidth 64)))
  | .val (.num .uint32) (.num x) => .ok (.val (.num .uint32) (.num ((x.setWidth 32).setWidth 64)))
  | .val (.num .int64) (.num x) => .ok (.val (.num .uint32) (.num ((x.setWidth 32).setWidth 64)))
  | .val (.num .uint64) (.num x) => .ok (.val (.num .uint32) (.num ((x.setWidth 32).setWidth 64)))
  | _ => confused

/-- Conversion to `uint8` of an unsigned integer.
Go semantics, as used by the code at `features/marshal/marshalto.go:54-66,190-219`. -/
def u8G (g : GV) : Res GV :=
  match g with
  | .val (.num .uint32) (.num x) => .ok (.val (.num .uint8) (.num ((x.setWidth 8).setWidth 64)))
  | .val (.num .uint64) (.num x) => .ok (.val (.num .uint8) (.num ((x.setWidth 8).setWidth 64)))
  | _ => confused

/-- `math.Float64bits(float64(x))`, `math.Float32bits(float32(x))`: the pattern.
Go semantics, as used by the code at `features/marshal/marshalto.go:115-532`. -/
def fbitsG (wide : Bool) (g : GV) : Res GV :=
  match g with
  | .val (.num .float64) (.num x) => if wide then .ok (.val (.num .uint64) (.num x)) else confused
  | .val (.num .float32) (.num x) => if wide then confused else .ok (.val (.num .uint32) (.num x))
  | _ => confused

/-- `x << n`. Go semantics, as used by the code at `features/marshal/marshalto.go:190-219`. -/
def shlG (g : GV) (n : Nat) : Res GV :=
  match g with
  | .const x => .ok (.const (x <<< n))
  | .val (.num .uint32) (.num x) => .ok (.val (.num .uint32) (.num ((x.setWidth 32 <<< n).setWidth 64)))
  | .val (.num .uint64) (.num x) => .ok (.val (.num .uint64) (.num (x <<< n)))
  | _ => confused

/-- `x >> n`: arithmetic for signed types.
Go semantics, as used by the code at `features/marshal/marshalto.go:190-219`. -/
def shrG (g : GV) (n : Nat) : Res GV :=
  match g with
  | .val (.num .int32) (.num x) => .ok (.val (.num .int32) (.num (((x.setWidth 32).sshiftRight n).signExtend 64)))
  | .val (.num .int64) (.num x) => .ok (.val (.num .int64) (.num (x.sshiftRight n)))
  | .val (.num .uint32) (.num x) => .ok (.val (.num .uint32) (.num (x >>> n)))
  | .val (.num .uint64) (.num x) => .ok (.val (.num .uint64) (.num (x >>> n)))
  | _ => confused

/-- `^`, `&`, `|` on two values of one unsigned type, or on a value and a constant.
Go semantics, as used by the code at `features/marshal/marshalto.go:190-219`. -/
def bitG (f : BitVec 64 → BitVec 64 → BitVec 64) (a b : GV) : Res GV :=
  match a, b with
  | .val (.num .uint32) (.num x), .val (.num .uint32) (.num y) => .ok (.val (.num .uint32) (.num (f x y)))
  | .val (.num .uint64) (.num x), .val (.num .uint64) (.num y) => .ok (.val (.num .uint64) (.num (f x y)))
  | .val (.num .uint64) (.num x), .const n => .ok (.val (.num .uint64) (.num (f x (BitVec.ofNat 64 n))))
  | _, _ => confused

/-- `a >= b` for an unsigned value and a constant.
Go semantics, as used by the code at `features/marshal/marshalto.go:190-219`. -/
def geG (a b : GV) : Res GV :=
  match a, b with
  | .val (.num .uint32) (.num x), .const n => .ok (.bool (decide (x.toNat ≥ n)))
  | .val (.num .uint64) (.num x), .const n => .ok (.bool (decide (x.toNat ≥ n)))
  | _, _ => confused

/-- The zero value of a type.
Go semantics, as used by the code at `features/marshal/marshalto.go:720-748`. -/
def zeroG (T : GTy) : Val :=
  match T with
  | .num _ => .num 0
  | .str => .str []
  | _ => .nil

/-- A map key. Go semantics, as used by the code at `features/marshal/marshalto.go:83-113`. -/
def asKey : Val → Option Key
  | .num n => some (.num n)
  | .str b => some (.str b)
  | _ => none

/-- `e[x]`: an element of a slice, panicking outside; the value of a map, or zero.
Go semantics, as used by the code at `features/marshal/marshalto.go:83-113`. -/
def indexG (g x : GV) : Res GV :=
  match g with
  | .val (.list k t) v => match x with
    | .int i => if 0 ≤ i ∧ i < v.elems.length then .ok (.val (elemTy k t) (v.elems.getD i.toNat .nil))
      else .panic .indexOutOfRange
    | _ => confused
  | .val (.map md) v => match x with
    | .val _ y => match asKey y with
      | some key => match v.entries.find? (fun e => e.1 == key) with
        | some e => .ok (.val (elemTy md.val md.valMsg) e.2)
        | none => .ok (.val (elemTy md.val md.valMsg) (zeroG (elemTy md.val md.valMsg)))
      | none => confused
    | _ => confused
  | _ => confused

/-- Binary operators.
Go semantics, as used by the code at `features/size/size.go:61-276` and
`features/marshal/marshalto.go:54-81`. -/
def binG (o : BinOp) (a b : GV) : Res GV :=
  match o with
  | .eq => match a, b with
    | .val T v, .nil => .ok (.bool (isNilG T v))
    | _, _ => confused
  | .ne => match a, b with
    | .val T v, .nil => .ok (.bool (!isNilG T v))
    | .val (.num T) (.num x), .const 0 => .ok (.bool (!isZeroTy T x))
    | .err e, .nil => .ok (.bool e.isSome)
    | _, _ => confused
  | .ge => geG a b
  | .shl => match b with
    | .const n => shlG a n
    | _ => confused
  | .shr => match b with
    | .const n => shrG a n
    | _ => confused
  | .xor => bitG (· ^^^ ·) a b
  | .and => bitG (· &&& ·) a b
  | .or => bitG (· ||| ·) a b
  | o => match asInt a, asInt b with
    | some x, some y => match o with
      | .add => .ok (.int (x + y))
      | .sub => .ok (.int (x - y))
      | .mul => .ok (.int (x * y))
      | .lt => .ok (.bool (decide (x < y)))
      | _ => .ok (.bool (decide (x > y)))
    | _, _ => confused

/-- A call of one of the helpers on a `uint64`. (`protohelpers/protohelpers.go:22-42`) -/
def helperG (f : BitVec 64 → Nat) (g : GV) : Res GV :=
  match g with
  | .val (.num .uint64) (.num x) => .ok (.int (f x))
  | _ => confused

/-- The value in an interface with its dynamic type; `none` for a nil interface. A pointer converted to
`interface{}` keeps its type.
Go semantics, as used by the code at `features/marshal/marshalto.go:720-748`. -/
def dyn (g : GV) : Option (GTy × Val) :=
  match g with
  | .val (.iface t _) (.wrap n x) => some (.wrapper t n, .wrap n x)
  | .val (.iface t _) (.wrapNil n) => some (.wrapper t n, .wrapNil n)
  | .val (.msg t) v => some (.msg t, v)
  | _ => none

/-- Does the dynamic type have the generated methods? Types of messages from packages without generated code do
not; oneof wrappers are in the package of the code.
Go semantics, as used by the code at `features/marshal/marshalto.go:720-748`. -/
def implements (S : Schema) (T : GTy) : Bool :=
  match T with
  | .msg t => !(S.msg t).foreign
  | .wrapper _ _ => true
  | _ => false

/-- The receiver of a method call.
Go semantics, as used by the code at `features/marshal/marshalto.go:720-748`. -/
def recvG (g : GV) : Res (GTy × Val) :=
  match g with
  | .val (.msg t) v => .ok (.msg t, v)
  | .val (.wrapper t n) v => .ok (.wrapper t n, v)
  | _ => confused

/-- An `int`, or a constant used as one.
Go semantics, as used by the code at `features/marshal/marshalto.go:54-81`. -/
def intG (g : GV) : Res Int :=
  match g with
  | .int n => .ok n
  | .const n => .ok n
  | _ => confused

/-- Bytes of a string or byte slice.
Go semantics, as used by the code at `features/marshal/marshalto.go:54-81`. -/
def bytesG (g : GV) : Res Bytes :=
  match g with
  | .val .str v => .ok v.bytes
  | .val .bytes v => .ok v.bytes
  | _ => confused

/-- A `uint8`; constants take that type.
Go semantics, as used by the code at `features/marshal/marshalto.go:54-81`. -/
def byteG (g : GV) : Res UInt8 :=
  match g with
  | .val (.num .uint8) (.num x) => .ok (UInt8.ofBitVec (x.setWidth 8))
  | .const n => .ok (UInt8.ofNat n)
  | _ => confused

/-- The argument of `PutUint64`, `PutUint32`, `EncodeVarint`: a value of the given type, or a constant.
Go semantics, as used by the code at `features/marshal/marshalto.go:54-81`. -/
def wordG (T : NumTy) (g : GV) : Res (BitVec 64) :=
  match g with
  | .val (.num U) (.num x) => if U = T then .ok x else confused
  | .const n => .ok (BitVec.ofNat 64 n)
  | _ => confused

/-- `proto.Size` of a message. (`features/size/size.go:42-59`) -/
def protoSizeG (R : Runtime) (g : GV) : Res GV :=
  match g with
  | .val (.msg t) v => .ok (.int (R.size t v))
  | _ => confused

/-- Values of expressions.
Go semantics, as used by the code at `features/size/size.go:61-347` and
`features/marshal/marshalto.go:54-748`. -/
def eval (C : Ctx) (s : St) : Expr → Res GV
  | .lit n => .ok (.const n)
  | .nil => .ok .nil
  | .id x => lookup x s.vars
  | .sel e f => eval C s e >>= selG C.S f
  | .star e => eval C s e >>= starG
  | .index e x => eval C s e >>= fun g => eval C s x >>= fun x => indexG g x
  | .len e => eval C s e >>= lenG
  | .lenBuf => .ok (.int s.buf.length)
  | .bufTo e => eval C s e >>= intG >>= fun n =>
      if 0 ≤ n ∧ n ≤ s.buf.length then .ok (.val .bytes (.str (s.buf.take n.toNat))) else .panic .sliceOutOfRange
  | .toU64 e => eval C s e >>= u64G
  | .toU32 e => eval C s e >>= u32G
  | .toU8 e => eval C s e >>= u8G
  | .f64bits e => eval C s e >>= fbitsG true
  | .f32bits e => eval C s e >>= fbitsG false
  | .bin o a b => eval C s a >>= fun a => eval C s b >>= fun b => binG o a b
  | .sov e => eval C s e >>= helperG Vtp.sizeOfVarint
  | .soz e => eval C s e >>= helperG Vtp.sizeOfZigzag
  | .known e => eval C s e
  | .callSize e => eval C s e >>= recvG >>= fun r => C.size r.1 r.2 >>= fun n => .ok (.int n)
  | .protoSize e => eval C s e >>= protoSizeG C.R
  | .errRequired n => .ok (.err (some (.requiredNotSet n)))

/-- Values of a list of expressions.
Go semantics, as used by the code at `features/size/size.go:61-347` and
`features/marshal/marshalto.go:54-748`. -/
def evals (C : Ctx) (s : St) : List Expr → Res (List GV)
  | [] => .ok []
  | e :: es => eval C s e >>= fun v => evals C s es >>= fun vs => .ok (v :: vs)

/-- The value of a condition: a Boolean expression, or a field of type `bool`.
Go semantics, as used by the code at `features/size/size.go:61-347` and
`features/marshal/marshalto.go:54-748`. -/
def truth (g : GV) : Res Bool :=
  match g with
  | .bool b => .ok b
  | .val (.num .bool) (.num x) => .ok (x != 0)
  | _ => confused

/-- The value of a new variable: constants become `int`.
Go semantics, as used by the code at `features/marshal/marshalto.go:597`. -/
def fresh : GV → GV
  | .const n => .int n
  | v => v

/-- Leaving a block: its variables are gone.
Go semantics, as used by the code at `features/marshal/marshalto.go:115-532`. -/
def St.leave (outer : St) (s : St) : St := ⟨s.vars.drop (s.vars.length - outer.vars.length), s.buf⟩

/-- A block with some variables declared at its start.
Go semantics, as used by the code at `features/marshal/marshalto.go:115-532`. -/
def block (bind : List (Id × GV)) (f : St → Res (St × Ctrl)) (s : St) : Res (St × Ctrl) :=
  f ⟨bind ++ s.vars, s.buf⟩ >>= fun r => .ok (s.leave r.1, r.2)

/-- A loop over a list. Go semantics, as used by the code at `features/size/size.go:61-276`. -/
def loop {α : Type} (f : α → St → Res (St × Ctrl)) : List α → St → Res (St × Ctrl)
  | [], s => .ok (s, .next)
  | a :: as, s => f a s >>= fun r => match r.2 with
    | .next => loop f as r.1
    | .ret v => .ok (r.1, .ret v)

/-- `for c { body }`, with a bound on the number of iterations.
(`features/marshal/marshalto.go:190-219`) -/
def whileN (c : St → Res Bool) (f : St → Res (St × Ctrl)) : Nat → St → Res (St × Ctrl)
  | 0, _ => .diverge
  | n + 1, s => c s >>= fun t => if t then f s >>= fun r => match r.2 with
      | .next => whileN c f n r.1
      | .ret v => .ok (r.1, .ret v)
    else .ok (s, .next)

/-- The bound on iterations; the loops of the emitted code end after ten.
(`features/marshal/marshalto.go:190-219`) -/
def whileFuel : Nat := 2 ^ 64

/-- The values of `x` in `for x := n - 1; x >= 0; x-- { ... }`.
(`features/marshal/marshalto.go:115-532`) -/
def downFrom (n : Nat) : List GV := (List.range n).reverse.map fun i : Nat => GV.int i

/-- The `int` in a variable.
Go semantics, as used by the code at `features/marshal/marshalto.go:54-66`. -/
def intVar (x : Id) (s : St) : Res Int := lookup x s.vars >>= intG

/-- Assignment to a variable.
Go semantics, as used by the code at `features/marshal/marshalto.go:54-66`. -/
def setVar (x : Id) (v : GV) (s : St) : Res (St × Ctrl) := update x v s.vars >>= fun vs => .ok (⟨vs, s.buf⟩, .next)

/-- An optional variable of a `range` clause.
Go semantics, as used by the code at `features/size/size.go:163-218` and
`features/marshal/marshalto.go:83-113`. -/
def bindOpt (x : Option Id) (v : GV) : List (Id × GV) :=
  match x with
  | some x => [(x, v)]
  | none => []

/-- What `range` goes through: index and element of a slice, key and value of a map (in the iteration order).
Go semantics, as used by the code at `features/size/size.go:163-218` and
`features/marshal/marshalto.go:83-113`. -/
def rangeG (g : GV) : Res (List (GV × GV)) :=
  match g with
  | .val (.list k t) v => .ok (v.elems.zipIdx.map fun p => (.int p.2, .val (elemTy k t) p.1))
  | .val (.map md) v => .ok (v.entries.map fun e => (.val (elemTy md.key 0) e.1.toVal, .val (elemTy md.val md.valMsg) e.2))
  | _ => confused

/-- Execution of statements.
Go semantics, as used by the code at `features/size/size.go:61-347` and
`features/marshal/marshalto.go:54-748`. -/
def exec (C : Ctx) : Stmt → St → Res (St × Ctrl)
  | .skip, s => .ok (s, .next)
  | .seq a b, s => exec C a s >>= fun r => match r.2 with
    | .next => exec C b r.1
    | .ret v => .ok (r.1, .ret v)
  | .define x e, s => eval C s e >>= fun v => .ok (⟨(x, fresh v) :: s.vars, s.buf⟩, .next)
  | .varInt x, s => .ok (⟨(x, .int 0) :: s.vars, s.buf⟩, .next)
  | .blank e, s => eval C s e >>= fun _ => .ok (s, .next)
  | .assign x e, s => eval C s e >>= fun v => setVar x v s
  | .addAssign x e, s => eval C s e >>= fun v => lookup x s.vars >>= fun w => binG .add w v >>= fun v => setVar x v s
  | .subAssign x e, s => eval C s e >>= fun v => lookup x s.vars >>= fun w => binG .sub w v >>= fun v => setVar x v s
  | .shrAssign x n, s => lookup x s.vars >>= fun w => shrG w n >>= fun v => setVar x v s
  | .inc x, s => intVar x s >>= fun n => setVar x (.int (n + 1)) s
  | .dec x, s => intVar x s >>= fun n => setVar x (.int (n - 1)) s
  | .ite c a b, s => eval C s c >>= truth >>= fun t => if t then block [] (exec C a) s else block [] (exec C b) s
  | .ifImpl x e _ a b, s => eval C s e >>= fun g => match dyn g with
    | some (T, v) => if implements C.S T then block [(x, .val T v)] (exec C a) s else block [] (exec C b) s
    | none => block [] (exec C b) s
  | .ifType x e t n a b, s => eval C s e >>= fun g => match dyn g with
    | some (T, v) => if T = .wrapper t n then block [(x, .val T v)] (exec C a) s else block [] (exec C b) s
    | none => block [] (exec C b) s
  | .range x y e body, s => eval C s e >>= rangeG >>= fun ps =>
      loop (fun p => block (bindOpt y p.2 ++ bindOpt x p.1) (exec C body)) ps s
  | .down x e body, s => eval C s e >>= lenG >>= intG >>= fun n =>
      loop (fun v => block [(x, v)] (exec C body)) (downFrom n.toNat) s
  | .while c body, s => whileN (fun s => eval C s c >>= truth) (block [] (exec C body)) whileFuel s
  | .ret es, s => evals C s es >>= fun vs => .ok (s, .ret vs)
  | .setByte x e, s => eval C s e >>= byteG >>= fun b => intVar x s >>= fun n =>
      putByte s.buf n b >>= fun buf => .ok (⟨s.vars, buf⟩, .next)
  | .copy e, s => eval C s e >>= bytesG >>= fun b => intVar .i s >>= fun i =>
      if 0 ≤ i ∧ i ≤ s.buf.length then
        .ok (⟨s.vars, s.buf.take i.toNat ++ b.take (s.buf.length - i.toNat) ++ s.buf.drop (i.toNat + b.length)⟩, .next)
      else .panic .sliceOutOfRange
  | .putUint n e, s => eval C s e >>= wordG (if n = 8 then .uint64 else .uint32) >>= fun x => intVar .i s >>= fun i =>
      if 0 ≤ i ∧ i ≤ s.buf.length then
        if i + n ≤ s.buf.length then
          .ok (⟨s.vars, s.buf.take i.toNat ++ leBytes n x.toNat ++ s.buf.drop (i.toNat + n)⟩, .next)
        else .panic .indexOutOfRange
      else .panic .sliceOutOfRange
  | .encodeVarint e, s => eval C s e >>= wordG .uint64 >>= fun x => intVar .i s >>= fun i =>
      Vtp.encodeVarint s.buf i x >>= fun r => setVar .i (.int r.2) ⟨s.vars, r.1⟩
  | .makeBuf e, s => eval C s e >>= intG >>= fun n =>
      if 0 ≤ n then .ok (⟨s.vars, List.replicate n.toNat 0⟩, .next) else .panic .makeLen
  | .callMarshal x e y, s => eval C s e >>= recvG >>= fun r => intVar y s >>= fun i =>
      if 0 ≤ i ∧ i ≤ s.buf.length then C.marshal r.1 r.2 (s.buf.take i.toNat) >>= fun q =>
        .ok (⟨(x, .int q.2.1) :: (.err, .err q.2.2) :: s.vars, q.1 ++ s.buf.drop i.toNat⟩, .next)
      else .panic .sliceOutOfRange
  | .retMarshal e y, s => eval C s e >>= recvG >>= fun r => intVar y s >>= fun i =>
      if 0 ≤ i ∧ i ≤ s.buf.length then C.marshal r.1 r.2 (s.buf.take i.toNat) >>= fun q =>
        .ok (⟨s.vars, q.1 ++ s.buf.drop i.toNat⟩, .ret [.int q.2.1, .err q.2.2])
      else .panic .sliceOutOfRange
  | .protoMarshal x e, s => eval C s e >>= fun g => match g with
    | .val (.msg t) v => match C.R.marshal t v with
      | some b => .ok (⟨(x, .val .bytes (.str b)) :: (.err, .err none) :: s.vars, s.buf⟩, .next)
      | none => .ok (⟨(x, .val .bytes .nil) :: (.err, .err (some .foreign)) :: s.vars, s.buf⟩, .next)
    | _ => confused

end Vtp.Go
