import Verif.Model.Unmarshal
/-!
# The part of Go that `features/unmarshal` emits

Syntax and meaning of the statements printed for `UnmarshalVT` and `UnmarshalVTUnsafe`. The receiver `m` is the
state of the decoder monad `UM`; the input `dAtA` is read only. The meaning follows the Go language specification:
`int` and `uint` wrap at the width of the target, indexing and slicing are checked. Simplifications: the operands
of an operation have the static types the Go compiler would accept (anything else is `typeConfusion`); a pointer to
a scalar is represented by the scalar, as in `Val`; the variable of a two-result type assertion or of
`if err := …; err != nil { return err }` is part of that statement; loops run for at most `Ctx.fuel` iterations
(`diverge` afterwards).
-/

namespace Vtp.GoU

/-- Integer types of fixed width; an enum type has the representation of `int32`.
Go semantics, as used by the code at `features/unmarshal/unmarshal.go:83-114,286-419`. -/
inductive NTy where
  | int32 | uint32 | int64 | uint64 | enum
  deriving DecidableEq, Repr

/-- Width in bits.
Go semantics, as used by the code at `features/unmarshal/unmarshal.go:83-114,286-419`. -/
def NTy.width : NTy → Nat
  | .int32 => 32
  | .uint32 => 32
  | .enum => 32
  | .int64 => 64
  | .uint64 => 64

/-- Signed types.
Go semantics, as used by the code at `features/unmarshal/unmarshal.go:83-114,286-419`. -/
def NTy.signed : NTy → Bool
  | .int32 => true
  | .int64 => true
  | .enum => true
  | .uint32 => false
  | .uint64 => false

/-- `uint64(v)`: how `Val` represents a number.
Go semantics, as used by the code at `features/unmarshal/unmarshal.go:83-114,286-419`. -/
def NTy.ext (T : NTy) (v : BitVec T.width) : BitVec 64 := if T.signed then v.signExtend 64 else v.setWidth 64

/-- Types in declarations and conversions. (`features/unmarshal/unmarshal.go:116-158,286-419`) -/
inductive Ty where
  | num (T : NTy) | int | uint | bool | float32 | float64 | string | bytes
  /-- `*T` for message type `t` -/
  | ptr (t : Nat)
  /-- `[n]uint64` -/
  | words (n : Nat)
  deriving DecidableEq, Repr

/-- Local variables of the emitted code. (`features/unmarshal/unmarshal.go:83-98,797-816`) -/
inductive Id where
  | l | iNdEx | preIndex | wire | fieldNum | wireType | shift | b | v | v2 | s | hasFields
  | stringLen | intStringLen | postIndex | stringValue | byteLen | msglen
  | groupStart | maybeGroupEnd | groupFieldWire | groupWireType | skippy | err
  | packedLen | elementCount | count | integer
  | mapkey | mapvalue | entryPreIndex | mapmsglen | postmsgIndex | mapbyteLen | intMapbyteLen | postbytesIndex
  /-- `oneof` -/
  | oneof
  /-- `xtemp`, `stringLenx`, `intStringLenx`, `postStringIndexx` for a variable `x` -/
  | temp (x : Id) | stringLenOf (x : Id) | intStringLenOf (x : Id) | postStringIndexOf (x : Id)
  deriving DecidableEq, Repr

/-- Places: what can be assigned to. (`features/unmarshal/unmarshal.go:286-714`) -/
inductive Place where
  | id (x : Id)
  /-- `m.F`, the struct field in a position -/
  | field (slot : Nat)
  /-- `m.F[len(m.F) - 1]` -/
  | last (slot : Nat)
  /-- `oneof.F`: the field of the wrapper struct `oneof` points to -/
  | member
  /-- `hasFields[k]` -/
  | has (k : Nat)
  deriving DecidableEq, Repr

/-- Binary operators.
Go semantics, as used by the code at `features/unmarshal/unmarshal.go:83-114`. -/
inductive BinOp where
  | add | sub | div | eq | ne | lt | le | gt | ge | and | xor | shl | shr
  deriving DecidableEq, Repr

/-- Expressions. Go semantics, as used by the code at `features/unmarshal/unmarshal.go:83-114`. -/
inductive Expr where
  /-- an integer constant -/
  | lit (n : Nat)
  /-- `""` -/
  | emptyStr
  | nil
  | pl (p : Place)
  /-- `len(dAtA)` -/
  | lenData
  /-- `dAtA[e]` -/
  | dataAt (e : Expr)
  /-- `dAtA[lo:hi]` -/
  | data (lo hi : Expr)
  | len (e : Expr)
  | cap (e : Expr)
  | bin (op : BinOp) (a b : Expr)
  /-- `a && b` -/
  | land (a b : Expr)
  /-- `a || b` -/
  | lor (a b : Expr)
  /-- `T(e)` -/
  | conv (T : Ty) (e : Expr)
  /-- `math.Float64frombits(e)` -/
  | fromBits64 (e : Expr)
  /-- `math.Float32frombits(e)` -/
  | fromBits32 (e : Expr)
  /-- `binary.LittleEndian.Uint32(dAtA[lo:])`, `Uint64` for 8 bytes -/
  | le (n : Nat) (lo : Expr)
  /-- `unsafe.String(&dAtA[lo], n)` -/
  | unsafeStr (lo n : Expr)
  /-- `unique.Make[string](e).Value()` -/
  | intern (e : Expr)
  /-- `&T{}` -/
  | newMsg (t : Nat)
  /-- `TFromVTPool()` -/
  | fromPool (t : Nat)
  /-- `&M_F{F: e}` for the member with a number -/
  | wrapper (num : Nat) (e : Expr)
  /-- `&x` -/
  | addr (e : Expr)
  /-- `append(m.F, e)` -/
  | append (slot : Nat) (e : Expr)
  /-- `append(m.F[:0], e...)` for a byte slice -/
  | appendReset (slot : Nat) (e : Expr)
  /-- `m.F[:len(m.F) + 1]` -/
  | extend (slot : Nat)
  /-- `make([]byte, n)` -/
  | makeBytes (n : Expr)
  /-- `[]byte{}` -/
  | emptyBytes
  /-- `make(map[K]V)` for the map field in a position -/
  | makeMap (slot : Nat)
  /-- `make([]T, 0, n)` for the field in a position -/
  | makeSlice (slot : Nat) (n : Expr)
  deriving Repr

/-- How a message's own unmarshal method is called. (`features/unmarshal/unmarshal.go:55-81`) -/
inductive Call where
  /-- `x.UnmarshalVT(buf)` -/
  | plain
  /-- `(*W)(x).UnmarshalVT(buf)` -/
  | known
  /-- `unmarshal.UnmarshalVT(buf)`, with the interface value `unmarshal` of the enclosing `if` -/
  | iface
  deriving DecidableEq, Repr

/-- Statements. Go semantics, as used by the code at `features/unmarshal/unmarshal.go:55-892`. -/
inductive Stmt where
  | skip
  | seq (a b : Stmt)
  | ite (c : Expr) (a b : Stmt)
  /-- `if oneof, ok := m.F.(*M_F); ok { a } else { b }` for the member with a number -/
  | ifOneof (slot num : Nat) (a b : Stmt)
  /-- `for init; c; post { body }`; without a condition if `c` is `none` -/
  | loop (init : Stmt) (c : Option Expr) (post body : Stmt)
  /-- `for _, x := range dAtA[lo:hi] { body }` -/
  | range (x : Id) (lo hi : Expr) (body : Stmt)
  /-- `switch fieldNum { cases }` -/
  | sw (cases : Stmt)
  /-- `case n: body` and the cases after it -/
  | case (n : Nat) (body rest : Stmt)
  /-- `default: body` -/
  | dflt (body : Stmt)
  /-- `var x T` -/
  | decl (x : Id) (T : Ty)
  /-- `x := e` -/
  | define (x : Id) (e : Expr)
  | assign (p : Place) (e : Expr)
  /-- `p |= e` -/
  | orAssign (p : Place) (e : Expr)
  /-- `x += e` -/
  | addAssign (x : Id) (e : Expr)
  /-- `x++` -/
  | inc (x : Id)
  | brk
  /-- `return` with an error made there -/
  | ret (e : Err)
  /-- `return err` -/
  | retErr
  /-- `return nil` -/
  | retNil
  /-- `skippy, err := Skip(dAtA[iNdEx:])` -/
  | skipCall
  /-- `err = proto.UnmarshalOptions{AllowPartial: true}.Unmarshal(dAtA[lo:hi], m)` -/
  | runtime (lo hi : Expr)
  /-- `m.unknownFields = append(m.unknownFields, dAtA[lo:hi]...)` -/
  | unknown (lo hi : Expr)
  /-- `m.F[mapkey] = mapvalue` -/
  | mapSet (slot : Nat)
  /-- `copy(p, dAtA[lo:hi])` -/
  | copy (p : Place) (lo hi : Expr)
  /-- `if err := …; err != nil { return err }` with a call of the method of message type `t` on `p` -/
  | call (how : Call) (p : Place) (t : Nat) (lo hi : Expr)
  /-- `if err := proto.Unmarshal(dAtA[lo:hi], p); err != nil { return err }` -/
  | callProto (p : Place) (t : Nat) (lo hi : Expr)
  /-- `if unmarshal, ok := interface{}(p).(interface{ UnmarshalVT([]byte) error }); ok { a } else { b }` -/
  | ifImpl (p : Place) (t : Nat) (a b : Stmt)
  deriving Repr

/-- `a; b`. -/
infixr:60 " ;; " => Stmt.seq

/-- Values. Go semantics, as used by the code at `features/unmarshal/unmarshal.go:55-892`. -/
inductive V where
  /-- an untyped constant -/
  | const (n : Nat)
  | int (x : Int)
  | uint (n : Nat)
  | byte (b : UInt8)
  | num (T : NTy) (v : BitVec T.width)
  | f64 (v : BitVec 64)
  | f32 (v : BitVec 32)
  | bool (b : Bool)
  /-- a string or byte slice with memory of its own -/
  | str (b : Bytes)
  /-- a string or byte slice in the memory of `dAtA` -/
  | alias (off n : Nat)
  /-- `nil`, messages, slices, maps, interfaces -/
  | val (v : Val)
  /-- pointer to the wrapper struct the oneof in a position holds, for the member with a number -/
  | ref (slot num : Nat)
  | words (ws : List (BitVec 64))
  | err (e : Option Err)

/-- Local variables, innermost declaration first, and `iNdEx`, which is declared once.
Go semantics, as used by the code at `features/unmarshal/unmarshal.go:55-892`. -/
structure St where
  vars : List (Id × V)
  i : Int

/-- How a statement ends, if it does not return an error.
Go semantics, as used by the code at `features/unmarshal/unmarshal.go:55-892`. -/
inductive Ctrl where
  | next | brk | ret
  deriving DecidableEq, Repr

/-- What the code runs in: the message types, the protobuf runtime, the target, the contents of the input buffer
at the time the message is looked at (`later`) and the pool as in `UEnv`; the input `dAtA` and its offset in the
buffer of the outermost call; the methods of messages.
(`features/unmarshal/unmarshal.go:797-892`) -/
structure Ctx where
  S : Schema
  R : Runtime
  A : Arch
  later : Bytes
  alloc : Nat → Nat → Val
  base : Nat
  dAtA : Bytes
  fuel : Nat
  method : SubDec

/-- `typeConfusion`.
Go semantics, as used by the code at `features/unmarshal/unmarshal.go:83-98`. -/
def confused {α : Type} : Res α := .panic .typeConfusion

/-- Value of the innermost variable.
Go semantics, as used by the code at `features/unmarshal/unmarshal.go:83-98`. -/
def find : List (Id × V) → Id → Res V
  | [], _ => confused
  | (y, v) :: vs, x => if y = x then .ok v else find vs x

/-- Assignment to the innermost variable.
Go semantics, as used by the code at `features/unmarshal/unmarshal.go:83-98`. -/
def put : List (Id × V) → Id → V → List (Id × V)
  | [], _, _ => []
  | (y, w) :: vs, x, v => if y = x then (y, v) :: vs else (y, w) :: put vs x v

/-- Reading a variable.
Go semantics, as used by the code at `features/unmarshal/unmarshal.go:83-98`. -/
def St.look (st : St) (x : Id) : Res V := if x = .iNdEx then .ok (.int st.i) else find st.vars x

/-- Assigning to a variable.
Go semantics, as used by the code at `features/unmarshal/unmarshal.go:83-98`. -/
def St.set (st : St) (x : Id) (v : V) : Res St :=
  if x = .iNdEx then
    match v with
    | .int i => .ok { st with i := i }
    | .const n => .ok { st with i := n }
    | _ => confused
  else .ok { st with vars := put st.vars x v }

/-- Declaring a variable.
Go semantics, as used by the code at `features/unmarshal/unmarshal.go:83-98`. -/
def St.decl (st : St) (x : Id) (v : V) : Res St :=
  if x = .iNdEx then st.set x v else .ok { st with vars := (x, v) :: st.vars }

/-- Leaving a block: the variables declared in it go.
Go semantics, as used by the code at `features/unmarshal/unmarshal.go:83-98`. -/
def St.leave (st : St) (outer : St) : St := { st with vars := st.vars.drop (st.vars.length - outer.vars.length) }

/-- Zero values. Go semantics, as used by the code at `features/unmarshal/unmarshal.go:116-158`. -/
def zero : Ty → V
  | .num T => .num T 0
  | .int => .int 0
  | .uint => .uint 0
  | .bool => .bool false
  | .float32 => .f32 0
  | .float64 => .f64 0
  | .string => .str []
  | .bytes => .val .nil
  | .ptr _ => .val .nil
  | .words n => .words (List.replicate n 0)

/-- The bytes of `dAtA` from `off`, now.
Go semantics, as used by the code at `features/unmarshal/unmarshal.go:420-461,577-615`. -/
def Ctx.now (C : Ctx) (off n : Nat) : Bytes := (C.dAtA.drop off).take n

/-- What a value assigned to a struct field, list element or map value looks like when the message is looked at.
(`features/unmarshal/unmarshal.go:420-461,577-615`) -/
def stored (C : Ctx) : V → Res Val
  | .const n => .ok (.num (BitVec.ofNat 64 n))
  | .num T v => .ok (.num (T.ext v))
  | .f64 v => .ok (.num v)
  | .f32 v => .ok (.num (v.setWidth 64))
  | .bool b => .ok (.num (if b then 1 else 0))
  | .str b => .ok (.str b)
  | .alias off n => .ok (.str ((C.later.drop (C.base + off)).take n))
  | .val v => .ok v
  | _ => confused

/-- Map keys: a string in the memory of `dAtA` has the contents it has now.
(`features/unmarshal/unmarshal.go:420-461,577-615`) -/
def keyOf (C : Ctx) : V → Res Key
  | .num T v => .ok (.num (T.ext v))
  | .bool b => .ok (.num (if b then 1 else 0))
  | .str b => .ok (.str b)
  | .alias off n => .ok (.str (C.now off n))
  | _ => confused

/-- Integers as numbers, for comparisons.
Go semantics, as used by the code at `features/unmarshal/unmarshal.go:83-98`. -/
def asInt : V → Res Int
  | .const n => .ok n
  | .int x => .ok x
  | .uint n => .ok n
  | .byte b => .ok b.toNat
  | .num T v => .ok (if T.signed then v.toInt else v.toNat)
  | _ => confused

/-- `a == b` for `nil` and integers.
Go semantics, as used by the code at `features/unmarshal/unmarshal.go:83-98`. -/
def equal (a b : V) : Res Bool :=
  match a, b with
  | .val v, .val .nil => .ok v.isNil
  | .err e, .val .nil => .ok e.isNone
  | a, b => do
    let x ← asInt a
    let y ← asInt b
    .ok (decide (x = y))

/-- The shift count of a shift.
Go semantics, as used by the code at `features/unmarshal/unmarshal.go:83-98`. -/
def asCount : V → Res Nat
  | .const n => .ok n
  | .uint n => .ok n
  | _ => confused

/-- `a | b`. Go semantics, as used by the code at `features/unmarshal/unmarshal.go:83-98`. -/
def orV (A : Arch) : V → V → Res V
  | .num T a, .num T' b => if h : T' = T then .ok (.num T (a ||| h ▸ b)) else confused
  | .int a, .int b => .ok (.int (BitVec.ofInt A.bits a ||| BitVec.ofInt A.bits b).toInt)
  | .val (.num n), .num T b => .ok (.num T (n.setWidth T.width ||| b))
  | _, _ => confused

/-- Binary operators.
Go semantics, as used by the code at `features/unmarshal/unmarshal.go:83-98`. -/
def binV (A : Arch) (op : BinOp) (a b : V) : Res V :=
  match op with
  | .add => match a, b with
    | .int x, .int y => .ok (.int (A.wrap (x + y)))
    | .int x, .const y => .ok (.int (A.wrap (x + y)))
    | .uint x, .const y => .ok (.uint ((x + y) % 2 ^ A.bits))
    | _, _ => confused
  | .sub => match a, b with
    | .int x, .int y => .ok (.int (A.wrap (x - y)))
    | _, _ => confused
  | .div => match a, b with
    | .int x, .const y => if y = 0 then confused else .ok (.int (x.tdiv y))
    | _, _ => confused
  | .eq => do
    let c ← equal a b
    .ok (.bool c)
  | .ne => do
    let c ← equal a b
    .ok (.bool (!c))
  | .lt => do
    let x ← asInt a
    let y ← asInt b
    .ok (.bool (decide (x < y)))
  | .le => do
    let x ← asInt a
    let y ← asInt b
    .ok (.bool (decide (x ≤ y)))
  | .gt => do
    let x ← asInt a
    let y ← asInt b
    .ok (.bool (decide (x > y)))
  | .ge => do
    let x ← asInt a
    let y ← asInt b
    .ok (.bool (decide (x ≥ y)))
  | .and => match a, b with
    | .num T x, .const y => .ok (.num T (x &&& BitVec.ofNat T.width y))
    | .num T x, .num T' y => if h : T' = T then .ok (.num T (x &&& h ▸ y)) else confused
    | .byte x, .const y => .ok (.byte (x &&& UInt8.ofNat y))
    | _, _ => confused
  | .xor => match a, b with
    | .num T x, .num T' y => if h : T' = T then .ok (.num T (x ^^^ h ▸ y)) else confused
    | _, _ => confused
  | .shl => do
    let n ← asCount b
    match a with
    | .num T x => .ok (.num T (x <<< n))
    | .int x => .ok (.int (BitVec.ofInt A.bits x <<< n).toInt)
    | _ => confused
  | .shr => do
    let n ← asCount b
    match a with
    | .num T x => .ok (.num T (if T.signed then x.sshiftRight n else x >>> n))
    | _ => confused

/-- `T(v)`. Go semantics, as used by the code at `features/unmarshal/unmarshal.go:286-419`. -/
def convV (C : Ctx) (T : Ty) (v : V) : Res V :=
  match T with
  | .num T => match v with
    | .num _ x => .ok (.num T ((NTy.ext _ x).setWidth T.width))
    | .byte b => .ok (.num T (BitVec.ofNat T.width b.toNat))
    | .const n => .ok (.num T (BitVec.ofNat T.width n))
    | _ => confused
  | .int => match v with
    | .num T x => .ok (.int (C.A.wrap (if T.signed then x.toInt else x.toNat)))
    | .byte b => .ok (.int b.toNat)
    | _ => confused
  | .uint => match v with
    | .const n => .ok (.uint n)
    | _ => confused
  | .bool => match v with
    | .bool b => .ok (.bool b)
    | _ => confused
  | .float64 => match v with
    | .f64 x => .ok (.f64 x)
    | _ => confused
  | .float32 => match v with
    | .f32 x => .ok (.f32 x)
    | _ => confused
  | .string => match v with
    | .alias off n => .ok (.str (C.now off n))
    | _ => confused
  | _ => confused

/-- `dAtA[lo:hi]`: offset and length.
Go semantics, as used by the code at `features/unmarshal/unmarshal.go:55-81`. -/
def span (C : Ctx) (lo hi : V) : Res (Nat × Nat) :=
  match lo, hi with
  | .int lo, .int hi =>
    if 0 ≤ lo ∧ lo ≤ hi ∧ hi ≤ C.dAtA.length then .ok (lo.toNat, (hi - lo).toNat) else .panic .sliceOutOfRange
  | _, _ => confused

/-- The struct field of `m` in a position.
Go semantics, as used by the code at `features/unmarshal/unmarshal.go:286-714`. -/
def slotOf (m : Val) (slot : Nat) : Res Val := (getSlot slot m).2

/-- Reading a place.
Go semantics, as used by the code at `features/unmarshal/unmarshal.go:286-714`. -/
def readPlace (st : St) (m : Val) : Place → Res V
  | .id x => st.look x
  | .field s => do
    let v ← slotOf m s
    .ok (.val v)
  | .last s => do
    let v ← slotOf m s
    match v.elems.getLast? with
    | some x => .ok (.val x)
    | none => .panic .indexOutOfRange
  | .member => do
    let r ← st.look .oneof
    match r with
    | .ref s n => do
      let v ← slotOf m s
      match v with
      | .wrap n' x => if n' = n then .ok (.val x) else confused
      | .wrapNil _ => .panic .nilDeref
      | _ => confused
    | _ => confused
  | .has k => do
    let r ← st.look .hasFields
    match r with
    | .words ws => match ws[k]? with
      | some w => .ok (.num .uint64 w)
      | none => .panic .indexOutOfRange
    | _ => confused

/-- Writing to a place.
Go semantics, as used by the code at `features/unmarshal/unmarshal.go:286-714`. -/
def writePlace (C : Ctx) (st : St) (p : Place) (v : V) : UM St :=
  match p with
  | .id x => UM.lift (st.set x v)
  | .field s => do
    let w ← UM.lift (stored C v)
    setSlot s w
    pure st
  | .last s => do
    let w ← UM.lift (stored C v)
    let l ← getSlot s
    match l with
    | .list xs sp => if xs = [] then UM.lift (.panic .indexOutOfRange) else setSlot s (.list (xs.dropLast ++ [w]) sp)
    | .nil => UM.lift (.panic .indexOutOfRange)
    | _ => UM.lift confused
    pure st
  | .member => do
    let w ← UM.lift (stored C v)
    let r ← UM.lift (st.look .oneof)
    match r with
    | .ref s n => setSlot s (.wrap n w)
    | _ => UM.lift confused
    pure st
  | .has k => do
    let r ← UM.lift (st.look .hasFields)
    match r, v with
    | .words ws, .num .uint64 w =>
      if k < ws.length then UM.lift (st.set .hasFields (.words (ws.set k w))) else UM.lift (.panic .indexOutOfRange)
    | _, _ => UM.lift confused

/-- Meaning of expressions, `m` being the receiver.
Go semantics, as used by the code at `features/unmarshal/unmarshal.go:55-892`. -/
def eval (C : Ctx) (st : St) (m : Val) : Expr → Res V
  | .lit n => .ok (.const n)
  | .emptyStr => .ok (.str [])
  | .nil => .ok (.val .nil)
  | .pl p => readPlace st m p
  | .lenData => .ok (.int C.dAtA.length)
  | .dataAt e => do
    let v ← eval C st m e
    match v with
    | .int i =>
      if i < 0 then .panic .indexOutOfRange
      else match C.dAtA[i.toNat]? with
        | some b => .ok (.byte b)
        | none => .panic .indexOutOfRange
    | _ => confused
  | .data lo hi => do
    let lo ← eval C st m lo
    let hi ← eval C st m hi
    let (off, n) ← span C lo hi
    .ok (.alias off n)
  | .len e => do
    let v ← eval C st m e
    match v with
    | .val v => .ok (.int v.elems.length)
    | _ => confused
  | .cap e => do
    let v ← eval C st m e
    match v with
    | .val (.list xs sp) => .ok (.int (xs.length + sp.length : Nat))
    | .val .nil => .ok (.int 0)
    | _ => confused
  | .bin op a b => do
    let x ← eval C st m a
    let y ← eval C st m b
    binV C.A op x y
  | .land a b => do
    let x ← eval C st m a
    match x with
    | .bool true => eval C st m b
    | .bool false => .ok (.bool false)
    | _ => confused
  | .lor a b => do
    let x ← eval C st m a
    match x with
    | .bool true => .ok (.bool true)
    | .bool false => eval C st m b
    | _ => confused
  | .conv T e => do
    let v ← eval C st m e
    convV C T v
  | .fromBits64 e => do
    let v ← eval C st m e
    match v with
    | .num .uint64 x => .ok (.f64 x)
    | _ => confused
  | .fromBits32 e => do
    let v ← eval C st m e
    match v with
    | .num .uint32 x => .ok (.f32 x)
    | _ => confused
  | .le n lo => do
    let lo ← eval C st m lo
    let (off, k) ← span C lo (.int C.dAtA.length)
    if k < n then .panic .indexOutOfRange
    else if n = 8 then .ok (.num .uint64 (BitVec.ofNat 64 (leValue (C.now off 8))))
    else if n = 4 then .ok (.num .uint32 (BitVec.ofNat 32 (leValue (C.now off 4))))
    else confused
  | .unsafeStr lo n => do
    let lo ← eval C st m lo
    let n ← eval C st m n
    match lo, n with
    | .int lo, .int n =>
      if 0 ≤ lo ∧ lo < C.dAtA.length then
        if 0 ≤ n then .ok (.alias lo.toNat n.toNat) else .panic .makeLen
      else .panic .indexOutOfRange
    | _, _ => confused
  | .intern e => do
    let v ← eval C st m e
    match v with
    | .alias off n => .ok (.str (C.now off n))
    | _ => confused
  | .newMsg t => .ok (.val (zeroMsg C.S t))
  | .fromPool t => .ok (.val (C.alloc (C.base + st.i.toNat) t))
  | .wrapper num e => do
    let v ← eval C st m e
    let w ← stored C v
    .ok (.val (.wrap num w))
  | .addr e => eval C st m e
  | .append s e => do
    let l ← slotOf m s
    let v ← eval C st m e
    let w ← stored C v
    let l ← appendVal l w
    .ok (.val l)
  | .appendReset s e => do
    let l ← slotOf m s
    let v ← eval C st m e
    match v with
    | .alias off n => .ok (.val (if l.isNil && (C.now off n).isEmpty then .nil else .str (C.now off n)))
    | _ => confused
  | .extend s => do
    let l ← slotOf m s
    match l with
    | .list xs (y :: sp) => .ok (.val (.list (xs ++ [y]) sp))
    | .list _ [] => .panic .sliceOutOfRange
    | .nil => .panic .sliceOutOfRange
    | _ => confused
  | .makeBytes e => do
    let v ← eval C st m e
    let n ← asInt v
    if 0 ≤ n ∧ n < (2 ^ (C.A.bits - 1) : Nat) then .ok (.str (List.replicate n.toNat 0)) else .panic .makeLen
  | .emptyBytes => .ok (.str [])
  | .makeMap _ => .ok (.val (.map []))
  | .makeSlice _ e => do
    let v ← eval C st m e
    match v with
    | .int n => if 0 ≤ n then .ok (.val (.list [] [])) else .panic .makeLen
    | _ => confused

/-- Conditions. Go semantics, as used by the code at `features/unmarshal/unmarshal.go:55-892`. -/
def evalCond (C : Ctx) (st : St) (m : Val) (e : Expr) : Res Bool := do
  let v ← eval C st m e
  match v with
  | .bool b => .ok b
  | _ => confused

/-- An expression as a step of the decoder.
Go semantics, as used by the code at `features/unmarshal/unmarshal.go:55-892`. -/
def evalU (C : Ctx) (st : St) (e : Expr) : UM V := fun m => (m, eval C st m e)

/-- Reading a place as a step of the decoder.
Go semantics, as used by the code at `features/unmarshal/unmarshal.go:55-892`. -/
def readU (st : St) (p : Place) : UM V := fun m => (m, readPlace st m p)

/-- A condition as a step of the decoder.
Go semantics, as used by the code at `features/unmarshal/unmarshal.go:55-892`. -/
def condU (C : Ctx) (st : St) (e : Expr) : UM Bool := fun m => (m, evalCond C st m e)

/-- A block: its variables go at the end.
Go semantics, as used by the code at `features/unmarshal/unmarshal.go:816-867`. -/
def inScope (st : St) (x : UM (St × Ctrl)) : UM (St × Ctrl) := do
  let (st', c) ← x
  pure (st'.leave st, c)

/-- Iterations of a loop, at most `n`.
Go semantics, as used by the code at `features/unmarshal/unmarshal.go:83-98,816-867`. -/
def iter (cond : St → UM Bool) (body post : St → UM (St × Ctrl)) : Nat → St → UM (St × Ctrl)
  | 0, _ => UM.lift .diverge
  | n + 1, st => do
    let c ← cond st
    if c then do
      let (st', r) ← body st
      match r with
      | .next => do
        let (st'', _) ← post st'
        iter cond body post n st''
      | .brk => pure (st', .next)
      | .ret => pure (st', .ret)
    else pure (st, .next)

/-- The loop of `range` over bytes. (`features/unmarshal/unmarshal.go:728-772`) -/
def rangeLoop (body : St → UM (St × Ctrl)) (x : Id) : List UInt8 → St → UM (St × Ctrl)
  | [], st => pure (st, .next)
  | b :: bs, st => do
    let st1 ← UM.lift (st.decl x (.byte b))
    let (st', r) ← inScope st (body st1)
    match r with
    | .next => rangeLoop body x bs st'
    | .brk => pure (st', .next)
    | .ret => pure (st', .ret)

/-- `dAtA[lo:hi]` as offset and length.
Go semantics, as used by the code at `features/unmarshal/unmarshal.go:55-81`. -/
def spanU (C : Ctx) (st : St) (lo hi : Expr) : UM (Nat × Nat) := do
  let a ← evalU C st lo
  let b ← evalU C st hi
  UM.lift (span C a b)

/-- `copy(dst, src)`. (`features/unmarshal/unmarshal.go:577-615`) -/
def copyBytes (dst src : Bytes) : Bytes := src.take dst.length ++ dst.drop src.length

/-- The method or function `f` decodes into the message at `p`; its error is returned.
(`features/unmarshal/unmarshal.go:55-81`) -/
def decodeInto (C : Ctx) (st : St) (p : Place) (f : UM Unit) : UM (St × Ctrl) := do
  let v ← readU st p
  match v with
  | .val x => do
    let (x', r) := f x
    let st ← writePlace C st p (.val x')
    UM.lift r
    pure (st, .next)
  | _ => UM.lift confused

/-- `proto.Unmarshal(b, x)`: what it leaves behind on an error is not modelled, as in `decodeMessage`.
(`features/unmarshal/unmarshal.go:55-81`) -/
def protoUnmarshal (R : Runtime) (t : Nat) (b : Bytes) : UM Unit := fun v =>
  if v.isNil then (v, .panic .nilDeref)
  else match R.unmarshal t b with
    | some v' => (v', .ok ())
    | none => (v, .err .foreign)

/-- `proto.UnmarshalOptions{AllowPartial: true}.Unmarshal(b, m)` on the receiver, with the error it returns.
(`features/unmarshal/unmarshal.go:844-858`) -/
def protoPartial (R : Runtime) (t : Nat) (b : Bytes) : UM (Option Err) := fun m =>
  match m with
  | .msg _ _ _ => match R.unmarshalPartial t b with
    | some m' => (m', .ok none)
    | none => (m, .ok (some .foreign))
  | .nil => (m, .panic .nilDeref)
  | _ => (m, .panic .typeConfusion)

/-- Meaning of statements, in a method of message type `self`.
Go semantics, as used by the code at `features/unmarshal/unmarshal.go:797-892`. -/
def exec (C : Ctx) (self : Nat) : Stmt → St → UM (St × Ctrl)
  | .skip, st => pure (st, .next)
  | .seq a b, st => do
    let (st', r) ← exec C self a st
    match r with
    | .next => exec C self b st'
    | r => pure (st', r)
  | .ite c a b, st => do
    let x ← condU C st c
    if x then inScope st (exec C self a st) else inScope st (exec C self b st)
  | .ifOneof s n a b, st => do
    let v ← getSlot s
    let yes : Bool := match v with
      | .wrap n' _ => n' == n
      | .wrapNil n' => n' == n
      | _ => false
    if yes then do
      let st1 ← UM.lift (st.decl .oneof (.ref s n))
      inScope st (exec C self a st1)
    else inScope st (exec C self b st)
  | .loop init c post body, st => inScope st (do
    let (st1, _) ← exec C self init st
    iter (fun st => match c with
        | some c => condU C st c
        | none => pure true)
      (fun st => inScope st (exec C self body st)) (exec C self post) C.fuel st1)
  | .range x lo hi body, st => do
    let (off, n) ← spanU C st lo hi
    rangeLoop (exec C self body) x (C.now off n) st
  | .sw cs, st => exec C self cs st
  | .case n body rest, st => do
    let v ← UM.lift (st.look .fieldNum)
    let x ← UM.lift (asInt v)
    if x = n then inScope st (exec C self body st) else exec C self rest st
  | .dflt body, st => inScope st (exec C self body st)
  | .decl x T, st => do
    let st ← UM.lift (st.decl x (zero T))
    pure (st, .next)
  | .define x e, st => do
    let v ← evalU C st e
    let st ← UM.lift (st.decl x v)
    pure (st, .next)
  | .assign p e, st => do
    let v ← evalU C st e
    let st ← writePlace C st p v
    pure (st, .next)
  | .orAssign p e, st => do
    let v ← evalU C st e
    let w ← readU st p
    let x ← UM.lift (orV C.A w v)
    let st ← writePlace C st p x
    pure (st, .next)
  | .addAssign x e, st => do
    let v ← evalU C st e
    let w ← UM.lift (st.look x)
    let y ← UM.lift (binV C.A .add w v)
    let st ← UM.lift (st.set x y)
    pure (st, .next)
  | .inc x, st => do
    let w ← UM.lift (st.look x)
    let y ← UM.lift (binV C.A .add w (.const 1))
    let st ← UM.lift (st.set x y)
    pure (st, .next)
  | .brk, st => pure (st, .brk)
  | .ret e, _ => UM.lift (.err e)
  | .retErr, st => do
    let v ← UM.lift (st.look .err)
    match v with
    | .err (some e) => UM.lift (.err e)
    | .err none => pure (st, .ret)
    | _ => UM.lift confused
  | .retNil, st => pure (st, .ret)
  | .skipCall, st => do
    let i ← UM.lift (st.look .iNdEx)
    let (off, n) ← UM.lift (span C i (.int C.dAtA.length))
    let (k, e) ← match skip C.A (C.now off n) with
      | .ok k => pure (k, none)
      | .err e => pure (0, some e)
      | .panic p => UM.lift (.panic p)
      | .diverge => UM.lift .diverge
    let st ← UM.lift (st.decl .skippy (.int k))
    let st ← UM.lift (st.decl .err (.err e))
    pure (st, .next)
  | .runtime lo hi, st => do
    let (off, n) ← spanU C st lo hi
    let e ← protoPartial C.R self (C.now off n)
    let st ← UM.lift (st.set .err (.err e))
    pure (st, .next)
  | .unknown lo hi, st => do
    let (off, n) ← spanU C st lo hi
    appendUnknown (C.now off n)
    pure (st, .next)
  | .mapSet s, st => do
    let k ← UM.lift (st.look .mapkey)
    let v ← UM.lift (st.look .mapvalue)
    let k ← UM.lift (keyOf C k)
    let v ← UM.lift (stored C v)
    let l ← getSlot s
    match l with
    | .map es => setSlot s (.map (mapInsert es k v))
    | _ => UM.lift confused
    pure (st, .next)
  | .copy p lo hi, st => do
    let (off, n) ← spanU C st lo hi
    let w ← readU st p
    match w with
    | .str dst => do
      let st ← writePlace C st p (.str (copyBytes dst (C.now off n)))
      pure (st, .next)
    | .val (.str dst) => do
      let st ← writePlace C st p (.str (copyBytes dst (C.now off n)))
      pure (st, .next)
    | _ => UM.lift confused
  | .call _ p t lo hi, st => do
    let (off, n) ← spanU C st lo hi
    decodeInto C st p (C.method (C.base + off) t (C.now off n))
  | .callProto p t lo hi, st => do
    let (off, n) ← spanU C st lo hi
    decodeInto C st p (protoUnmarshal C.R t (C.now off n))
  | .ifImpl _ t a b, st =>
    if (C.S.msg t).foreign then inScope st (exec C self b st) else inScope st (exec C self a st)

/-- Running the body of a method: it has to end in a `return`.
Go semantics, as used by the code at `features/unmarshal/unmarshal.go:797-892`. -/
def run (C : Ctx) (self : Nat) (body : Stmt) : UM Unit := do
  let (_, c) ← exec C self body ⟨[], 0⟩
  match c with
  | .ret => pure ()
  | _ => UM.lift confused

end Vtp.GoU
