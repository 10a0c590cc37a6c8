import Verif.Model.Go
import Verif.Model.Marshal
/-!
# What `features/size/size.go` prints

Each function returns the statements the function of the generator prints, one for one.
-/

namespace Vtp.Go

/-- What the generator asks about message types besides descriptors: `IsWellKnownType`, `IsLocalMessage`
(`generator/generatedfile.go:173-179` and `:110-116`). -/
structure GenCfg where
  wellKnown : Nat → Bool
  isLocal : Nat → Bool
  /-- `message.Fields` is in the order of field numbers rather than of the declaration: the features `equal`,
  `marshal` and `marshal_strict` sort it in place (`features/equal/equal.go:65-67`, `features/marshal/marshalto.go:609-611`)
  and run before `size` if they are enabled (`generator/generator.go:157-162`) -/
  sorted : Bool := true

namespace Emit

open Stmt Expr

/-- `a+b`. -/
local infixl:65 " +' " => Expr.bin BinOp.add
/-- `a*b`. -/
local infixl:70 " *' " => Expr.bin BinOp.mul

/-- The expression the code uses for the value of a field: `m.Field`, in a method of the message or of the
oneof wrapper. (`features/size/size.go:61-276`) -/
def fieldExpr (oneof : Bool) (t : Nat) (f : FieldDesc) : Expr :=
  .sel (.id .m) (if oneof then .member t f.num else .slot t f.slot)

/-- `messageSize`, `features/size/size.go:42-59`. -/
def messageSize (G : GenCfg) (var : Expr) (t : Nat) : Stmt :=
  if G.wellKnown t then assign .l (callSize (known var))
  else if G.isLocal t then assign .l (callSize var)
  else ifImpl .size var .size (assign .l (callSize (.id .size))) (assign .l (protoSize var))

/-- `n+=key+l+SizeOfVarint(uint64(l))`, e.g. `features/size/size.go:137`. -/
def addLen (key : Nat) : Stmt := addAssign .n (lit key +' .id .l +' sov (toU64 (.id .l)))

/-- Terms for a map key, `features/size/size.go:165-178`. -/
def keySum (k : Kind) (acc : Expr) : Expr :=
  match k with
  | .double => acc +' lit 8
  | .fixed64 => acc +' lit 8
  | .sfixed64 => acc +' lit 8
  | .float => acc +' lit 4
  | .fixed32 => acc +' lit 4
  | .sfixed32 => acc +' lit 4
  | .int64 => acc +' sov (toU64 (.id .k))
  | .uint64 => acc +' sov (toU64 (.id .k))
  | .uint32 => acc +' sov (toU64 (.id .k))
  | .enum => acc +' sov (toU64 (.id .k))
  | .int32 => acc +' sov (toU64 (.id .k))
  | .bool => acc +' lit 1
  | .string => acc +' len (.id .k) +' sov (toU64 (len (.id .k)))
  | .bytes => acc +' len (.id .k) +' sov (toU64 (len (.id .k)))
  | .sint32 => acc +' soz (toU64 (.id .k))
  | .sint64 => acc +' soz (toU64 (.id .k))
  | .message => acc
  | .group => acc

/-- Statements before `mapEntrySize :=` and the terms for a map value, `features/size/size.go:180-209`. -/
def valueSum (G : GenCfg) (md : MapDesc) (key : Nat) (acc : Expr) : Stmt × Expr :=
  match md.val with
  | .double => (.skip, acc +' lit key +' lit 8)
  | .fixed64 => (.skip, acc +' lit key +' lit 8)
  | .sfixed64 => (.skip, acc +' lit key +' lit 8)
  | .float => (.skip, acc +' lit key +' lit 4)
  | .fixed32 => (.skip, acc +' lit key +' lit 4)
  | .sfixed32 => (.skip, acc +' lit key +' lit 4)
  | .int64 => (.skip, acc +' lit key +' sov (toU64 (.id .v)))
  | .uint64 => (.skip, acc +' lit key +' sov (toU64 (.id .v)))
  | .uint32 => (.skip, acc +' lit key +' sov (toU64 (.id .v)))
  | .enum => (.skip, acc +' lit key +' sov (toU64 (.id .v)))
  | .int32 => (.skip, acc +' lit key +' sov (toU64 (.id .v)))
  | .bool => (.skip, acc +' lit key +' lit 1)
  | .string => (.skip, acc +' lit key +' len (.id .v) +' sov (toU64 (len (.id .v))))
  | .bytes =>
    (assign .l (lit key +' len (.id .v) +' sov (toU64 (len (.id .v)))), acc +' .id .l)
  | .sint32 => (.skip, acc +' lit key +' soz (toU64 (.id .v)))
  | .sint64 => (.skip, acc +' lit key +' soz (toU64 (.id .v)))
  | .message =>
    (assign .l (lit 0) ;;
     ite (.bin .ne (.id .v) .nil) (messageSize G (.id .v) md.valMsg) .skip ;;
     addAssign .l (lit key +' sov (toU64 (.id .l))),
     acc +' .id .l)
  | .group => (.skip, acc)

/-- The map branch, `features/size/size.go:156-219`. -/
def mapSize (G : GenCfg) (var : Expr) (f : FieldDesc) (md : MapDesc) : Stmt :=
  let fieldKeySize := keySize f.num (protoWireType f.kind)
  let keyKeySize := keySize 1 (protoWireType md.key)
  let valueKeySize := keySize 2 (protoWireType md.val)
  let vs := valueSum G md valueKeySize (keySum md.key (lit keyKeySize))
  range (some .k) (some .v) var
    (blank (.id .k) ;; blank (.id .v) ;; vs.1 ;;
     define .mapEntrySize vs.2 ;;
     addAssign .n (.id .mapEntrySize +' lit fieldKeySize +' sov (toU64 (.id .mapEntrySize))))

/-- The fixed-width kinds, `features/size/size.go:78-101`, for a width of 8 or 4. -/
def fixedSize (oneof nullable : Bool) (var : Expr) (f : FieldDesc) (key w : Nat) : Stmt :=
  if f.packed then
    addAssign .n (lit key +' sov (toU64 (len var *' lit w)) +' len var *' lit w)
  else if f.card == .repeated then addAssign .n (lit (key + w) *' len var)
  else if !oneof && !nullable then ite (.bin .ne var (lit 0)) (addAssign .n (lit (key + w))) .skip
  else addAssign .n (lit (key + w))

/-- `bool`, `features/size/size.go:122-133`. -/
def boolSize (oneof nullable : Bool) (var : Expr) (f : FieldDesc) (key : Nat) : Stmt :=
  if f.packed then
    addAssign .n (lit key +' sov (toU64 (len var)) +' len var *' lit 1)
  else if f.card == .repeated then addAssign .n (lit (key + 1) *' len var)
  else if !oneof && !nullable then ite var (addAssign .n (lit (key + 1))) .skip
  else addAssign .n (lit (key + 1))

/-- The varint kinds, `features/size/size.go:102-121` with `SizeOfVarint`, `245-264` with `SizeOfZigzag`. -/
def varintSize (helper : Expr → Expr) (oneof nullable : Bool) (var : Expr) (f : FieldDesc) (key : Nat) : Stmt :=
  if f.packed then
    assign .l (lit 0) ;;
    range none (some .e) var (addAssign .l (helper (toU64 (.id .e)))) ;;
    addAssign .n (lit key +' sov (toU64 (.id .l)) +' .id .l)
  else if f.card == .repeated then
    range none (some .e) var (addAssign .n (lit key +' helper (toU64 (.id .e))))
  else if nullable then addAssign .n (lit key +' helper (toU64 (star var)))
  else if !oneof then ite (.bin .ne var (lit 0)) (addAssign .n (lit key +' helper (toU64 var))) .skip
  else addAssign .n (lit key +' helper (toU64 var))

/-- Strings, `features/size/size.go:134-151`. -/
def stringSize (oneof nullable : Bool) (var : Expr) (f : FieldDesc) (key : Nat) : Stmt :=
  if f.card == .repeated then range none (some .s) var (assign .l (len (.id .s)) ;; addLen key)
  else if nullable then assign .l (len (star var)) ;; addLen key
  else if !oneof then
    assign .l (len var) ;; ite (.bin .gt (.id .l) (lit 0)) (addLen key) .skip
  else assign .l (len var) ;; addLen key

/-- Byte slices, `features/size/size.go:230-244`. -/
def bytesSize (oneof : Bool) (var : Expr) (f : FieldDesc) (key : Nat) : Stmt :=
  if f.card == .repeated then range none (some .b) var (assign .l (len (.id .b)) ;; addLen key)
  else if !oneof && !f.presence then
    assign .l (len var) ;; ite (.bin .gt (.id .l) (lit 0)) (addLen key) .skip
  else assign .l (len var) ;; addLen key

/-- The `switch` on the kind, `features/size/size.go:77-267`. -/
def fieldBody (G : GenCfg) (oneof : Bool) (var : Expr) (f : FieldDesc) : Stmt :=
  let nullable := f.hasMessage || (!oneof && f.presence)
  let wireType := if f.packed then 2 else protoWireType f.kind
  let key := keySize f.num wireType
  match f.kind with
  | .double => fixedSize oneof nullable var f key 8
  | .fixed64 => fixedSize oneof nullable var f key 8
  | .sfixed64 => fixedSize oneof nullable var f key 8
  | .float => fixedSize oneof nullable var f key 4
  | .fixed32 => fixedSize oneof nullable var f key 4
  | .sfixed32 => fixedSize oneof nullable var f key 4
  | .int64 => varintSize sov oneof nullable var f key
  | .uint64 => varintSize sov oneof nullable var f key
  | .uint32 => varintSize sov oneof nullable var f key
  | .enum => varintSize sov oneof nullable var f key
  | .int32 => varintSize sov oneof nullable var f key
  | .bool => boolSize oneof nullable var f key
  | .string => stringSize oneof nullable var f key
  | .group => messageSize G var f.msg ;; addAssign .n (.id .l +' lit (2 * key))
  | .message =>
    match f.map with
    | some md => mapSize G var f md
    | none =>
      if f.isList then range none (some .e) var (messageSize G (.id .e) f.msg ;; addLen key)
      else messageSize G var f.msg ;; addLen key
  | .bytes => bytesSize oneof var f key
  | .sint32 => varintSize soz oneof nullable var f key
  | .sint64 => varintSize soz oneof nullable var f key

/-- `field`, `features/size/size.go:61-276`. The text is printed line by line, so the `if` opened at 65-69 is
closed at 271-275: with an `else` if it is a message in a oneof. -/
def field (G : GenCfg) (oneof : Bool) (t : Nat) (f : FieldDesc) : Stmt :=
  let var := fieldExpr oneof t f
  let nullable := f.hasMessage || (!oneof && f.presence)
  let key := keySize f.num (if f.packed then 2 else protoWireType f.kind)
  let close : Stmt := if oneof && f.kind == .message && f.map.isNone && !f.isList then addAssign .n (lit (key + 1)) else .skip
  if f.card == .repeated then ite (.bin .gt (len var) (lit 0)) (fieldBody G oneof var f) close
  else if nullable then ite (.bin .ne var .nil) (fieldBody G oneof var f) close
  else fieldBody G oneof var f

/-- The members of a oneof in the order of declaration: `field.Oneof.Fields`.
(`features/size/size.go:309-320`) -/
def members (d : MsgDesc) (slot : Nat) : List FieldDesc := d.fields.filter fun f => f.oneof && f.slot == slot

/-- The cases of the type switch, `features/size/size.go:310-313`. -/
def oneofCases (var : Expr) (t : Nat) : List FieldDesc → Stmt
  | [] => .skip
  | f :: fs => ifType .c var t f.num (addAssign .n (callSize (known (.id .c)))) (oneofCases var t fs)

/-- The code for one oneof, `features/size/size.go:309-320`. -/
def oneof (G : GenCfg) (d : MsgDesc) (t slot : Nat) : Stmt :=
  let var : Expr := .sel (.id .m) (.slot t slot)
  if G.wellKnown t then oneofCases var t (members d slot)
  else ifImpl .vtmsg var .size (addAssign .n (callSize (.id .vtmsg))) .skip

/-- The loop over the fields, `features/size/size.go:298-322`; `seen` are the keys of `oneofs`. -/
def fields (G : GenCfg) (d : MsgDesc) (t : Nat) : List Nat → List FieldDesc → Stmt
  | _, [] => .skip
  | seen, f :: fs =>
    if f.oneof then
      if seen.contains f.slot then fields G d t seen fs
      else oneof G d t f.slot ;; fields G d t (f.slot :: seen) fs
    else field G false t f ;; fields G d t seen fs

/-- `message.Fields`. (`features/size/size.go:292-327`) -/
def messageFields (G : GenCfg) (d : MsgDesc) : List FieldDesc := if G.sorted then sortFields d.fields else d.fields

/-- `SizeVT` of a message type, `features/size/size.go:292-327`. -/
def sizeMethod (G : GenCfg) (S : Schema) (t : Nat) : Stmt :=
  let d := S.msg t
  ite (.bin .eq (.id .m) .nil) (ret [lit 0]) .skip ;;
  varInt .l ;;
  blank (.id .l) ;;
  fields G d t [] (messageFields G d) ;;
  (if d.keepUnknown then addAssign .n (len (.sel (.id .m) .unknown)) else .skip) ;;
  ret [.id .n]

/-- `SizeVT` of a oneof wrapper, `features/size/size.go:338-346`. -/
def sizeWrapper (G : GenCfg) (t : Nat) (f : FieldDesc) : Stmt :=
  ite (.bin .eq (.id .m) .nil) (ret [lit 0]) .skip ;;
  varInt .l ;;
  blank (.id .l) ;;
  field G true t f ;;
  ret [.id .n]

end Emit

/-- The result of a method with result type `int`. (`features/size/size.go:292-327,338-347`) -/
def resultInt : Res (St × Ctrl) → Res Int
  | .ok (_, .ret [v]) => intG v
  | .ok _ => confused
  | .err e => .err e
  | .panic p => .panic p
  | .diverge => .diverge

/-- Calls of the emitted `SizeVT` methods: `func (m *T) SizeVT() (n int)`, for message types and oneof wrappers.
The first argument bounds the depth of calls. (`features/size/size.go:292-327,338-347`) -/
def runSizeN (G : GenCfg) (E : Env) : Nat → GTy → Val → Res Int
  | 0, _, _ => .diverge
  | k + 1, T, v =>
    let C : Ctx := ⟨E.S, E.R, runSizeN G E k, fun _ _ _ => confused⟩
    let s : St := ⟨[(.n, .int 0), (.m, .val T v)], []⟩
    match T with
    | .msg t => resultInt (exec C (Emit.sizeMethod G E.S t) s)
    | .wrapper t num => match (E.S.msg t).fields.find? (fun f => f.num == num) with
      | some f => resultInt (exec C (Emit.sizeWrapper G t f) s)
      | none => confused
    | _ => confused

end Vtp.Go
