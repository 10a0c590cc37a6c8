import Verif.Model.GoU
import Verif.Model.EmitSize
/-!
# What `features/unmarshal/unmarshal.go` prints

Each function returns the statements the function of the generator prints, one for one.
-/

namespace Vtp.GoU

/-- What the generator asks besides descriptors: the feature is `unmarshal_unsafe`
(`features/unmarshal/unmarshal.go:27-29`); the option `unique` of a field (lines 421 and 510); and the questions of
the other features. -/
structure GenCfg extends Go.GenCfg where
  aliasing : Bool
  unique : FieldDesc → Bool

namespace Emit

open Stmt Expr

/-- A variable as an expression.
Go semantics, as used by the code at `features/unmarshal/unmarshal.go:55-114`. -/
abbrev var (x : Id) : Expr := .pl (.id x)

/-- `iNdEx`. (`features/unmarshal/unmarshal.go:83-98`) -/
abbrev iNdEx : Expr := var .iNdEx

/-- `if c { s }`. (`features/unmarshal/unmarshal.go:89-95`) -/
abbrev when (c : Expr) (s : Stmt) : Stmt := ite c s .skip

/-- `decodeMessage`, `features/unmarshal/unmarshal.go:56-81`. -/
def decodeMessage (G : GenCfg) (p : Place) (lo hi : Expr) (t : Nat) : Stmt :=
  if G.wellKnown t then call .known p t lo hi
  else if G.isLocal t then call .plain p t lo hi
  else ifImpl p t (call .iface p t lo hi) (callProto p t lo hi)

/-- The body of the loop of `decodeVarint`, `features/unmarshal/unmarshal.go:85-96`. -/
def varintBody (p : Place) (T : Ty) : Stmt :=
  when (.bin .ge (var .shift) (lit 64)) (ret .intOverflow) ;;
  when (.bin .ge iNdEx (var .l)) (ret .unexpectedEOF) ;;
  define .b (.dataAt iNdEx) ;;
  inc .iNdEx ;;
  orAssign p (.bin .shl (conv T (.bin .and (var .b) (lit 0x7F))) (var .shift)) ;;
  when (.bin .lt (var .b) (lit 0x80)) brk

/-- `decodeVarint`, `features/unmarshal/unmarshal.go:83-98`. -/
def decodeVarint (p : Place) (T : Ty) : Stmt :=
  loop (define .shift (conv .uint (lit 0))) none (addAssign .shift (lit 7)) (varintBody p T)

/-- `decodeFixed32` and `decodeFixed64`, `features/unmarshal/unmarshal.go:100-114`, for 4 or 8 bytes. -/
def decodeFixed (n : Nat) (p : Place) (T : Ty) : Stmt :=
  when (.bin .gt (.bin .add iNdEx (lit n)) (var .l)) (ret .unexpectedEOF) ;;
  assign p (conv T (le n iNdEx)) ;;
  addAssign .iNdEx (lit n)

/-- The Go type of a value of a kind, `FieldGoType` (`generator/generatedfile.go:67-108`) without `[]` and `*`. -/
def goType (k : Kind) (t : Nat) : Ty :=
  match k with
  | .bool => .bool
  | .enum => .num .enum
  | .int32 => .num .int32
  | .sint32 => .num .int32
  | .sfixed32 => .num .int32
  | .uint32 => .num .uint32
  | .fixed32 => .num .uint32
  | .float => .float32
  | .int64 => .num .int64
  | .sint64 => .num .int64
  | .sfixed64 => .num .int64
  | .uint64 => .num .uint64
  | .fixed64 => .num .uint64
  | .double => .float64
  | .string => .string
  | .bytes => .bytes
  | .message => .ptr t
  | .group => .ptr t

/-- The checks of a decoded length, e.g. `features/unmarshal/unmarshal.go:485-494`. -/
def checkLen (len post : Id) : Stmt :=
  when (.bin .lt (var len) (lit 0)) (ret .invalidLength) ;;
  define post (.bin .add iNdEx (var len)) ;;
  when (.bin .lt (var post) (lit 0)) (ret .invalidLength) ;;
  when (.bin .gt (var post) (var .l)) (ret .unexpectedEOF)

/-- A length decoded into an `int`, `features/unmarshal/unmarshal.go:215-226` (messages in maps), `483-494` (messages),
`577-588` (bytes), `728-739` (packed). -/
def intLen (len post : Id) : Stmt :=
  decl len .int ;; decodeVarint (.id len) .int ;; checkLen len post

/-- A length decoded into a `uint64`, `features/unmarshal/unmarshal.go:184-196` (strings in maps), `232-244` (bytes in
maps), `423-435` (strings). -/
def uint64Len (len intLen post : Id) : Stmt :=
  decl len (.num .uint64) ;; decodeVarint (.id len) (.num .uint64) ;; define intLen (conv .int (var len)) ;; checkLen intLen post

/-- `uint32(x) >> 1 ^ uint32((x&1)<<31>>31)`, `features/unmarshal/unmarshal.go:264,687`. -/
def unzigzag32 (x : Id) : Expr :=
  .conv (.num .int32) (.bin .xor (.bin .shr (.conv (.num .uint32) (var x)) (lit 1))
    (.conv (.num .uint32) (.bin .shr (.bin .shl (.bin .and (var x) (lit 1)) (lit 31)) (lit 31))))

/-- `(x >> 1) ^ uint64((int64(x&1)<<63)>>63)`, `features/unmarshal/unmarshal.go:269,699`. -/
def unzigzag64 (x : Id) : Expr :=
  .bin .xor (.bin .shr (var x) (lit 1))
    (.conv (.num .uint64) (.bin .shr (.bin .shl (.conv (.num .int64) (.bin .and (var x) (lit 1))) (lit 63)) (lit 63)))

/-- `mapField`, `features/unmarshal/unmarshal.go:160-273`. -/
def mapField (G : GenCfg) (x : Id) (k : Kind) (t : Nat) (unique : Bool) : Stmt :=
  match k with
  | .double =>
    decl (.temp x) (.num .uint64) ;; decodeFixed 8 (.id (.temp x)) (.num .uint64) ;; assign (.id x) (.fromBits64 (var (.temp x)))
  | .float =>
    decl (.temp x) (.num .uint32) ;; decodeFixed 4 (.id (.temp x)) (.num .uint32) ;; assign (.id x) (.fromBits32 (var (.temp x)))
  | .int64 => decodeVarint (.id x) (.num .int64)
  | .uint64 => decodeVarint (.id x) (.num .uint64)
  | .int32 => decodeVarint (.id x) (.num .int32)
  | .fixed64 => decodeFixed 8 (.id x) (.num .uint64)
  | .fixed32 => decodeFixed 4 (.id x) (.num .uint32)
  | .bool =>
    decl (.temp x) .int ;; decodeVarint (.id (.temp x)) .int ;; assign (.id x) (.conv .bool (.bin .ne (var (.temp x)) (lit 0)))
  | .string =>
    uint64Len (.stringLenOf x) (.intStringLenOf x) (.postStringIndexOf x) ;;
    (if G.aliasing then
      ite (.bin .eq (var (.intStringLenOf x)) (lit 0)) (assign (.id x) .emptyStr)
        (assign (.id x) (.unsafeStr iNdEx (var (.intStringLenOf x))))
     else if unique then
      ite (.bin .eq (var (.intStringLenOf x)) (lit 0)) (assign (.id x) .emptyStr)
        (assign (.id x) (.intern (.unsafeStr iNdEx (var (.intStringLenOf x)))))
     else assign (.id x) (.conv .string (.data iNdEx (var (.postStringIndexOf x))))) ;;
    assign (.id .iNdEx) (var (.postStringIndexOf x))
  | .message =>
    intLen .mapmsglen .postmsgIndex ;;
    assign (.id x) (.newMsg t) ;;
    decodeMessage G (.id x) iNdEx (var .postmsgIndex) t ;;
    assign (.id .iNdEx) (var .postmsgIndex)
  | .bytes =>
    uint64Len .mapbyteLen .intMapbyteLen .postbytesIndex ;;
    (if G.aliasing then assign (.id x) (.data iNdEx (var .postbytesIndex))
     else assign (.id x) (.makeBytes (var .mapbyteLen)) ;; copy (.id x) iNdEx (var .postbytesIndex)) ;;
    assign (.id .iNdEx) (var .postbytesIndex)
  | .uint32 => decodeVarint (.id x) (.num .uint32)
  | .enum => decodeVarint (.id x) (.num .enum)
  | .sfixed32 => decodeFixed 4 (.id x) (.num .int32)
  | .sfixed64 => decodeFixed 8 (.id x) (.num .int64)
  | .sint32 =>
    decl (.temp x) (.num .int32) ;; decodeVarint (.id (.temp x)) (.num .int32) ;;
    assign (.id (.temp x)) (unzigzag32 (.temp x)) ;; assign (.id x) (.conv (.num .int32) (var (.temp x)))
  | .sint64 =>
    decl (.temp x) (.num .uint64) ;; decodeVarint (.id (.temp x)) (.num .uint64) ;;
    assign (.id (.temp x)) (unzigzag64 (.temp x)) ;; assign (.id x) (.conv (.num .int64) (var (.temp x)))
  | .group => .skip

/-- The kinds decoded straight into the variable or struct field, e.g. `features/unmarshal/unmarshal.go:323-338`; `dec`
is the call of `decodeVarint`, `decodeFixed32` or `decodeFixed64`. -/
def plainItem (f : FieldDesc) (proto3 : Bool) (T : Ty) (dec : Place → Stmt) : Stmt :=
  if f.oneof then decl .v T ;; dec (.id .v) ;; assign (.field f.slot) (.wrapper f.num (var .v))
  else if f.card == .repeated then decl .v T ;; dec (.id .v) ;; assign (.field f.slot) (.append f.slot (var .v))
  else if proto3 && !f.synthetic then assign (.field f.slot) (lit 0) ;; dec (.field f.slot)
  else decl .v T ;; dec (.id .v) ;; assign (.field f.slot) (.addr (var .v))

/-- Storing an expression; fields with presence get the address of a variable `x` declared for it. E.g.
`features/unmarshal/unmarshal.go:296-306` (`named` there: repeated fields use the variable too). -/
def storeExpr (f : FieldDesc) (proto3 named : Bool) (x : Id) (e : Expr) : Stmt :=
  if f.oneof then assign (.field f.slot) (.wrapper f.num e)
  else if f.card == .repeated then
    if named then define x e ;; assign (.field f.slot) (.append f.slot (var x)) else assign (.field f.slot) (.append f.slot e)
  else if proto3 && !f.synthetic then assign (.field f.slot) e
  else define x e ;; assign (.field f.slot) (.addr (var x))

/-- `bool`, `features/unmarshal/unmarshal.go:408-419`. -/
def boolItem (f : FieldDesc) (proto3 : Bool) : Stmt :=
  let e := Expr.conv .bool (.bin .ne (var .v) (lit 0))
  decl .v .int ;; decodeVarint (.id .v) .int ;;
  if f.oneof then define .b e ;; assign (.field f.slot) (.wrapper f.num (var .b))
  else if f.card == .repeated then assign (.field f.slot) (.append f.slot e)
  else if proto3 && !f.synthetic then assign (.field f.slot) e
  else define .b e ;; assign (.field f.slot) (.addr (var .b))

/-- The expression for a decoded string and what is printed before it, `features/unmarshal/unmarshal.go:436-450`. -/
def stringValue (G : GenCfg) (f : FieldDesc) : Stmt × Expr :=
  if G.aliasing then
    (decl .stringValue .string ;;
     when (.bin .gt (var .intStringLen) (lit 0)) (assign (.id .stringValue) (.unsafeStr iNdEx (var .intStringLen))), var .stringValue)
  else if G.unique f then
    (decl .stringValue .string ;;
     when (.bin .gt (var .intStringLen) (lit 0)) (assign (.id .stringValue) (.intern (.unsafeStr iNdEx (var .intStringLen)))), var .stringValue)
  else (.skip, .conv .string (.data iNdEx (var .postIndex)))

/-- Strings, `features/unmarshal/unmarshal.go:420-461`. -/
def stringItem (G : GenCfg) (f : FieldDesc) (proto3 : Bool) : Stmt :=
  uint64Len .stringLen .intStringLen .postIndex ;;
  (stringValue G f).1 ;;
  storeExpr f proto3 false .s (stringValue G f).2 ;;
  assign (.id .iNdEx) (var .postIndex)

/-- `skippy, err := Skip(dAtA[iNdEx:])` with the first checks, e.g. `features/unmarshal/unmarshal.go:473-479`. -/
def skipHead : Stmt :=
  skipCall ;;
  when (.bin .ne (var .err) .nil) retErr ;;
  when (.lor (.bin .lt (var .skippy) (lit 0)) (.bin .lt (.bin .add iNdEx (var .skippy)) (lit 0))) (ret .invalidLength)

/-- The body of the loop for a group, `features/unmarshal/unmarshal.go:465-480`. -/
def groupBody (G : GenCfg) (f : FieldDesc) : Stmt :=
  define .maybeGroupEnd iNdEx ;;
  decl .groupFieldWire (.num .uint64) ;;
  decodeVarint (.id .groupFieldWire) (.num .uint64) ;;
  define .groupWireType (.conv .int (.bin .and (var .wire) (lit 7))) ;;
  when (.bin .eq (var .groupWireType) (lit 4))
    (decodeMessage G (.field f.slot) (var .groupStart) (var .maybeGroupEnd) f.msg ;; brk) ;;
  skipHead ;;
  addAssign .iNdEx (var .skippy)

/-- Groups, `features/unmarshal/unmarshal.go:462-481`. -/
def groupItem (G : GenCfg) (f : FieldDesc) : Stmt :=
  define .groupStart iNdEx ;; loop .skip none .skip (groupBody G f)

/-- `&T{}` or `TFromVTPool()`, `features/unmarshal/unmarshal.go:501-505,567-571`. -/
def newMessage (S : Schema) (d : MsgDesc) (t : Nat) : Expr :=
  if d.pooled && (S.msg t).pooled then .fromPool t else .newMsg t

/-- A message in a oneof, `features/unmarshal/unmarshal.go:495-508`. -/
def oneofMessage (G : GenCfg) (S : Schema) (d : MsgDesc) (f : FieldDesc) : Stmt :=
  ifOneof f.slot f.num (decodeMessage G .member iNdEx (var .postIndex) f.msg)
    (define .v (newMessage S d f.msg) ;;
     decodeMessage G (.id .v) iNdEx (var .postIndex) f.msg ;;
     assign (.field f.slot) (.wrapper f.num (var .v)))

/-- The body of the loop over a map entry, `features/unmarshal/unmarshal.go:524-546`. -/
def entryBody (G : GenCfg) (f : FieldDesc) (md : MapDesc) : Stmt :=
  define .entryPreIndex iNdEx ;;
  decl .wire (.num .uint64) ;;
  decodeVarint (.id .wire) (.num .uint64) ;;
  define .fieldNum (.conv (.num .int32) (.bin .shr (var .wire) (lit 3))) ;;
  ite (.bin .eq (var .fieldNum) (lit 1)) (mapField G .mapkey md.key 0 (G.unique f))
    (ite (.bin .eq (var .fieldNum) (lit 2)) (mapField G .mapvalue md.val md.valMsg (G.unique f))
      (assign (.id .iNdEx) (var .entryPreIndex) ;;
       skipHead ;;
       when (.bin .gt (.bin .add iNdEx (var .skippy)) (var .postIndex)) (ret .unexpectedEOF) ;;
       addAssign .iNdEx (var .skippy)))

/-- A map, `features/unmarshal/unmarshal.go:509-548`. -/
def mapItem (G : GenCfg) (f : FieldDesc) (md : MapDesc) : Stmt :=
  when (.bin .eq (.pl (.field f.slot)) .nil) (assign (.field f.slot) (.makeMap f.slot)) ;;
  decl .mapkey (goType md.key 0) ;;
  decl .mapvalue (goType md.val md.valMsg) ;;
  loop .skip (some (.bin .lt iNdEx (var .postIndex))) .skip (entryBody G f md) ;;
  mapSet f.slot

/-- A repeated message, `features/unmarshal/unmarshal.go:549-564`. -/
def repeatedMessage (G : GenCfg) (d : MsgDesc) (f : FieldDesc) : Stmt :=
  (if d.pooled then
    ite (.bin .eq (.len (.pl (.field f.slot))) (.cap (.pl (.field f.slot))))
      (assign (.field f.slot) (.append f.slot (.newMsg f.msg)))
      (assign (.field f.slot) (.extend f.slot) ;;
       when (.bin .eq (.pl (.last f.slot)) .nil) (assign (.last f.slot) (.newMsg f.msg)))
   else assign (.field f.slot) (.append f.slot (.newMsg f.msg))) ;;
  decodeMessage G (.last f.slot) iNdEx (var .postIndex) f.msg

/-- A message in a struct field of its own, `features/unmarshal/unmarshal.go:565-574`. -/
def singleMessage (G : GenCfg) (S : Schema) (d : MsgDesc) (f : FieldDesc) : Stmt :=
  when (.bin .eq (.pl (.field f.slot)) .nil) (assign (.field f.slot) (newMessage S d f.msg)) ;;
  decodeMessage G (.field f.slot) iNdEx (var .postIndex) f.msg

/-- Messages and maps, `features/unmarshal/unmarshal.go:482-575`. -/
def messageItem (G : GenCfg) (S : Schema) (d : MsgDesc) (f : FieldDesc) : Stmt :=
  intLen .msglen .postIndex ;;
  (if f.oneof then oneofMessage G S d f
   else match f.map with
    | some md => mapItem G f md
    | none => if f.card == .repeated then repeatedMessage G d f else singleMessage G S d f) ;;
  assign (.id .iNdEx) (var .postIndex)

/-- Byte slices, `features/unmarshal/unmarshal.go:577-615`. -/
def bytesItem (G : GenCfg) (f : FieldDesc) : Stmt :=
  let buf := Expr.data iNdEx (var .postIndex)
  let fresh := Expr.makeBytes (.bin .sub (var .postIndex) iNdEx)
  intLen .byteLen .postIndex ;;
  (if f.oneof then
    (if G.aliasing then define .v buf else define .v fresh ;; copy (.id .v) iNdEx (var .postIndex)) ;;
    assign (.field f.slot) (.wrapper f.num (var .v))
   else if f.card == .repeated then
    if G.aliasing then assign (.field f.slot) (.append f.slot buf)
    else assign (.field f.slot) (.append f.slot fresh) ;; copy (.last f.slot) iNdEx (var .postIndex)
   else if G.aliasing then assign (.field f.slot) buf
   else
    assign (.field f.slot) (.appendReset f.slot buf) ;;
    when (.bin .eq (.pl (.field f.slot)) .nil) (assign (.field f.slot) .emptyBytes)) ;;
  assign (.id .iNdEx) (var .postIndex)

/-- `fieldItem`, `features/unmarshal/unmarshal.go:286-714`. -/
def fieldItem (G : GenCfg) (S : Schema) (d : MsgDesc) (f : FieldDesc) (proto3 : Bool) : Stmt :=
  match f.kind with
  | .double =>
    decl .v (.num .uint64) ;; decodeFixed 8 (.id .v) (.num .uint64) ;;
    storeExpr f proto3 true .v2 (.conv .float64 (.fromBits64 (var .v)))
  | .float =>
    decl .v (.num .uint32) ;; decodeFixed 4 (.id .v) (.num .uint32) ;;
    storeExpr f proto3 true .v2 (.conv .float32 (.fromBits32 (var .v)))
  | .int64 => plainItem f proto3 (.num .int64) (decodeVarint · (.num .int64))
  | .uint64 => plainItem f proto3 (.num .uint64) (decodeVarint · (.num .uint64))
  | .int32 => plainItem f proto3 (.num .int32) (decodeVarint · (.num .int32))
  | .fixed64 => plainItem f proto3 (.num .uint64) (decodeFixed 8 · (.num .uint64))
  | .fixed32 => plainItem f proto3 (.num .uint32) (decodeFixed 4 · (.num .uint32))
  | .bool => boolItem f proto3
  | .string => stringItem G f proto3
  | .group => groupItem G f
  | .message => messageItem G S d f
  | .bytes => bytesItem G f
  | .uint32 => plainItem f proto3 (.num .uint32) (decodeVarint · (.num .uint32))
  | .enum => plainItem f proto3 (.num .enum) (decodeVarint · (.num .enum))
  | .sfixed32 => plainItem f proto3 (.num .int32) (decodeFixed 4 · (.num .int32))
  | .sfixed64 => plainItem f proto3 (.num .int64) (decodeFixed 8 · (.num .int64))
  | .sint32 =>
    decl .v (.num .int32) ;; decodeVarint (.id .v) (.num .int32) ;; assign (.id .v) (unzigzag32 .v) ;;
    if f.oneof then assign (.field f.slot) (.wrapper f.num (var .v))
    else if f.card == .repeated then assign (.field f.slot) (.append f.slot (var .v))
    else if proto3 && !f.synthetic then assign (.field f.slot) (var .v)
    else assign (.field f.slot) (.addr (var .v))
  | .sint64 =>
    decl .v (.num .uint64) ;; decodeVarint (.id .v) (.num .uint64) ;; assign (.id .v) (unzigzag64 .v) ;;
    storeExpr f proto3 false .v2 (.conv (.num .int64) (var .v))

/-- `elementCount` of a packed payload, `features/unmarshal/unmarshal.go:741-758`. -/
def elementCount (k : Kind) : Stmt :=
  let counted : Stmt :=
    decl .count .int ;;
    range .integer iNdEx (var .postIndex) (when (.bin .lt (var .integer) (lit 128)) (inc .count)) ;;
    assign (.id .elementCount) (var .count)
  let divided (n : Nat) : Stmt := assign (.id .elementCount) (.bin .div (var .packedLen) (lit n))
  decl .elementCount .int ;;
  match k with
  | .double => divided 8
  | .fixed64 => divided 8
  | .sfixed64 => divided 8
  | .float => divided 4
  | .fixed32 => divided 4
  | .sfixed32 => divided 4
  | .int64 => counted
  | .uint64 => counted
  | .int32 => counted
  | .uint32 => counted
  | .sint32 => counted
  | .sint64 => counted
  | .bool => assign (.id .elementCount) (var .packedLen)
  | _ => .skip

/-- The allocation of a slice for a packed payload, `features/unmarshal/unmarshal.go:760-768`. -/
def allocSlice (d : MsgDesc) (f : FieldDesc) : Stmt :=
  let empty := Expr.land (.bin .ne (var .elementCount) (lit 0)) (.bin .eq (.len (.pl (.field f.slot))) (lit 0))
  when (if d.pooled then .land empty (.bin .lt (.cap (.pl (.field f.slot))) (var .elementCount)) else empty)
    (assign (.field f.slot) (.makeSlice f.slot (var .elementCount)))

/-- The branch for packed lists, `features/unmarshal/unmarshal.go:728-772`. -/
def packedItem (G : GenCfg) (S : Schema) (d : MsgDesc) (f : FieldDesc) : Stmt :=
  intLen .packedLen .postIndex ;;
  elementCount f.kind ;;
  allocSlice d f ;;
  loop .skip (some (.bin .lt iNdEx (var .postIndex))) .skip (fieldItem G S d f false)

/-- `hasFields[bit/64] |= uint64(1<<(bit%64))`, `features/unmarshal/unmarshal.go:783-794`. -/
def markField (d : MsgDesc) (f : FieldDesc) : Stmt :=
  if f.card == .required then
    let bit := d.required.idxOf f.num
    orAssign (.has (bit / 64)) (.conv (.num .uint64) (lit (2 ^ (bit % 64))))
  else .skip

/-- `field`, `features/unmarshal/unmarshal.go:716-795`, without the line `case n:`. -/
def field (G : GenCfg) (S : Schema) (d : MsgDesc) (f : FieldDesc) : Stmt :=
  let wt := protoWireType f.kind
  (if f.isList && wt != 2 then
    ite (.bin .eq (var .wireType) (lit wt)) (fieldItem G S d f false)
      (ite (.bin .eq (var .wireType) (lit 2)) (packedItem G S d f) (ret (.wrongWireType f.num)))
   else
    when (.bin .ne (var .wireType) (lit wt)) (ret (.wrongWireType f.num)) ;;
    fieldItem G S d f d.proto3) ;;
  markField d f

/-- `((fieldNum >= lo) && (fieldNum < hi))||…`, `features/unmarshal/unmarshal.go:845-850`. -/
def rangeCond (r : Nat × Nat) : Expr :=
  .land (.bin .ge (var .fieldNum) (lit r.1)) (.bin .lt (var .fieldNum) (lit r.2))

/-- The `default` case, `features/unmarshal/unmarshal.go:832-865`. -/
def unknownCase (d : MsgDesc) : Stmt :=
  let next := Expr.bin .add iNdEx (var .skippy)
  let keep : Stmt :=
    (if d.keepUnknown then unknown iNdEx next else .skip) ;; addAssign .iNdEx (var .skippy)
  assign (.id .iNdEx) (var .preIndex) ;;
  skipHead ;;
  when (.bin .gt next (var .l)) (ret .unexpectedEOF) ;;
  match d.extRanges with
  | [] => keep
  | r :: rs =>
    ite (rs.foldl (fun e r => .lor e (rangeCond r)) (rangeCond r))
      (runtime iNdEx next ;; when (.bin .ne (var .err) .nil) retErr ;; addAssign .iNdEx (var .skippy))
      keep

/-- The cases of the `switch`, `features/unmarshal/unmarshal.go:829-832`. -/
def cases (G : GenCfg) (S : Schema) (d : MsgDesc) : List FieldDesc → Stmt
  | [] => dflt (unknownCase d)
  | f :: fs => case f.num (field G S d f) (cases G S d fs)

/-- The body of the loop over the records, `features/unmarshal/unmarshal.go:817-866`. -/
def recordBody (G : GenCfg) (S : Schema) (d : MsgDesc) : Stmt :=
  define .preIndex iNdEx ;;
  decl .wire (.num .uint64) ;;
  decodeVarint (.id .wire) (.num .uint64) ;;
  define .fieldNum (.conv (.num .int32) (.bin .shr (var .wire) (lit 3))) ;;
  define .wireType (.conv .int (.bin .and (var .wire) (lit 7))) ;;
  when (.bin .eq (var .wireType) (lit 4)) (ret .endGroupForNonGroup) ;;
  when (.bin .le (var .fieldNum) (lit 0)) (ret .illegalTag) ;;
  sw (cases G S d (Go.Emit.messageFields G.toGenCfg d))

/-- The checks after the loop, `features/unmarshal/unmarshal.go:869-885`. -/
def checkRequired (d : MsgDesc) : List FieldDesc → Stmt
  | [] => .skip
  | f :: fs =>
    (if f.card == .required then
      let bit := d.required.idxOf f.num
      when (.bin .eq (.bin .and (.pl (.has (bit / 64))) (.conv (.num .uint64) (lit (2 ^ (bit % 64))))) (lit 0)) (ret (.requiredNotSet f.num))
     else .skip) ;;
    checkRequired d fs

/-- `message`, `features/unmarshal/unmarshal.go:797-892`: the body of `UnmarshalVT` or `UnmarshalVTUnsafe`. -/
def method (G : GenCfg) (S : Schema) (t : Nat) : Stmt :=
  let d := S.msg t
  (if d.required.length > 0 then decl .hasFields (.words (1 + (d.required.length - 1) / 64)) else .skip) ;;
  define .l .lenData ;;
  define .iNdEx (lit 0) ;;
  loop .skip (some (.bin .lt iNdEx (var .l))) .skip (recordBody G S d) ;;
  checkRequired d (Go.Emit.messageFields G.toGenCfg d) ;;
  when (.bin .gt iNdEx (var .l)) (ret .unexpectedEOF) ;;
  retNil

end Emit

/-- The printed methods called on each other: the method of type `t` on input `b` at offset `base` of the buffer of the
outermost call, with at most `n` calls inside each other.
(`features/unmarshal/unmarshal.go:797-892`) -/
def methodN (G : GenCfg) (E : UEnv) (fuel : Nat) : Nat → SubDec
  | 0 => fun _ _ _ => UM.lift .diverge
  | n + 1 => fun base t b =>
    run { S := E.S, R := E.R, A := E.A, later := E.later, alloc := E.alloc, base := base, dAtA := b, fuel := fuel, method := methodN G E fuel n }
      t (Emit.method G E.S t)

end Vtp.GoU
