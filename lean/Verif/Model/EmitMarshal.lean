import Verif.Model.EmitSize
import Verif.Model.Marshal
/-!
# What `features/marshal/marshalto.go` prints

Each function returns the statements the function of the generator prints, one for one. `c` is the value of
`numGen`, from which the names of temporary variables are made. `Stable` is false in both registered features
(`features/marshal/marshalto.go:22,25`), so the branches on it are left out.
-/

namespace Vtp.Go

namespace Emit

open Stmt Expr

/-- `a*b`. -/
local infixl:70 " *' " => Expr.bin BinOp.mul
/-- `a-b`. -/
local infixl:65 " -' " => Expr.bin BinOp.sub

/-- `encodeFixed64`, `features/marshal/marshalto.go:54-57`. -/
def encodeFixed64 (e : Expr) : Stmt := subAssign .i (lit 8) ;; putUint 8 (toU64 e)

/-- `encodeFixed32`, `features/marshal/marshalto.go:59-62`. -/
def encodeFixed32 (e : Expr) : Stmt := subAssign .i (lit 4) ;; putUint 4 (toU32 e)

/-- `encodeVarint`, `features/marshal/marshalto.go:64-66`. -/
def encodeVarint (e : Expr) : Stmt := Stmt.encodeVarint (toU64 e)

/-- The statements of `encodeKey` for given key bytes, `features/marshal/marshalto.go:77-80`. -/
def keyBytes : List UInt8 → Stmt
  | [] => .skip
  | b :: bs => (dec .i ;; setByte .i (lit b.toNat)) ;; keyBytes bs

/-- `encodeKey`, `features/marshal/marshalto.go:68-81`. -/
def encodeKey (num wireType : Nat) : Stmt := keyBytes (keyBuf num wireType).reverse

/-- `(uint32(x) << 1) ^ uint32((x >> 31))`, `features/marshal/marshalto.go:107,445,459`. -/
def zigzag32 (x : Expr) : Expr := .bin .xor (.bin .shl (toU32 x) (lit 1)) (toU32 (.bin .shr x (lit 31)))

/-- `(uint64(x) << 1) ^ uint64((x >> 63))`, `features/marshal/marshalto.go:109,489,503`. -/
def zigzag64 (x : Expr) : Expr := .bin .xor (.bin .shl (toU64 x) (lit 1)) (toU64 (.bin .shr x (lit 63)))

/-- `i--; if x { dAtA[i] = 1 } else { dAtA[i] = 0 }`, `features/marshal/marshalto.go:95-100`. -/
def boolByte (x : Expr) : Stmt := dec .i ;; ite x (setByte .i (lit 1)) (setByte .i (lit 0))

/-- `i -= len(x); copy(dAtA[i:], x); encodeVarint(len(x))`, `features/marshal/marshalto.go:102-104`. -/
def copyBytes (x : Expr) : Stmt := subAssign .i (len x) ;; Stmt.copy x ;; encodeVarint (len x)

/-- The code for one scalar: `mapField`, `features/marshal/marshalto.go:83-109`, and the same text for single
fields in each branch of `field`, `153-163,178-188,221-236,247-260,270-283,299-333,341-359,417-430,458-474,502-518`. -/
def scalar (k : Kind) (x : Expr) : Stmt :=
  match k with
  | .double => encodeFixed64 (f64bits x)
  | .float => encodeFixed32 (f32bits x)
  | .int64 => encodeVarint x
  | .uint64 => encodeVarint x
  | .int32 => encodeVarint x
  | .uint32 => encodeVarint x
  | .enum => encodeVarint x
  | .fixed64 => encodeFixed64 x
  | .sfixed64 => encodeFixed64 x
  | .fixed32 => encodeFixed32 x
  | .sfixed32 => encodeFixed32 x
  | .bool => boolByte x
  | .string => copyBytes x
  | .bytes => copyBytes x
  | .sint32 => encodeVarint (zigzag32 x)
  | .sint64 => encodeVarint (zigzag64 x)
  | .message => .skip
  | .group => .skip

/-- The code for one element of a slice of scalars, where four kinds have a temporary variable,
`features/marshal/marshalto.go:139-140,146-147,166-167,173-174,457-458,501-502`. -/
def elem (c : Nat) (k : Kind) (x : Expr) : Stmt :=
  match k with
  | .double => define (.f (c + 1)) (f64bits x) ;; encodeFixed64 (.id (.f (c + 1)))
  | .float => define (.f (c + 1)) (f32bits x) ;; encodeFixed32 (.id (.f (c + 1)))
  | .sint32 => define (.x (c + 1)) (zigzag32 x) ;; encodeVarint (.id (.x (c + 1)))
  | .sint64 => define (.x (c + 1)) (zigzag64 x) ;; encodeVarint (.id (.x (c + 1)))
  | k => scalar k x

/-- The condition for writing a field without presence: `m.F != 0`, `m.F`, `len(m.F) > 0`, e.g.
`features/marshal/marshalto.go:156,316,346`. -/
def nonZero (k : Kind) (x : Expr) : Expr :=
  match k with
  | .bool => x
  | .string => .bin .gt (len x) (lit 0)
  | .bytes => .bin .gt (len x) (lit 0)
  | _ => .bin .ne x (lit 0)

/-- A loop `for x >= 1<<7` writing at `j`, `features/marshal/marshalto.go:209-215`; with `j++` first,
`446-452,490-496`. -/
def varintLoop (jFirst : Bool) (x j : Id) : Stmt :=
  .while (.bin .ge (.id x) (.bin .shl (lit 1) (lit 7)))
    (setByte j (toU8 (.bin .or (.bin .and (toU64 (.id x)) (lit 0x7f)) (lit 0x80))) ;;
     (if jFirst then inc j ;; shrAssign x 7 else shrAssign x 7 ;; inc j)) ;;
  setByte j (toU8 (.id x)) ;;
  inc j

/-- The second loop over a packed field, `features/marshal/marshalto.go:202-216,443-453,487-497`. -/
def packedLoop (c : Nat) (k : Kind) (var : Expr) : Stmt :=
  match k with
  | .sint32 => range none (some .num) var
      (define (.x (c + 3)) (zigzag32 (.id .num)) ;; varintLoop true (.x (c + 3)) (.j (c + 1)))
  | .sint64 => range none (some .num) var
      (define (.x (c + 3)) (zigzag64 (.id .num)) ;; varintLoop true (.x (c + 3)) (.j (c + 1)))
  | .uint32 => range none (some .num) var (varintLoop false .num (.j (c + 1)))
  | .uint64 => range none (some .num) var (varintLoop false .num (.j (c + 1)))
  | _ => range none (some .num1) var (define .num (toU64 (.id .num1)) ;; varintLoop false .num (.j (c + 1)))

/-- A packed field of a varint kind, `features/marshal/marshalto.go:190-219,432-456,476-500`. -/
def packedVarint (c : Nat) (k : Kind) (helper : Expr → Expr) (var : Expr) (num wireType : Nat) : Stmt :=
  varInt (.pksize (c + 2)) ;;
  range none (some .num) var (addAssign (.pksize (c + 2)) (helper (toU64 (.id .num)))) ;;
  subAssign .i (.id (.pksize (c + 2))) ;;
  define (.j (c + 1)) (.id .i) ;;
  packedLoop c k var ;;
  encodeVarint (.id (.pksize (c + 2))) ;;
  encodeKey num wireType

/-- `if err != nil { return 0, err }`, `features/marshal/marshalto.go:711-713`. -/
def checkErr : Stmt := ite (.bin .ne (.id .err) .nil) (ret [lit 0, .id .err]) .skip

/-- `marshalBackwardSize`, `features/marshal/marshalto.go:710-718`. -/
def backwardSize (varInt : Bool) : Stmt :=
  checkErr ;; subAssign .i (.id .size) ;; (if varInt then encodeVarint (.id .size) else .skip)

/-- `marshalBackward`, `features/marshal/marshalto.go:720-748`. -/
def backward (G : GenCfg) (var : Expr) (varInt : Bool) (t : Nat) : Stmt :=
  if G.wellKnown t then callMarshal .size (known var) .i ;; backwardSize varInt
  else if G.isLocal t then callMarshal .size var .i ;; backwardSize varInt
  else ifImpl .vtmsg var .marshal (callMarshal .size (.id .vtmsg) .i ;; backwardSize varInt)
    (protoMarshal .encoded var ;; checkErr ;; subAssign .i (len (.id .encoded)) ;; Stmt.copy (.id .encoded) ;;
     (if varInt then encodeVarint (len (.id .encoded)) else .skip))

/-- `mapField`, `features/marshal/marshalto.go:83-113`. -/
def mapField (G : GenCfg) (k : Kind) (t : Nat) (x : Expr) : Stmt :=
  match k with
  | .message => backward G x true t
  | k => scalar k x

/-- The map branch, `features/marshal/marshalto.go:364-400`. -/
def mapMarshal (G : GenCfg) (var : Expr) (num wireType : Nat) (md : MapDesc) : Stmt :=
  range (some .k) none var
    (define .v (index var (.id .k)) ;;
     define .baseI (.id .i) ;;
     mapField G md.val md.valMsg (.id .v) ;;
     encodeKey 2 (protoWireType md.val) ;;
     mapField G md.key 0 (.id .k) ;;
     encodeKey 1 (protoWireType md.key) ;;
     encodeVarint (.id .baseI -' .id .i) ;;
     encodeKey num wireType)

/-- `reverseListRange` and its body, `features/marshal/marshalto.go:704-708`. -/
def reverseRange (var : Expr) (body : Expr → Stmt) : Stmt := down .iNdEx var (body (index var (.id .iNdEx)))

/-- The branches of fixed-width kinds and `bool`, `features/marshal/marshalto.go:137-188,237-333`. `total` is the
number of bytes of the packed field. -/
def fixedMarshal (oneof nullable : Bool) (c : Nat) (var total : Expr) (f : FieldDesc) (wireType : Nat) : Stmt :=
  if f.packed then reverseRange var (elem c f.kind) ;; encodeVarint total ;; encodeKey f.num wireType
  else if f.card == .repeated then reverseRange var fun x => elem c f.kind x ;; encodeKey f.num wireType
  else if nullable then scalar f.kind (star var) ;; encodeKey f.num wireType
  else if !oneof then ite (nonZero f.kind var) (scalar f.kind var ;; encodeKey f.num wireType) .skip
  else scalar f.kind var ;; encodeKey f.num wireType

/-- The branches of varint kinds, `features/marshal/marshalto.go:189-236,431-518`. -/
def varintMarshal (helper : Expr → Expr) (oneof nullable : Bool) (c : Nat) (var : Expr) (f : FieldDesc) (wireType : Nat) : Stmt :=
  if f.packed then packedVarint c f.kind helper var f.num wireType
  else if f.card == .repeated then reverseRange var fun x => elem c f.kind x ;; encodeKey f.num wireType
  else if nullable then scalar f.kind (star var) ;; encodeKey f.num wireType
  else if !oneof then ite (nonZero f.kind var) (scalar f.kind var ;; encodeKey f.num wireType) .skip
  else scalar f.kind var ;; encodeKey f.num wireType

/-- Strings, `features/marshal/marshalto.go:334-359`. -/
def stringMarshal (oneof nullable : Bool) (var : Expr) (f : FieldDesc) (wireType : Nat) : Stmt :=
  if f.card == .repeated then reverseRange var fun x => copyBytes x ;; encodeKey f.num wireType
  else if nullable then copyBytes (star var) ;; encodeKey f.num wireType
  else if !oneof then ite (.bin .gt (len var) (lit 0)) (copyBytes var ;; encodeKey f.num wireType) .skip
  else copyBytes var ;; encodeKey f.num wireType

/-- Byte slices, `features/marshal/marshalto.go:410-430`. -/
def bytesMarshal (oneof : Bool) (var : Expr) (f : FieldDesc) (wireType : Nat) : Stmt :=
  if f.card == .repeated then reverseRange var fun x => copyBytes x ;; encodeKey f.num wireType
  else if !oneof && !f.presence then ite (.bin .gt (len var) (lit 0)) (copyBytes var ;; encodeKey f.num wireType) .skip
  else copyBytes var ;; encodeKey f.num wireType

/-- The `switch` on the kind, `features/marshal/marshalto.go:136-521`. -/
def marshalBody (G : GenCfg) (oneof : Bool) (c : Nat) (var : Expr) (f : FieldDesc) : Stmt :=
  let nullable := f.hasMessage || (!oneof && f.presence)
  let wireType := if f.packed then 2 else protoWireType f.kind
  match f.kind with
  | .double => fixedMarshal oneof nullable c var (len var *' lit 8) f wireType
  | .fixed64 => fixedMarshal oneof nullable c var (len var *' lit 8) f wireType
  | .sfixed64 => fixedMarshal oneof nullable c var (len var *' lit 8) f wireType
  | .float => fixedMarshal oneof nullable c var (len var *' lit 4) f wireType
  | .fixed32 => fixedMarshal oneof nullable c var (len var *' lit 4) f wireType
  | .sfixed32 => fixedMarshal oneof nullable c var (len var *' lit 4) f wireType
  | .bool => fixedMarshal oneof nullable c var (len var) f wireType
  | .int64 => varintMarshal sov oneof nullable c var f wireType
  | .uint64 => varintMarshal sov oneof nullable c var f wireType
  | .int32 => varintMarshal sov oneof nullable c var f wireType
  | .uint32 => varintMarshal sov oneof nullable c var f wireType
  | .enum => varintMarshal sov oneof nullable c var f wireType
  | .sint32 => varintMarshal soz oneof nullable c var f wireType
  | .sint64 => varintMarshal soz oneof nullable c var f wireType
  | .string => stringMarshal oneof nullable var f wireType
  | .bytes => bytesMarshal oneof var f wireType
  | .group => encodeKey f.num 4 ;; backward G var false f.msg ;; encodeKey f.num 3
  | .message =>
    match f.map with
    | some md => mapMarshal G var f.num wireType md
    | none =>
      if f.card == .repeated then reverseRange var fun x => backward G x true f.msg ;; encodeKey f.num wireType
      else backward G var true f.msg ;; encodeKey f.num wireType

/-- `field`, `features/marshal/marshalto.go:115-532`. -/
def marshalField (G : GenCfg) (oneof : Bool) (c : Nat) (t : Nat) (f : FieldDesc) : Stmt :=
  let var := fieldExpr oneof t f
  let nullable := f.hasMessage || (!oneof && f.presence)
  let repeated := f.card == .repeated
  let wireType := if f.packed then 2 else protoWireType f.kind
  let body := marshalBody G oneof c var f
  let last : Stmt := if oneof && f.kind == .message && f.map.isNone && !f.isList then
      Stmt.encodeVarint (lit 0) ;; encodeKey f.num wireType else .skip
  if repeated then ite (.bin .gt (len var) (lit 0)) body last
  else if nullable then
    if f.card == .required then ite (.bin .eq var .nil) (ret [lit 0, errRequired f.num]) body
    else ite (.bin .ne var .nil) body last
  else body

/-- How many numbers of `numGen` a field takes. (`features/marshal/marshalto.go:29-38,115-532`) -/
def numbers (f : FieldDesc) : Nat :=
  match f.kind with
  | .double => if f.card == .repeated then 1 else 0
  | .float => if f.card == .repeated then 1 else 0
  | .int64 => if f.packed then 2 else 0
  | .uint64 => if f.packed then 2 else 0
  | .int32 => if f.packed then 2 else 0
  | .uint32 => if f.packed then 2 else 0
  | .enum => if f.packed then 2 else 0
  | .sint32 => if f.packed then 3 else if f.card == .repeated then 1 else 0
  | .sint64 => if f.packed then 3 else if f.card == .repeated then 1 else 0
  | _ => 0

/-- `marshalForwardOneOf`, `features/marshal/marshalto.go:613-623`. -/
def forward (e : Expr) : Stmt := callMarshal .size e .i ;; checkErr ;; subAssign .i (.id .size)

/-- A member of a oneof in strict mode, `features/marshal/marshalto.go:632-639`. -/
def strictMember (G : GenCfg) (t : Nat) (f : FieldDesc) : Stmt :=
  let var : Expr := .sel (.id .m) (.slot t f.slot)
  if G.wellKnown t then ifType .m var t f.num (define .msg (known (.id .m)) ;; forward (.id .msg)) .skip
  else ifType .msg var t f.num (forward (.id .msg)) .skip

/-- The loop of strict mode, `features/marshal/marshalto.go:626-641`. -/
def strictFields (G : GenCfg) (t : Nat) : Nat → List FieldDesc → Stmt
  | _, [] => .skip
  | c, f :: fs =>
    if f.oneof then strictMember G t f ;; strictFields G t c fs
    else marshalField G false c t f ;; strictFields G t (c + numbers f) fs

/-- The type switch for a oneof of a well-known type, `features/marshal/marshalto.go:656-661`. -/
def marshalCases (var : Expr) (t : Nat) : List FieldDesc → Stmt
  | [] => .skip
  | f :: fs => ifType .c var t f.num (forward (known (.id .c))) (marshalCases var t fs)

/-- The code for one oneof, `features/marshal/marshalto.go:655-668`. -/
def marshalOneof (G : GenCfg) (d : MsgDesc) (t slot : Nat) : Stmt :=
  let var : Expr := .sel (.id .m) (.slot t slot)
  if G.wellKnown t then marshalCases var t (members d slot)
  else ifImpl .vtmsg var .marshal (forward (.id .vtmsg)) .skip

/-- The loop over oneofs, `features/marshal/marshalto.go:646-670`. -/
def marshalOneofs (G : GenCfg) (d : MsgDesc) (t : Nat) : List Nat → List FieldDesc → Stmt
  | _, [] => .skip
  | seen, f :: fs =>
    if f.oneof then
      if seen.contains f.slot then marshalOneofs G d t seen fs
      else marshalOneof G d t f.slot ;; marshalOneofs G d t (f.slot :: seen) fs
    else marshalOneofs G d t seen fs

/-- The loop over the other fields, `features/marshal/marshalto.go:672-678`. -/
def marshalOthers (G : GenCfg) (t : Nat) : Nat → List FieldDesc → Stmt
  | _, [] => .skip
  | c, f :: fs =>
    if f.oneof then marshalOthers G t c fs
    else marshalField G false c t f ;; marshalOthers G t (c + numbers f) fs

/-- `MarshalToSizedBufferVT[Strict]` of a message type, `features/marshal/marshalto.go:593-682`. -/
def sizedMethod (G : GenCfg) (S : Schema) (strict : Bool) (t : Nat) : Stmt :=
  let d := S.msg t
  let fs := (sortFields d.fields).reverse
  let unknown : Expr := .sel (.id .m) .unknown
  ite (.bin .eq (.id .m) .nil) (ret [lit 0, .nil]) .skip ;;
  define .i lenBuf ;;
  blank (.id .i) ;;
  varInt .l ;;
  blank (.id .l) ;;
  (if d.keepUnknown then ite (.bin .ne unknown .nil) (subAssign .i (len unknown) ;; Stmt.copy unknown) .skip else .skip) ;;
  (if strict then strictFields G t 0 fs else marshalOneofs G d t [] fs ;; marshalOthers G t 0 fs) ;;
  ret [lenBuf -' .id .i, .nil]

/-- `MarshalToSizedBufferVT[Strict]` of a oneof wrapper, `features/marshal/marshalto.go:696-700`. Members of oneofs
do not use `numGen`. -/
def sizedWrapper (G : GenCfg) (t : Nat) (f : FieldDesc) : Stmt :=
  define .i lenBuf ;;
  marshalField G true 0 t f ;;
  ret [lenBuf -' .id .i, .nil]

/-- `MarshalVT[Strict]`, `features/marshal/marshalto.go:575-586`. -/
def marshalMethod : Stmt :=
  ite (.bin .eq (.id .m) .nil) (ret [.nil, .nil]) .skip ;;
  define .size (callSize (.id .m)) ;;
  makeBuf (.id .size) ;;
  callMarshal .n (.id .m) .size ;;
  ite (.bin .ne (.id .err) .nil) (ret [.nil, .id .err]) .skip ;;
  ret [bufTo (.id .n), .nil]

/-- `MarshalToVT[Strict]`, `features/marshal/marshalto.go:588-591`. -/
def marshalToMethod : Stmt :=
  define .size (callSize (.id .m)) ;;
  retMarshal (.id .m) .size

end Emit

/-- An `error` result. (`features/marshal/marshalto.go:582-584`) -/
def errG (g : GV) : Res (Option Err) :=
  match g with
  | .nil => .ok none
  | .err e => .ok e
  | _ => confused

/-- The results of a method with result types `int, error`, with the buffer afterwards.
(`features/marshal/marshalto.go:593-682`) -/
def resultSized : Res (St × Ctrl) → Res (Bytes × Int × Option Err)
  | .ok (s, .ret [v, e]) => intG v >>= fun n => errG e >>= fun e => .ok (s.buf, n, e)
  | .ok _ => confused
  | .err e => .err e
  | .panic p => .panic p
  | .diverge => .diverge

/-- Calls of the emitted `MarshalToSizedBufferVT[Strict]` methods, for message types and oneof wrappers. The
first numeric argument bounds the depth of calls. (`features/marshal/marshalto.go:593-682`) -/
def runSizedN (G : GenCfg) (E : Env) (strict : Bool) : Nat → GTy → Val → Bytes → Res (Bytes × Int × Option Err)
  | 0, _, _, _ => .diverge
  | k + 1, T, v, buf =>
    let C : Ctx := ⟨E.S, E.R, runSizeN G E k, runSizedN G E strict k⟩
    let s : St := ⟨[(.m, .val T v)], buf⟩
    match T with
    | .msg t => resultSized (exec C (Emit.sizedMethod G E.S strict t) s)
    | .wrapper t num => match (E.S.msg t).fields.find? (fun f => f.num == num) with
      | some f => resultSized (exec C (Emit.sizedWrapper G t f) s)
      | none => confused
    | _ => confused

/-- The results of `MarshalVT`: a nil slice is `none`. (`features/marshal/marshalto.go:575-586`) -/
def resultBytes : Res (St × Ctrl) → Res (Option Bytes)
  | .ok (_, .ret [v, e]) => errG e >>= fun e => match e with
    | some e => .err e
    | none => match v with
      | .nil => .ok none
      | .val .bytes (.str b) => .ok (some b)
      | _ => confused
  | .ok _ => confused
  | .err e => .err e
  | .panic p => .panic p
  | .diverge => .diverge

/-- A call of the emitted `MarshalVT[Strict]`. (`features/marshal/marshalto.go:575-586`) -/
def runMarshal (G : GenCfg) (E : Env) (strict : Bool) (K t : Nat) (v : Val) : Res (Option Bytes) :=
  resultBytes (exec ⟨E.S, E.R, runSizeN G E K, runSizedN G E strict K⟩ Emit.marshalMethod
    ⟨[(.err, .err none), (.m, .val (.msg t) v)], []⟩)

/-- A call of the emitted `MarshalToVT[Strict]`; `arr` is the buffer up to its capacity.
(`features/marshal/marshalto.go:588-591`) -/
def runMarshalTo (G : GenCfg) (E : Env) (strict : Bool) (K t : Nat) (v : Val) (arr : Bytes) : Res (Bytes × Int × Option Err) :=
  resultSized (exec ⟨E.S, E.R, runSizeN G E K, runSizedN G E strict K⟩ Emit.marshalToMethod ⟨[(.m, .val (.msg t) v)], arr⟩)

end Vtp.Go
