def nth (l : List String) (i : Nat) : String := l.getD i "?"
def slotName (t i : Nat) : String := nth (snames.getD t []) i
def slotType (t i : Nat) : String := nth (stypes.getD t []) i
def memName (t n : Nat) : String := match mnames.find? (fun x => x.1 == t && x.2.1 == n) with | some x => x.2.2.1 | none => "?m"
def wrapName (t n : Nat) : String := match mnames.find? (fun x => x.1 == t && x.2.1 == n) with | some x => x.2.2.2 | none => "?w"
def goName (t n : Nat) : String := match (sch.msg t).fields.find? (fun f => f.num == n) with
  | some f => if f.oneof then memName t n else slotName t f.slot
  | none => "?f"
def pid : Id → String
  | .l => "l" | .iNdEx => "iNdEx" | .preIndex => "preIndex" | .wire => "wire" | .fieldNum => "fieldNum" | .wireType => "wireType" | .shift => "shift"
  | .b => "b" | .v => "v" | .v2 => "v2" | .s => "s" | .hasFields => "hasFields" | .stringLen => "stringLen" | .intStringLen => "intStringLen"
  | .postIndex => "postIndex" | .stringValue => "stringValue" | .byteLen => "byteLen" | .msglen => "msglen" | .groupStart => "groupStart"
  | .maybeGroupEnd => "maybeGroupEnd" | .groupFieldWire => "groupFieldWire" | .groupWireType => "groupWireType" | .skippy => "skippy" | .err => "err"
  | .packedLen => "packedLen" | .elementCount => "elementCount" | .count => "count" | .integer => "integer" | .mapkey => "mapkey" | .mapvalue => "mapvalue"
  | .entryPreIndex => "entryPreIndex" | .mapmsglen => "mapmsglen" | .postmsgIndex => "postmsgIndex" | .mapbyteLen => "mapbyteLen"
  | .intMapbyteLen => "intMapbyteLen" | .postbytesIndex => "postbytesIndex" | .oneof => "oneof"
  | .temp x => pid x ++ "temp" | .stringLenOf x => "stringLen" ++ pid x | .intStringLenOf x => "intStringLen" ++ pid x | .postStringIndexOf x => "postStringIndex" ++ pid x
def pty : Ty → String
  | .num .int32 => "int32" | .num .uint32 => "uint32" | .num .int64 => "int64" | .num .uint64 => "uint64" | .num .enum => "ENUM"
  | .int => "int" | .uint => "uint" | .bool => "bool" | .float32 => "float32" | .float64 => "float64" | .string => "string" | .bytes => "[]byte"
  | .ptr t => "*" ++ nth tnames t | .words n => s!"[{n}]uint64"
def pop : BinOp → String
  | .add => "+" | .sub => "-" | .div => "/" | .eq => "==" | .ne => "!=" | .lt => "<" | .le => "<=" | .gt => ">" | .ge => ">=" | .shl => "<<" | .shr => ">>"
  | .xor => "^" | .and => "&"
def perr (t : Nat) : Err → String
  | .intOverflow => "protohelpers.ErrIntOverflow"
  | .unexpectedEOF => "io.ErrUnexpectedEOF"
  | .invalidLength => "protohelpers.ErrInvalidLength"
  | .wrongWireType n => s!"ERRwrong{goName t n}"
  | .endGroupForNonGroup => "ERRendgroup"
  | .illegalTag => "ERRtag"
  | .requiredNotSet _ => "fmt.Errorf(\"required\")"
  | _ => "?e"
-- `mem`: the member the enclosing type assertion is about
def pp (t mem : Nat) : Place → String
  | .id x => pid x
  | .field s => "m." ++ slotName t s
  | .last s => "m." ++ slotName t s ++ "[len(m." ++ slotName t s ++ ")-1]"
  | .member => "oneof." ++ memName t mem
  | .has k => s!"hasFields[{k}]"
def pe (t mem : Nat) : Expr → String
  | .lit n => toString n
  | .emptyStr => "\"\""
  | .nil => "nil"
  | .pl p => pp t mem p
  | .lenData => "len(dAtA)"
  | .dataAt e => "dAtA[" ++ pe t mem e ++ "]"
  | .data a b => "dAtA[" ++ pe t mem a ++ ":" ++ pe t mem b ++ "]"
  | .len e => "len(" ++ pe t mem e ++ ")"
  | .cap e => "cap(" ++ pe t mem e ++ ")"
  | .bin o a b => pe t mem a ++ pop o ++ pe t mem b
  | .land a b => pe t mem a ++ "&&" ++ pe t mem b
  | .lor a b => pe t mem a ++ "||" ++ pe t mem b
  | .conv T e => pty T ++ "(" ++ pe t mem e ++ ")"
  | .fromBits64 e => "math.Float64frombits(" ++ pe t mem e ++ ")"
  | .fromBits32 e => "math.Float32frombits(" ++ pe t mem e ++ ")"
  | .le n e => s!"binary.LittleEndian.Uint{8*n}(dAtA[{pe t mem e}:])"
  | .unsafeStr a n => "unsafe.String(&dAtA[" ++ pe t mem a ++ "]," ++ pe t mem n ++ ")"
  | .intern e => "unique.Make[string](" ++ pe t mem e ++ ").Value()"
  | .newMsg u => "&" ++ nth tnames u ++ "{}"
  | .fromPool u => nth tnames u ++ "FromVTPool()"
  | .wrapper n e => "&" ++ wrapName t n ++ "{" ++ memName t n ++ ":" ++ pe t mem e ++ "}"
  | .addr e => "&" ++ pe t mem e
  | .append s e => "append(m." ++ slotName t s ++ "," ++ pe t mem e ++ ")"
  | .appendReset s e => "append(m." ++ slotName t s ++ "[:0]," ++ pe t mem e ++ "...)"
  | .extend s => "m." ++ slotName t s ++ "[:len(m." ++ slotName t s ++ ")+1]"
  | .makeBytes e => "make([]byte," ++ pe t mem e ++ ")"
  | .emptyBytes => "[]byte{}"
  | .makeMap s => "make(" ++ slotType t s ++ ")"
  | .makeSlice s e => "make(" ++ slotType t s ++ ",0," ++ pe t mem e ++ ")"
partial def ps (nm : String) (t mem : Nat) : Stmt → String
  | .skip => ""
  | .seq a b => ps nm t mem a ++ "\n" ++ ps nm t mem b
  | .ite c a b => "if " ++ pe t mem c ++ "{" ++ ps nm t mem a ++ "}" ++ els b
  | .ifOneof s n a b => "if oneof, ok := m." ++ slotName t s ++ ".(*" ++ wrapName t n ++ "); ok {" ++ ps nm t n a ++ "} else {" ++ ps nm t mem b ++ "}"
  | .loop .skip none .skip body => "for {" ++ ps nm t mem body ++ "}"
  | .loop .skip (some c) .skip body => "for " ++ pe t mem c ++ "{" ++ ps nm t mem body ++ "}"
  | .loop i c p body => "for " ++ ps nm t mem i ++ ";" ++ (match c with | some c => pe t mem c | none => "") ++ ";" ++ ps nm t mem p ++ "{" ++ ps nm t mem body ++ "}"
  | .range x lo hi body => "for _," ++ pid x ++ ":= range dAtA[" ++ pe t mem lo ++ ":" ++ pe t mem hi ++ "]{" ++ ps nm t mem body ++ "}"
  | .sw c => "switch fieldNum {" ++ ps nm t mem c ++ "}"
  | .case n b r => s!"case {n}:" ++ ps nm t mem b ++ "\n" ++ ps nm t mem r
  | .dflt b => "default:" ++ ps nm t mem b
  | .decl x T => "var " ++ pid x ++ " " ++ pty T
  | .define x e => pid x ++ ":=" ++ pe t mem e
  | .assign p e => pp t mem p ++ "=" ++ pe t mem e
  | .orAssign p e => pp t mem p ++ "|=" ++ pe t mem e
  | .addAssign x e => pid x ++ "+=" ++ pe t mem e
  | .inc x => pid x ++ "++"
  | .brk => "break"
  | .ret e => "return " ++ perr t e
  | .retErr => "return err"
  | .retNil => "return nil"
  | .skipCall => "skippy, err := protohelpers.Skip(dAtA[iNdEx:])"
  | .runtime a b => "err = proto.UnmarshalOptions{AllowPartial: true}.Unmarshal(dAtA[" ++ pe t mem a ++ ":" ++ pe t mem b ++ "], m)"
  | .unknown a b => "m.unknownFields = append(m.unknownFields, dAtA[" ++ pe t mem a ++ ":" ++ pe t mem b ++ "]...)"
  | .mapSet s => "m." ++ slotName t s ++ "[mapkey] = mapvalue"
  | .copy p a b => "copy(" ++ pp t mem p ++ ", dAtA[" ++ pe t mem a ++ ":" ++ pe t mem b ++ "])"
  | .call how p _ a b => "if err := " ++ (match how with | .plain => pp t mem p | .known => "known(" ++ pp t mem p ++ ")" | .iface => "unmarshal") ++ "." ++ nm ++ "(dAtA[" ++ pe t mem a ++ ":" ++ pe t mem b ++ "]); err != nil { return err }"
  | .callProto p _ a b => "if err := proto.Unmarshal(dAtA[" ++ pe t mem a ++ ":" ++ pe t mem b ++ "]," ++ pp t mem p ++ "); err != nil { return err }"
  | .ifImpl p _ a b => "if unmarshal, ok := IMPL(" ++ pp t mem p ++ ")unmarshal; ok {" ++ ps nm t mem a ++ "} else {" ++ ps nm t mem b ++ "}"
where
  els : Stmt → String
    | .skip => ""
    | .ite c a b => "else " ++ ps nm t mem (.ite c a b)
    | s => "else{" ++ ps nm t mem s ++ "}"
def G (a : Bool) : GoU.GenCfg := { wellKnown := fun t => wkts.contains t, isLocal := fun t => t < nlocal, sorted := true, aliasing := a, unique := fun _ => uniq }
def emitAll : IO Unit := do
  for t in List.range nlocal do
    for a in [false, true] do
      let s := if a then "UnmarshalVTUnsafe" else "UnmarshalVT"
      IO.println s!"@@ {nth tnames t} {s}\n{ps s t 0 (GoU.Emit.method (G a) sch t)}"
#eval emitAll
