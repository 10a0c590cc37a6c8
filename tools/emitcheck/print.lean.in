def nth (l : List String) (i : Nat) : String := l.getD i "?"
def slotName (t i : Nat) : String := nth (snames.getD t []) i
def memName (t n : Nat) : String := match mnames.find? (fun x => x.1 == t && x.2.1 == n) with | some x => x.2.2.1 | none => "?m"
def wrapName (t n : Nat) : String := match mnames.find? (fun x => x.1 == t && x.2.1 == n) with | some x => x.2.2.2 | none => "?w"
def pid : Id → String
  | .f n => s!"f{n}" | .j n => s!"j{n}" | .pksize n => s!"pksize{n}" | .x n => s!"x{n}"
  | .m => "m" | .n => "n" | .l => "l" | .e => "e" | .s => "s" | .b => "b" | .k => "k" | .v => "v" | .mapEntrySize => "mapEntrySize"
  | .size => "size" | .vtmsg => "vtmsg" | .c => "c" | .i => "i" | .err => "err" | .baseI => "baseI" | .iNdEx => "iNdEx" | .num => "num" | .num1 => "num1"
  | .encoded => "encoded" | .msg => "msg"
def pop : BinOp → String
  | .add => "+" | .sub => "-" | .mul => "*" | .eq => "==" | .ne => "!=" | .lt => "<" | .gt => ">" | .ge => ">=" | .shl => "<<" | .shr => ">>"
  | .xor => "^" | .and => "&" | .or => "|"
def pe (strict : String) : Expr → String
  | .lit n => toString n
  | .nil => "nil"
  | .id x => pid x
  | .sel e (.slot t i) => pe strict e ++ "." ++ slotName t i
  | .sel e (.member t i) => pe strict e ++ "." ++ memName t i
  | .sel e .unknown => pe strict e ++ ".unknownFields"
  | .star e => "*" ++ pe strict e
  | .index e x => pe strict e ++ "[" ++ pe strict x ++ "]"
  | .len e => "len(" ++ pe strict e ++ ")"
  | .lenBuf => "len(dAtA)"
  | .bufTo e => "dAtA[:" ++ pe strict e ++ "]"
  | .toU64 e => "uint64(" ++ pe strict e ++ ")"
  | .toU32 e => "uint32(" ++ pe strict e ++ ")"
  | .toU8 e => "uint8(" ++ pe strict e ++ ")"
  | .f64bits e => "math.Float64bits(float64(" ++ pe strict e ++ "))"
  | .f32bits e => "math.Float32bits(float32(" ++ pe strict e ++ "))"
  | .bin o a b => pe strict a ++ pop o ++ pe strict b
  | .sov e => "protohelpers.SizeOfVarint(" ++ pe strict e ++ ")"
  | .soz e => "protohelpers.SizeOfZigzag(" ++ pe strict e ++ ")"
  | .known e => "known(" ++ pe strict e ++ ")"
  | .callSize e => pe strict e ++ ".SizeVT()"
  | .protoSize e => "proto.Size(" ++ pe strict e ++ ")"
  | .errRequired _ => "fmt.Errorf(\"required\")"
def chain : Stmt → Bool
  | .ifType .c _ _ _ _ _ => true
  | _ => false
partial def ps (st : String) : Stmt → String
  | .skip => ""
  | .seq a b => ps st a ++ "\n" ++ ps st b
  | .define x e => pid x ++ ":=" ++ pe st e
  | .varInt x => "var " ++ pid x ++ " int"
  | .blank e => "_ = " ++ pe st e
  | .assign x e => pid x ++ "=" ++ pe st e
  | .addAssign x e => pid x ++ "+=" ++ pe st e
  | .subAssign x e => pid x ++ "-=" ++ pe st e
  | .shrAssign x n => pid x ++ s!">>={n}"
  | .inc x => pid x ++ "++"
  | .dec x => pid x ++ "--"
  | .ite c a b => "if " ++ pe st c ++ "{" ++ ps st a ++ "}" ++ els b
  | .ifImpl x e i a b => "if " ++ pid x ++ ", ok := IMPL(" ++ pe st e ++ ")" ++ (match i with | .size => "size" | .marshal => "marshal") ++ "; ok {" ++ ps st a ++ "}" ++ els b
  | .ifType .c e t n a b => "switch c := " ++ pe st e ++ ".(type) {" ++ cases (.ifType .c e t n a b) ++ "}"
  | .ifType x e t n a b => "if " ++ pid x ++ ", ok := " ++ pe st e ++ ".(*" ++ wrapName t n ++ "); ok {" ++ ps st a ++ "}" ++ els b
  | .range x y e b => "for " ++ (match x, y with
      | some x, none => pid x
      | none, some y => "_," ++ pid y
      | some x, some y => pid x ++ "," ++ pid y
      | none, none => "") ++ " := range " ++ pe st e ++ "{" ++ ps st b ++ "}"
  | .down x e b => "for " ++ pid x ++ ":= len(" ++ pe st e ++ ")-1; " ++ pid x ++ ">=0;" ++ pid x ++ "-- {" ++ ps st b ++ "}"
  | .while c b => "for " ++ pe st c ++ "{" ++ ps st b ++ "}"
  | .ret es => "return " ++ String.intercalate "," (es.map (pe st))
  | .setByte x e => "dAtA[" ++ pid x ++ "]=" ++ pe st e
  | .copy e => "copy(dAtA[i:], " ++ pe st e ++ ")"
  | .putUint n e => "binary.LittleEndian.PutUint" ++ toString (8*n) ++ "(dAtA[i:]," ++ pe st e ++ ")"
  | .encodeVarint e => "i = protohelpers.EncodeVarint(dAtA, i," ++ pe st e ++ ")"
  | .makeBuf e => "dAtA = make([]byte," ++ pe st e ++ ")"
  | .callMarshal x e y => pid x ++ ", err := " ++ pe st e ++ ".MarshalToSizedBufferVT" ++ st ++ "(dAtA[:" ++ pid y ++ "])"
  | .retMarshal e y => "return " ++ pe st e ++ ".MarshalToSizedBufferVT" ++ st ++ "(dAtA[:" ++ pid y ++ "])"
  | .protoMarshal x e => pid x ++ ", err := proto.Marshal(" ++ pe st e ++ ")"
where
  els : Stmt → String
    | .skip => ""
    | s => "else{" ++ ps st s ++ "}"
  cases : Stmt → String
    | .ifType .c _ t n a b => "case *" ++ wrapName t n ++ ":" ++ ps st a ++ "\n" ++ cases b
    | _ => ""
def G : GenCfg := ⟨fun t => wkts.contains t, fun t => t < nlocal, true⟩
def emitAll : IO Unit := do
  for t in List.range nlocal do
    let d := sch.msg t
    let nm := nth tnames t
    IO.println s!"@@ {nm} SizeVT\n{ps "" (Emit.sizeMethod G sch t)}"
    for f in d.fields do if f.oneof then IO.println s!"@@ {wrapName t f.num} SizeVT\n{ps "" (Emit.sizeWrapper G t f)}"
    for st in [false, true] do
      let s := if st then "Strict" else ""
      IO.println s!"@@ {nm} MarshalVT{s}\n{ps s Emit.marshalMethod}"
      IO.println s!"@@ {nm} MarshalToVT{s}\n{ps s Emit.marshalToMethod}"
      IO.println s!"@@ {nm} MarshalToSizedBufferVT{s}\n{ps s (Emit.sizedMethod G sch st t)}"
      for f in d.fields do if f.oneof then
        IO.println s!"@@ {wrapName t f.num} MarshalToVT{s}\n{ps s Emit.marshalToMethod}"
        IO.println s!"@@ {wrapName t f.num} MarshalToSizedBufferVT{s}\n{ps s (Emit.sizedWrapper G t f)}"
#eval emitAll
