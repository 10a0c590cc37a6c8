def nth (l : List String) (i : Nat) : String := l.getD i "?"
def slotName (t i : Nat) : String := nth (snames.getD t []) i
def memName (t n : Nat) : String := match mnames.find? (fun x => x.1 == t && x.2.1 == n) with | some x => x.2.2.1 | none => "?m"
def wrapName (t n : Nat) : String := match mnames.find? (fun x => x.1 == t && x.2.1 == n) with | some x => x.2.2.2 | none => "?w"
def pid : Id → String
  | .this => "this" | .that => "that" | .thatMsg => "thatMsg" | .thatIface => "thatIface" | .p => "p" | .q => "q" | .i => "i" | .vx => "vx" | .vy => "vy"
  | .ok => "ok" | .c => "c" | .ot => "ot" | .equal => "equal"
def pe : Expr → String
  | .tt => "true" | .ff => "false" | .nil => "nil"
  | .id x => pid x
  | .sel e f => pe e ++ "." ++ (match f with | .slot t i => slotName t i | .unknown => "unknownFields" | .member t n => memName t n)
  | .star e => "*" ++ pe e
  | .index e x => pe e ++ "[" ++ pe x ++ "]"
  | .len e => "len(" ++ pe e ++ ")"
  | .str e => "string(" ++ pe e ++ ")"
  | .eq a b => pe a ++ " == " ++ pe b
  | .ne a b => pe a ++ " != " ++ pe b
  | .land a b => pe a ++ " && " ++ pe b
  | .lor a b => pe a ++ " || " ++ pe b
  | .not a => "!" ++ pe a
  | .known e => "known(" ++ pe e ++ ")"
  | .newMsg t => "&" ++ nth tnames t ++ "{}"
  | .call a b => pe a ++ ".EqualVT(" ++ pe b ++ ")"
  | .callIface a b => "IMPL(" ++ pe a ++ ")equal.EqualVT(" ++ pe b ++ ")"
  | .protoEqual a b => "proto.Equal(" ++ pe a ++ "," ++ pe b ++ ")"
mutual
partial def cases : Stmt → String
  | .ifType _ _ t n a b => "case *" ++ wrapName t n ++ ":" ++ ps a ++ cases b
  | _ => ""
partial def ps : Stmt → String
  | .skip => ""
  | .seq a b => ps a ++ "\n" ++ ps b
  | .define x e => pid x ++ ":=" ++ pe e
  | .assign x e => pid x ++ "=" ++ pe e
  | .ite c a b => "if " ++ pe c ++ "{" ++ ps a ++ "}" ++ els b
  | .ifWith x y a b c s => "if " ++ pid x ++ "," ++ pid y ++ ":=" ++ pe a ++ "," ++ pe b ++ ";" ++ pe c ++ "{" ++ ps s ++ "}"
  | .range x y e s => "for " ++ pid x ++ "," ++ pid y ++ ":= range " ++ pe e ++ "{" ++ ps s ++ "}"
  | .lookup y e x => pid y ++ ", ok := " ++ pe e ++ "[" ++ pe x ++ "]"
  | .assert x e t n _ => pid x ++ ", ok := " ++ pe e ++ ".(*" ++ wrapName t n ++ ")"
  | .assertMsg x e t => pid x ++ ", ok := " ++ pe e ++ ".(*" ++ nth tnames t ++ ")"
  | .ifType .c e t n a b => "switch c := " ++ pe e ++ ".(type) {" ++ cases (.ifType .c e t n a b) ++ "}"
  | .ifType x e t n a b => "if " ++ pid x ++ ", ok := " ++ pe e ++ ".(*" ++ wrapName t n ++ "); ok {" ++ ps a ++ "} else {" ++ ps b ++ "}"
  | .ifImpl x e _ a b => "if " ++ pid x ++ ", ok := IMPL(" ++ pe e ++ ")equal; ok {" ++ ps a ++ "} else {" ++ ps b ++ "}"
  | .ret e => "return " ++ pe e
partial def els : Stmt → String
  | .skip => ""
  | .ite c a b => "else " ++ ps (.ite c a b)
  | s => "else{" ++ ps s ++ "}"
end
def G : Go.GenCfg := { wellKnown := fun t => wkts.contains t, isLocal := fun t => t < nlocal }
def emitAll : IO Unit := do
  for t in List.range nlocal do
    IO.println s!"@@ {nth tnames t} EqualVT\n{ps (GoE.Emit.method G sch t)}"
    IO.println s!"@@ {nth tnames t} EqualMessageVT\n{ps (GoE.Emit.messageMethod t)}"
    for f in (sch.msg t).fields do
      if f.oneof then IO.println s!"@@ {wrapName t f.num} EqualVT\n{ps (GoE.Emit.wrapper G t f)}"
#eval emitAll
