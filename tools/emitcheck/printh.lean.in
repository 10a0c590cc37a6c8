def nth (l : List String) (i : Nat) : String := l.getD i "?"
def slotName (t i : Nat) : String := nth (snames.getD t []) i
def memName (t n : Nat) : String := match mnames.find? (fun x => x.1 == t && x.2.1 == n) with | some x => x.2.2.1 | none => "?m"
def wrapName (t n : Nat) : String := match mnames.find? (fun x => x.1 == t && x.2.1 == n) with | some x => x.2.2.2 | none => "?w"
def pid : Id → String
  | .m => "m" | .r => "r" | .c => "c" | .vtpb => "vtpb" | .tmpBytes => "tmpBytes" | .rhs => "rhs" | .tmpContainer => "tmpContainer" | .tmpVal => "tmpVal" | .k => "k" | .v => "v"
  | .mm => "mm" | .oneof => "oneof" | .f n => s!"f{n}"
def pty : Go.GTy → String
  | .msg t => nth tnames t
  | .wrapper t n => wrapName t n
  | _ => "?"
def psel : Go.Sel → String
  | .slot t i => slotName t i | .unknown => "unknownFields" | .member t n => memName t n
def pe : Expr → String
  | .nil => "nil"
  | .lit n => toString n
  | .id x => pid x
  | .sel e f => pe e ++ "." ++ psel f
  | .star e => "*" ++ pe e
  | .addr x _ => "&" ++ pid x
  | .len e => "len(" ++ pe e ++ ")"
  | .eq a b => pe a ++ " == " ++ pe b
  | .ne a b => pe a ++ " != " ++ pe b
  | .gt a b => pe a ++ " > " ++ pe b
  | .make T n => "make(" ++ (match T with | .bytes => "[]byte" | .list _ _ => "[]T" | .map _ => "map[K]T" | _ => "?") ++ ", " ++ pe n ++ ")"
  | .cut e => pe e ++ "[:0]"
  | .typedNil T => "(*" ++ pty T ++ ")(nil)"
  | .new T => "new(" ++ pty T ++ ")"
  | .fromPool t => nth tnames t ++ "FromVTPool()"
  | .poolGet t => "vtprotoPool_" ++ nth tnames t ++ ".Get().(*" ++ nth tnames t ++ ")"
  | .known e => "known(" ++ pe e ++ ")"
  | .call e => pe e ++ ".CloneVT()"
  | .callIface e => "IMPL(" ++ pe e ++ ")clone.CloneVT()"
  | .protoClone e => "proto.Clone(" ++ pe e ++ ")"
mutual
partial def cases : Stmt → String
  | .ifType _ _ t n a b => "case *" ++ wrapName t n ++ ":" ++ ps a ++ cases b
  | _ => ""
partial def ps : Stmt → String
  | .skip => ""
  | .seq a b => ps a ++ "\n" ++ ps b
  | .define x e => pid x ++ ":=" ++ pe e
  | .setField a f e => pe a ++ "." ++ psel f ++ "=" ++ pe e
  | .setIndex a x e => pe a ++ "[" ++ pe x ++ "]=" ++ pe e
  | .copy a b => "copy(" ++ pe a ++ "," ++ pe b ++ ")"
  | .clear e => "clear(" ++ pe e ++ ")"
  | .ite c a b => "if " ++ pe c ++ "{" ++ ps a ++ "}" ++ els b
  | .ifWith x a c s => "if " ++ pid x ++ ":=" ++ pe a ++ ";" ++ pe c ++ "{" ++ ps s ++ "}"
  | .range x y e s => "for " ++ (match x with | some x => pid x | none => "_") ++ "," ++ pid y ++ ":= range " ++ pe e ++ "{" ++ ps s ++ "}"
  | .ifType .c e t n a b => "switch c := " ++ pe e ++ ".(type) {" ++ cases (.ifType .c e t n a b) ++ "}"
  | .ifType x e t n a b => "if " ++ pid x ++ ", ok := " ++ pe e ++ ".(*" ++ wrapName t n ++ "); ok {" ++ ps a ++ "}" ++ els b
  | .ifHolds x e t n s => "if " ++ pid x ++ ", ok := " ++ pe e ++ ".(*" ++ wrapName t n ++ "); ok {" ++ ps s ++ "}"
  | .ifImpl x e _ a b => "if " ++ pid x ++ ", ok := IMPL(" ++ pe e ++ ")clone; ok {" ++ ps a ++ "} else {" ++ ps b ++ "}"
  | .resetVT e => pe e ++ ".ResetVT()"
  | .reset e => pe e ++ ".Reset()"
  | .returnToPool e => pe e ++ ".ReturnToVTPool()"
  | .put t e => "vtprotoPool_" ++ nth tnames t ++ ".Put(" ++ pe e ++ ")"
  | .ret e => "return " ++ pe e
partial def els : Stmt → String
  | .skip => ""
  | .ite c a b => "else " ++ ps (.ite c a b)
  | s => "else{" ++ ps s ++ "}"
end
def G : Go.GenCfg := { wellKnown := fun t => wkts.contains t, isLocal := fun t => t < nlocal }
def emitAll : IO Unit := do
  for t in List.range nlocal do
    IO.println s!"@@ {nth tnames t} CloneVT\n{ps (GoH.Emit.cloneMethod G sch t)}"
    IO.println s!"@@ {nth tnames t} CloneMessageVT\n{ps GoH.Emit.cloneMessageMethod}"
    for f in (sch.msg t).fields do
      if f.oneof then IO.println s!"@@ {wrapName t f.num} CloneVT\n{ps (GoH.Emit.cloneWrapper G t f)}"
def emitPool : IO Unit := do
  for t in List.range nlocal do
    if (sch.msg t).pooled then
      IO.println s!"@@ {nth tnames t} ResetVT\n{ps (GoH.Emit.resetMethod { G with sorted := true } sch t)}"
      IO.println s!"@@ {nth tnames t} ReturnToVTPool\n{ps (GoH.Emit.returnMethod t)}"
      IO.println s!"@@ {nth tnames t} FromVTPool\n{ps (GoH.Emit.fromPoolFunc t)}"
#eval emitAll
#eval emitPool
