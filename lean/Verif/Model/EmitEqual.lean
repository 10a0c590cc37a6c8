import Verif.Model.GoE
import Verif.Model.EmitSize
/-!
# What `features/equal/equal.go` prints

Each function returns the statements the function of the generator prints, one for one. Line numbers are those of
`features/equal/equal.go`.
-/

namespace Vtp.GoE

open Go (GenCfg)

namespace Emit

open Stmt Expr

/-- `compareScalar`, lines 237-245. (`features/equal/equal.go:237-245`) -/
def compareScalar (lhs rhs : Expr) (nullable : Bool) : Stmt :=
  if nullable then
    ifWith .p .q lhs rhs (lor (land (eq (id .p) nil) (ne (id .q) nil)) (land (ne (id .p) nil) (lor (eq (id .q) nil) (ne (star (id .p)) (star (id .q))))))
      (ret ff)
  else ite (ne lhs rhs) (ret ff) .skip

/-- `compareBytes`, lines 247-256. (`features/equal/equal.go:247-256`) -/
def compareBytes (lhs rhs : Expr) (nullable : Bool) : Stmt :=
  if nullable then
    ifWith .p .q lhs rhs (lor (lor (land (eq (id .p) nil) (ne (id .q) nil)) (land (ne (id .p) nil) (eq (id .q) nil))) (ne (str (id .p)) (str (id .q))))
      (ret ff)
  else ite (ne (str lhs) (str rhs)) (ret ff) .skip

/-- The `switch` of `compareCall`, lines 274-292. (`features/equal/equal.go:274-292`) -/
def callEqual (G : GenCfg) (lhs rhs : Expr) (t : Nat) : Stmt :=
  if G.wellKnown t then ite (.not (call (known lhs) (known rhs))) (ret ff) .skip
  else if G.isLocal t then ite (.not (call lhs rhs)) (ret ff) .skip
  else ifImpl .equal lhs t (ite (.not (call (id .equal) rhs)) (ret ff) .skip)
    (ite (.not (protoEqual lhs rhs)) (ret ff) .skip)

/-- `compareCall`, lines 258-293. (`features/equal/equal.go:258-293`) -/
def compareCall (G : GenCfg) (lhs rhs : Expr) (t : Nat) (nullable : Bool) : Stmt :=
  if nullable then callEqual G lhs rhs t
  else ifWith .p .q lhs rhs (ne (id .p) (id .q))
    (ite (eq (id .p) nil) (assign .p (newMsg t)) .skip ;;
     ite (eq (id .q) nil) (assign .q (newMsg t)) .skip ;;
     callEqual G (id .p) (id .q) t)

/-- The `switch` on the kind, lines 217-229 and 175-184.
(`features/equal/equal.go:217-229,175-184`) -/
def compareKind (G : GenCfg) (lhs rhs : Expr) (k : Kind) (t : Nat) (nullable : Bool) : Stmt :=
  match k with
  | .bytes => compareBytes lhs rhs nullable
  | .message => compareCall G lhs rhs t nullable
  | .group => compareCall G lhs rhs t nullable
  | _ => compareScalar lhs rhs nullable

/-- `field`, lines 190-235, in the method of message type `t`.
(`features/equal/equal.go:190-235`) -/
def field (G : GenCfg) (t : Nat) (f : FieldDesc) (nullable : Bool) : Stmt :=
  let lhs := sel (id .this) (.slot t f.slot)
  let rhs := sel (id .that) (.slot t f.slot)
  if f.card == .repeated then
    ite (ne (len lhs) (len rhs)) (ret ff) .skip ;;
    range .i .vx lhs (match f.map with
      | some md => lookup .vy rhs (id .i) ;; ite (.not (id .ok)) (ret ff) .skip ;; compareKind G (id .vx) (id .vy) md.val md.valMsg false
      | none => define .vy (index rhs (id .i)) ;; compareKind G (id .vx) (id .vy) f.kind f.msg false)
  else compareKind G lhs rhs f.kind f.msg nullable

/-- The cases of the type switch, lines 93-98. (`features/equal/equal.go:93-98`) -/
def oneofCases (lhs rhs : Expr) (t : Nat) : List FieldDesc → Stmt
  | [] => .skip
  | f :: fs => ifType .c lhs t f.num (ite (.not (call (known (id .c)) rhs)) (ret ff) .skip) (oneofCases lhs rhs t fs)

/-- The code for one oneof, lines 83-105. (`features/equal/equal.go:83-105`) -/
def oneof (G : GenCfg) (d : MsgDesc) (t slot : Nat) : Stmt :=
  let lhs := sel (id .this) (.slot t slot)
  let rhs := sel (id .that) (.slot t slot)
  ite (land (eq lhs nil) (ne rhs nil)) (ret ff)
    (ite (ne lhs nil)
      (ite (eq rhs nil) (ret ff) .skip ;;
       (if G.wellKnown t then oneofCases lhs rhs t (Go.Emit.members d slot)
        else ite (.not (callIface lhs rhs)) (ret ff) .skip))
      .skip)

/-- The loop over the oneofs, lines 69-106; `seen` are the keys of `oneofs`.
(`features/equal/equal.go:69-106`) -/
def oneofs (G : GenCfg) (d : MsgDesc) (t : Nat) : List Nat → List FieldDesc → Stmt
  | _, [] => .skip
  | seen, f :: fs =>
    if f.oneof then
      if seen.contains f.slot then oneofs G d t seen fs
      else oneof G d t f.slot ;; oneofs G d t (f.slot :: seen) fs
    else oneofs G d t seen fs

/-- The loop over the other fields, lines 108-114. (`features/equal/equal.go:108-114`) -/
def fields (G : GenCfg) (d : MsgDesc) (t : Nat) : List FieldDesc → Stmt
  | [] => .skip
  | f :: fs => (if f.oneof then .skip else field G t f (d.nullable f)) ;; fields G d t fs

/-- `EqualVT` of a message type, lines 57-121. (`features/equal/equal.go:57-121`) -/
def method (G : GenCfg) (S : Schema) (t : Nat) : Stmt :=
  let d := S.msg t
  let fs := sortFields d.fields
  ite (eq (id .this) (id .that)) (ret tt) (ite (lor (eq (id .this) nil) (eq (id .that) nil)) (ret ff) .skip) ;;
  oneofs G d t [] fs ;;
  fields G d t fs ;;
  (if d.keepUnknown then ret (eq (str (sel (id .this) .unknown)) (str (sel (id .that) .unknown))) else ret tt)

/-- `EqualVT` of a oneof wrapper, lines 143-188. (`features/equal/equal.go:143-188`) -/
def wrapper (G : GenCfg) (t : Nat) (f : FieldDesc) : Stmt :=
  assert .that (id .thatIface) t f.num (G.wellKnown t) ;;
  ite (.not (id .ok))
    (if G.wellKnown t then ifType .ot (id .thatIface) t f.num (assign .that (known (id .ot))) (ret ff) else ret ff) .skip ;;
  ite (eq (id .this) (id .that)) (ret tt) .skip ;;
  ite (lor (land (eq (id .this) nil) (ne (id .that) nil)) (land (ne (id .this) nil) (eq (id .that) nil))) (ret ff) .skip ;;
  compareKind G (sel (id .this) (.member t f.num)) (sel (id .that) (.member t f.num)) f.kind f.msg false ;;
  ret tt

/-- `EqualMessageVT`, lines 125-131. (`features/equal/equal.go:125-131`) -/
def messageMethod (t : Nat) : Stmt :=
  assertMsg .that (id .thatMsg) t ;;
  ite (.not (id .ok)) (ret ff) .skip ;;
  ret (call (id .this) (id .that))

end Emit

/-- `EqualVT` of the wrapper of a oneof's member, called from a method of its message; `rec` are the `EqualVT` methods of messages.
(`features/equal/equal.go:143-188`) -/
def runWrapper (G : GenCfg) (E : CEnv) (rec : Nat → V → V → Res Bool) (t num : Nat) (this thatIface : V) : Res Bool :=
  let C : Ctx := ⟨E.S, E.R, E.same, fun T this that => match T with
    | .msg t => rec t this that
    | _ => confused⟩
  match (E.S.msg t).fields.find? (fun f => f.num == num) with
  | some f => result (exec C (Emit.wrapper G t f) [(.thatIface, thatIface), (.this, this)])
  | none => confused

/-- The printed `EqualVT` methods called on each other; the first argument bounds the number of methods of messages active at a time.
(`features/equal/equal.go:57-121`) -/
def runEqualN (G : GenCfg) (E : CEnv) : Nat → Nat → V → V → Res Bool
  | 0, _, _, _ => .diverge
  | n + 1, t, this, that =>
    let C : Ctx := ⟨E.S, E.R, E.same, fun T this that => match T with
      | .msg t => runEqualN G E n t this that
      | .wrapper t num => runWrapper G E (runEqualN G E n) t num this that
      | _ => confused⟩
    result (exec C (Emit.method G E.S t) [(.that, that), (.this, this)])

/-- The printed `EqualMessageVT`; `thatMsg` is a pointer to a message with its type, or the nil interface.
(`features/equal/equal.go:125-131`) -/
def runEqualMessageN (G : GenCfg) (E : CEnv) (n t : Nat) (this thatMsg : V) : Res Bool :=
  let C : Ctx := ⟨E.S, E.R, E.same, fun T this that => match T with
    | .msg t => runEqualN G E n t this that
    | _ => confused⟩
  result (exec C (Emit.messageMethod t) [(.thatMsg, thatMsg), (.this, this)])

end Vtp.GoE
