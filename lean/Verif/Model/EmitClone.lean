import Verif.Model.GoH
import Verif.Model.EmitSize
/-!
# What `features/clone/clone.go` prints

Each function returns the statements the function of the generator prints, one for one. Line numbers are those of
`features/clone/clone.go`.
-/

namespace Vtp.GoH

open Go (GenCfg GTy Sel)

namespace Emit

open Stmt Expr

/-- `if c { s }`. (`features/clone/clone.go:83,126,224`) -/
abbrev when (c : Expr) (s : Stmt) : Stmt := ite c s .skip

/-- Where a value is assigned to: `r.F`, or `tmpContainer[k]`.
(`features/clone/clone.go:71-98,145-147`) -/
inductive Lhs where
  | field (f : Sel)
  | elem
  deriving DecidableEq, Repr

/-- `lhs = e` (`features/clone/clone.go:71-98`) -/
def Lhs.set (l : Lhs) (e : Expr) : Stmt :=
  match l with
  | .field f => setField (id .r) f e
  | .elem => setIndex (id .tmpContainer) (id .k) e

/-- The cases of the type switch, lines 59-62. (`features/clone/clone.go:59-62`) -/
def oneofCases (t slot : Nat) : List FieldDesc → Stmt
  | [] => .skip
  | f :: fs => ifType .c (sel (id .m) (.slot t slot)) t f.num (setField (id .r) (.slot t slot) (known (call (known (id .c))))) (oneofCases t slot fs)

/-- `cloneOneofField`, lines 51-69, in the method of message type `t`.
(`features/clone/clone.go:51-69`) -/
def cloneOneofField (G : GenCfg) (d : MsgDesc) (t slot : Nat) : Stmt :=
  when (ne (sel (id .m) (.slot t slot)) nil)
    (if G.wellKnown t then oneofCases t slot (Go.Emit.members d slot)
     else setField (id .r) (.slot t slot) (callIface (sel (id .m) (.slot t slot))))

/-- `cloneFieldSingular`, lines 72-98. (`features/clone/clone.go:72-98`) -/
def cloneFieldSingular (G : GenCfg) (lhs : Lhs) (rhs : Expr) (k : Kind) (t : Nat) : Stmt :=
  if k = .message ∨ k = .group then
    if G.wellKnown t then lhs.set (known (call (known rhs)))
    else if G.isLocal t then lhs.set (call rhs)
    else ifImpl .vtpb rhs t (lhs.set (call (id .vtpb))) (lhs.set (protoClone rhs))
  else if k = .bytes then
    define .tmpBytes (make .bytes (len rhs)) ;; copy (id .tmpBytes) rhs ;; lhs.set (id .tmpBytes)
  else lhs.set rhs

/-- `cloneField` for a field that is not in a oneof, lines 109-151; `f` is selected by `s`.
(`features/clone/clone.go:109-151`) -/
def cloneField (G : GenCfg) (s : Sel) (f : FieldDesc) : Stmt :=
  ifWith .rhs (sel (id .m) s) (ne (id .rhs) nil)
    (if f.card == .repeated then
      define .tmpContainer (make (Go.fieldTy f) (len (id .rhs))) ;;
      (match f.map with
        | some md => range (some .k) .v (id .rhs) (cloneFieldSingular G .elem (id .v) md.val md.valMsg)
        | none => if isScalarKind f.kind then copy (id .tmpContainer) (id .rhs)
          else range (some .k) .v (id .rhs) (cloneFieldSingular G .elem (id .v) f.kind f.msg)) ;;
      setField (id .r) s (id .tmpContainer)
    else if isScalarKind f.kind then
      define .tmpVal (star (id .rhs)) ;;
      setField (id .r) s (addr .tmpVal f.kind)
    else cloneFieldSingular G (.field s) (id .rhs) f.kind f.msg)

/-- The loop over the fields, lines 188-216: what is printed, and `refFields`; `seen` are the keys of `oneofFields`.
(`features/clone/clone.go:188-216`) -/
def first (G : GenCfg) (d : MsgDesc) (t : Nat) : List Nat → List FieldDesc → Stmt × List FieldDesc
  | _, [] => (.skip, [])
  | seen, f :: fs =>
    if f.oneof then
      if seen.contains f.slot then first G d t seen fs
      else let (a, b) := first G d t (f.slot :: seen) fs
        (a, f :: b)
    else
      let (a, b) := first G d t seen fs
      if !isReference d.proto3 f then (setField (id .r) (.slot t f.slot) (sel (id .m) (.slot t f.slot)) ;; a, b)
      else if f.card != .repeated && f.hasMessage && G.wellKnown f.msg then
        (setField (id .r) (.slot t f.slot) (known (call (known (sel (id .m) (.slot t f.slot))))) ;; a, b)
      else if f.card != .repeated && f.hasMessage && G.isLocal f.msg then
        (setField (id .r) (.slot t f.slot) (call (sel (id .m) (.slot t f.slot))) ;; a, b)
      else (a, f :: b)

/-- The loop over `refFields`, lines 219-221, and lines 103-107.
(`features/clone/clone.go:219-221,103-107`) -/
def second (G : GenCfg) (d : MsgDesc) (t : Nat) : List FieldDesc → Stmt
  | [] => .skip
  | f :: fs => (if f.oneof then cloneOneofField G d t f.slot else cloneField G (.slot t f.slot) f) ;; second G d t fs

/-- `p.Alloc("r", message, false)`, `generator/generatedfile.go:54-65`. -/
def alloc (S : Schema) (t : Nat) : Stmt :=
  if (S.msg t).pooled then define .r (fromPool t) else define .r (new (.msg t))

/-- `CloneVT` of a message type, lines 153-157 and 169-232.
(`features/clone/clone.go:153-157,169-232`) -/
def cloneMethod (G : GenCfg) (S : Schema) (t : Nat) : Stmt :=
  let d := S.msg t
  when (eq (id .m) nil) (ret (typedNil (.msg t))) ;;
  alloc S t ;;
  (first G d t [] d.fields).1 ;;
  second G d t (first G d t [] d.fields).2 ;;
  (if d.keepUnknown then
    when (gt (len (sel (id .m) .unknown)) (lit 0))
      (setField (id .r) .unknown (make .bytes (len (sel (id .m) .unknown))) ;;
       copy (sel (id .r) .unknown) (sel (id .m) .unknown))
   else .skip) ;;
  ret (id .r)

/-- `CloneMessageVT`, lines 160-165. (`features/clone/clone.go:160-165`) -/
def cloneMessageMethod : Stmt := ret (call (id .m))

/-- `CloneVT` of a oneof wrapper, lines 234-286. (`features/clone/clone.go:234-286`) -/
def cloneWrapper (G : GenCfg) (t : Nat) (f : FieldDesc) : Stmt :=
  when (eq (id .m) nil) (ret (typedNil (.wrapper t f.num))) ;;
  define .r (new (.wrapper t f.num)) ;;
  (if !(f.hasMessage || f.card == .repeated || f.kind == .bytes) then
    setField (id .r) (.member t f.num) (sel (id .m) (.member t f.num)) ;; ret (id .r)
   else if f.hasMessage && G.wellKnown f.msg then
    setField (id .r) (.member t f.num) (known (call (known (sel (id .m) (.member t f.num))))) ;; ret (id .r)
   else if f.hasMessage && G.isLocal f.msg then
    setField (id .r) (.member t f.num) (call (sel (id .m) (.member t f.num))) ;; ret (id .r)
   else cloneField G (.member t f.num) f ;; ret (id .r))

end Emit

/-- What a printed `CloneVT` of a message at `p` finds around it, given the `CloneVT` of messages and of wrappers.
(`features/clone/clone.go:154-232`) -/
def cloneCtx (E : HKEnv) (p : List Nat) (clone : GTy → List Nat → HV → HM HV) : Ctx where
  S := E.S
  R := E.R
  pick := E.pick
  here := p
  clone := clone
  reset := fun _ _ => confused
  back := fun _ _ => confused
  fresh := fun p t => poolGet E.S (E.pick p) t

/-- The printed `CloneVT` of the wrapper of a oneof's member; `rec` are the `CloneVT` methods of messages.
(`features/clone/clone.go:234-288`) -/
def runCloneWrapper (G : GenCfg) (E : HKEnv) (rec : HSubClone) (t num : Nat) (p : List Nat) (v : HV) : HM HV :=
  match (E.S.msg t).fields.find? (fun f => f.num == num) with
  | some f => exec (cloneCtx E p fun T p v => match T with
      | .msg t => rec p t v
      | _ => confused) (Emit.cloneWrapper G t f) [(.m, .val (.wrapper t num) p v)] >>= result
  | none => confused

/-- The printed `CloneVT` methods called on each other; the first argument bounds the number of methods of messages active at a time.
(`features/clone/clone.go:154-232`) -/
def runCloneN (G : GenCfg) (E : HKEnv) : Nat → HSubClone
  | 0 => fun _ _ _ => HM.lift .diverge
  | n + 1 => fun p t v =>
    exec (cloneCtx E p fun T p v => match T with
      | .msg t => runCloneN G E n p t v
      | .wrapper t num => runCloneWrapper G E (runCloneN G E n) t num p v
      | _ => confused) (Emit.cloneMethod G E.S t) [(.m, .val (.msg t) p v)] >>= result

/-- The printed `CloneMessageVT`: the pointer it returns, with its type.
(`features/clone/clone.go:160-165`) -/
def runCloneMessageN (G : GenCfg) (E : HKEnv) (n t : Nat) (v : HV) : HM V :=
  exec (cloneCtx E [] fun T p v => match T with
    | .msg t => runCloneN G E n p t v
    | _ => confused) Emit.cloneMessageMethod [(.m, .val (.msg t) [] v)] >>= fun f => match f with
      | .ret v => pure v
      | .next _ => confused

end Vtp.GoH
