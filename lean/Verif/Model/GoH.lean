import Verif.Model.Go
import Verif.Model.HeapClone
import Verif.Model.HeapPool
/-!
# The part of Go that `features/clone` and `features/pool` emit

Syntax and meaning of the statements printed for `CloneVT`, `CloneMessageVT`, `ResetVT`, `ReturnToVTPool` and `TFromVTPool`. They work on memory:
expressions read it and allocate, statements write to it. The meaning follows the Go language specification. Simplifications: the operands
of an operation have the static types the Go compiler would accept (anything else is `typeConfusion`); the condition of a two-result type
assertion in an `if` is part of that statement; a variable whose address is taken is put into memory when its address is taken (the printed
code does not use it afterwards); `range` over a map goes through the entries the map has at the start, in the order of the list. A value remembers
where in the message cloned it was read: that is what `pick` in `HKEnv` refers to.
-/

namespace Vtp.GoH

open Go (GTy Sel slotTy memberTy elemTy)

/-- Local variables of the emitted code.
(`features/clone/clone.go:51-152,172-178` and `features/pool/pool.go:50-106`) -/
inductive Id where
  | m | r | c | vtpb | tmpBytes | rhs | tmpContainer | tmpVal | k | v | mm | oneof
  | f (n : Nat)
  deriving DecidableEq, Repr

/-- Expressions.
Go semantics, as used by the code at `features/clone/clone.go:51-288` and
`features/pool/pool.go:44-106`. -/
inductive Expr where
  | nil
  | lit (n : Nat)
  | id (x : Id)
  | sel (e : Expr) (f : Sel)
  /-- `*e` -/
  | star (e : Expr)
  /-- `&x` for a variable holding a scalar of a kind -/
  | addr (x : Id) (k : Kind)
  | len (e : Expr)
  | eq (a b : Expr)
  | ne (a b : Expr)
  | gt (a b : Expr)
  /-- `make(T, n)` -/
  | make (T : GTy) (n : Expr)
  /-- `e[:0]` -/
  | cut (e : Expr)
  /-- `(*T)(nil)` -/
  | typedNil (T : GTy)
  /-- `new(T)` for the pointer type `*T` -/
  | new (T : GTy)
  /-- `TFromVTPool()` -/
  | fromPool (t : Nat)
  /-- `vtprotoPool_T.Get().(*T)` -/
  | poolGet (t : Nat)
  /-- `(*T)(e)`, `T` being the type of `types/known` for the message or wrapper type of `e`, or back -/
  | known (e : Expr)
  /-- `e.CloneVT()` -/
  | call (e : Expr)
  /-- `e.(interface{ CloneVT() I }).CloneVT()`, `I` being the interface type of the oneof -/
  | callIface (e : Expr)
  /-- `proto.Clone(e).(*T)` -/
  | protoClone (e : Expr)
  deriving DecidableEq, Repr

/-- Statements.
Go semantics, as used by the code at `features/clone/clone.go:51-288` and
`features/pool/pool.go:44-106`. -/
inductive Stmt where
  | skip
  | seq (a b : Stmt)
  /-- `x := e` -/
  | define (x : Id) (e : Expr)
  /-- `a.f = e` -/
  | setField (a : Expr) (f : Sel) (e : Expr)
  /-- `a[x] = e` -/
  | setIndex (a x e : Expr)
  /-- `copy(a, b)` -/
  | copy (a b : Expr)
  /-- `clear(e)` -/
  | clear (e : Expr)
  /-- `if c { a } else { b }` -/
  | ite (c : Expr) (a b : Stmt)
  /-- `if x := e; c { s }` -/
  | ifWith (x : Id) (e c : Expr) (s : Stmt)
  /-- `for x, y := range e { body }`; `none` is `_` -/
  | range (x : Option Id) (y : Id) (e : Expr) (body : Stmt)
  /-- `case *W: a`, then `b`, a case of `switch x := e.(type)`, where the cases are those of the members of the oneof -/
  | ifType (x : Id) (e : Expr) (t num : Nat) (a b : Stmt)
  /-- `if x, ok := e.(*W); ok { s }` -/
  | ifHolds (x : Id) (e : Expr) (t num : Nat) (s : Stmt)
  /-- `if x, ok := interface{}(e).(interface{ CloneVT() *T }); ok { a } else { b }` -/
  | ifImpl (x : Id) (e : Expr) (t : Nat) (a b : Stmt)
  /-- `e.ResetVT()` -/
  | resetVT (e : Expr)
  /-- `e.Reset()` -/
  | reset (e : Expr)
  /-- `e.ReturnToVTPool()` -/
  | returnToPool (e : Expr)
  /-- `vtprotoPool_T.Put(e)` -/
  | put (t : Nat) (e : Expr)
  /-- `return e` -/
  | ret (e : Expr)
  deriving DecidableEq, Repr

@[inherit_doc] infixr:40 " ;; " => Stmt.seq

/-- Values of expressions.
Go semantics, as used by the code at `features/clone/clone.go:51-288` and
`features/pool/pool.go:44-106`. -/
inductive V where
  | bool (b : Bool)
  | int (n : Nat)
  /-- untyped `nil` -/
  | nil
  /-- a map key -/
  | key (k : Key)
  /-- a value of a static type, read at a place of the message cloned -/
  | val (T : GTy) (at_ : List Nat) (v : HV)
  deriving DecidableEq, Repr

/-- Local variables, innermost first.
Go semantics, as used by the code at `features/clone/clone.go:51-288` and
`features/pool/pool.go:44-106`. -/
abbrev Vars := List (Id × V)

/-- How a statement ends.
Go semantics, as used by the code at `features/clone/clone.go:51-288` and
`features/pool/pool.go:44-106`. -/
inductive Flow where
  | next (vs : Vars)
  | ret (v : V)
  deriving DecidableEq, Repr

/-- What emitted code finds around it: `here` is the place of the message the method is called on, `clone` is `CloneVT` of a type, `reset` is
`ResetVT`, `back` is `ReturnToVTPool`, `fresh` is `TFromVTPool`.
(`features/clone/clone.go:154-232` and `features/pool/pool.go:44-106`) -/
structure Ctx where
  S : Schema
  R : Runtime
  pick : List Nat → Option Addr
  here : List Nat
  clone : GTy → List Nat → HV → HM HV
  reset : Nat → HV → HM Unit
  back : Nat → HV → HM Unit
  fresh : List Nat → Nat → HM HV

/-- The type system excludes this.
Go semantics, as used by the code at `features/clone/clone.go:51-288` and
`features/pool/pool.go:44-106`. -/
abbrev confused {α : Type} : HM α := HM.lift (.panic .typeConfusion)

/-- The value of a variable.
Go semantics, as used by the code at `features/clone/clone.go:51-288` and
`features/pool/pool.go:44-106`. -/
def find (x : Id) : Vars → HM V
  | [] => confused
  | (y, v) :: vs => if x = y then pure v else find x vs

/-- `v == nil` for a value of a type that has nil.
Go semantics, as used by the code at `features/clone/clone.go:174-178,223-229` and
`features/pool/pool.go:71-85`. -/
def isNilH : GTy → HV → Bool
  | .wrapper _ _, .wrapNil _ => true
  | .wrapper _ _, _ => false
  | _, v => v.isNil

/-- Types with a nil value.
Go semantics, as used by the code at `features/clone/clone.go:174-178,223-229` and
`features/pool/pool.go:71-85`. -/
def nilable : GTy → Bool
  | .num _ => false
  | .str => false
  | _ => true

/-- Go's `==` with nil.
Go semantics, as used by the code at `features/clone/clone.go:174-178,223-229` and
`features/pool/pool.go:71-85`. -/
def eqV (a b : V) : HM Bool :=
  match a, b with
  | .val T _ v, .nil => if nilable T then pure (isNilH T v) else confused
  | _, _ => confused

/-- Reading the field of a oneof wrapper.
Go semantics, as used by the code at `features/clone/clone.go:234-268`. -/
def hgetMember (r : HV) (n : Nat) : HM HV :=
  match r with
  | .ptr a => hread a >>= fun c => match c with
    | .wrap n' x => if n' = n then pure x else confused
    | _ => confused
  | .wrapNil _ => HM.lift (.panic .nilDeref)
  | _ => confused

/-- Selection of a field; selecting from a nil pointer panics.
Go semantics, as used by the code at `features/clone/clone.go:71-98`. -/
def selV (S : Schema) (f : Sel) (g : V) : HM V :=
  match g, f with
  | .val (.msg t') p v, .slot t i => if t = t' then hgetSlot v i >>= fun x => pure (.val (slotTy S t i) (p ++ [i]) x) else confused
  | .val (.msg _) _ v, .unknown => hgetUnknown v >>= fun x => pure (.val .bytes [] x)
  | .val (.wrapper t' n') p v, .member t n => if t = t' ∧ n = n' then hgetMember v n >>= fun x => pure (.val (memberTy S t n) p x) else confused
  | _, _ => confused

/-- `*p` for a pointer to a scalar.
Go semantics, as used by the code at `features/clone/clone.go:71-98`. -/
def starV (g : V) : HM V :=
  match g with
  | .val (.ptr k) p v => match v with
    | .nil => HM.lift (.panic .nilDeref)
    | .ptr a => hread a >>= fun c => match c with
      | .box x => pure (.val (elemTy k 0) p x)
      | _ => confused
    | _ => confused
  | _ => confused

/-- `&x`: a pointer to a scalar.
Go semantics, as used by the code at `features/clone/clone.go:71-98`. -/
def addrV (k : Kind) (g : V) : HM V :=
  match g with
  | .val T p v => if T = elemTy k 0 then halloc (.box v) >>= fun a => pure (.val (.ptr k) p (.ptr a)) else confused
  | _ => confused

/-- The entries of a map.
Go semantics, as used by the code at `features/clone/clone.go:127-152`. -/
def hentries (s : HV) : HM (List (Key × HV)) :=
  match s with
  | .nil => pure []
  | .ptr a => hread a >>= fun c => match c with
    | .map es => pure es
    | _ => confused
  | _ => confused

/-- `len`. Go semantics, as used by the code at `features/clone/clone.go:127-144`. -/
def lenV (g : V) : HM V :=
  match g with
  | .val .bytes _ v => hreadBytes v >>= fun b => pure (.int b.length)
  | .val (.list _ _) _ v => hlen v >>= fun n => pure (.int n)
  | .val (.map _) _ v => hentries v >>= fun es => pure (.int es.length)
  | _ => confused

/-- `make(T, n)`; for maps the number is a hint. (`features/clone/clone.go:89-92,127-144`) -/
def makeV (T : GTy) (g : V) : HM V :=
  match T, g with
  | .bytes, .int n => hmakeBytes n >>= fun d => pure (.val T [] d)
  | .list k _, .int n => hmakeList k n >>= fun d => pure (.val T [] d)
  | .map _, .int _ => halloc (.map []) >>= fun a => pure (.val T [] (.ptr a))
  | _, _ => confused

/-- `s[:0]` (`features/pool/pool.go:59-70,83-85`) -/
def cutV (g : V) : HM V :=
  match g with
  | .val .bytes p v => hcutBytes v >>= fun w => pure (.val .bytes p w)
  | .val (.list k t) p v => hcutList v >>= fun w => pure (.val (.list k t) p w)
  | _ => confused

/-- `(*T)(nil)` (`features/clone/clone.go:234-241`) -/
def typedNilV (T : GTy) : HM V :=
  match T with
  | .msg _ => pure (.val T [] .nil)
  | .wrapper _ n => pure (.val T [] (.wrapNil n))
  | _ => confused

/-- Go's zero value of the field of a wrapper.
Go semantics, as used by the code at `features/clone/clone.go:242`. -/
def zeroMember (S : Schema) (t n : Nat) : HV :=
  match (S.msg t).fields.find? (fun f => f.num == n) with
  | some f => hzeroScalar f.kind
  | none => .nil

/-- `new(T)` (`features/clone/clone.go:242`) -/
def newV (S : Schema) (T : GTy) : HM V :=
  match T with
  | .msg t => hnew S t >>= fun r => pure (.val T [] r)
  | .wrapper t n => halloc (.wrap n (zeroMember S t n)) >>= fun a => pure (.val T [] (.ptr a))
  | _ => confused

/-- A call of `CloneVT` on a pointer to a message or oneof wrapper.
(`features/clone/clone.go:71-98`) -/
def callV (C : Ctx) (g : V) : HM V :=
  match g with
  | .val T p v => match T with
    | .msg _ => C.clone T p v >>= fun w => pure (.val T p w)
    | .wrapper _ _ => C.clone T p v >>= fun w => pure (.val T p w)
    | _ => confused
  | _ => confused

/-- The dynamic type of the interface field of a oneof: the number of the member; `none` for nil. Only the wrappers of its members implement the interface.
Go semantics, as used by the code at `features/clone/clone.go:51-69`. -/
def hdyn (S : Schema) (t slot : Nat) (v : HV) : HM (Option Nat) :=
  match v with
  | .nil => pure none
  | .ptr a => hread a >>= fun c => match c with
    | .wrap n _ => if ((S.msg t).member slot n).isSome then pure (some n) else confused
    | _ => confused
  | .wrapNil n => if ((S.msg t).member slot n).isSome then pure (some n) else confused
  | _ => confused

/-- A call of `CloneVT` through an interface: that of the dynamic type.
(`features/clone/clone.go:51-69`) -/
def callIfaceV (C : Ctx) (g : V) : HM V :=
  match g with
  | .val (.iface t slot) p v => hdyn C.S t slot v >>= fun o => match o with
    | some n => callV C (.val (.wrapper t n) p v)
    | none => HM.lift (.panic .typeAssertion)
  | _ => confused

/-- `proto.Clone(e).(*T)` (`features/clone/clone.go:71-98`) -/
def protoCloneV (S : Schema) (R : Runtime) (g : V) : HM V :=
  match g with
  | .val (.msg t) p v => hruntimeClone ⟨S, R, fun _ => none, fun _ => false⟩ t v >>= fun w => pure (.val (.msg t) p w)
  | _ => confused

/-- `a > b` on `int`. Go semantics, as used by the code at `features/clone/clone.go:223-229`. -/
def gtV (a b : V) : HM V :=
  match a, b with
  | .int m, .int n => pure (.bool (decide (m > n)))
  | _, _ => confused

/-- Values of expressions.
Go semantics, as used by the code at `features/clone/clone.go:51-288` and
`features/pool/pool.go:44-106`. -/
def eval (C : Ctx) (vs : Vars) : Expr → HM V
  | .nil => pure .nil
  | .lit n => pure (.int n)
  | .id x => find x vs
  | .sel e f => eval C vs e >>= selV C.S f
  | .star e => eval C vs e >>= starV
  | .addr x k => find x vs >>= addrV k
  | .len e => eval C vs e >>= lenV
  | .eq a b => eval C vs a >>= fun a => eval C vs b >>= fun b => eqV a b >>= fun r => pure (.bool r)
  | .ne a b => eval C vs a >>= fun a => eval C vs b >>= fun b => eqV a b >>= fun r => pure (.bool !r)
  | .gt a b => eval C vs a >>= fun a => eval C vs b >>= fun b => gtV a b
  | .make T n => eval C vs n >>= makeV T
  | .cut e => eval C vs e >>= cutV
  | .typedNil T => typedNilV T
  | .new T => newV C.S T
  | .fromPool t => C.fresh C.here t >>= fun r => pure (.val (.msg t) [] r)
  | .poolGet t => poolGet C.S (C.pick C.here) t >>= fun r => pure (.val (.msg t) [] r)
  | .known e => eval C vs e
  | .call e => eval C vs e >>= callV C
  | .callIface e => eval C vs e >>= callIfaceV C
  | .protoClone e => eval C vs e >>= protoCloneV C.S C.R

/-- A Boolean.
Go semantics, as used by the code at `features/clone/clone.go:51-288` and
`features/pool/pool.go:44-106`. -/
def truth (g : V) : HM Bool :=
  match g with
  | .bool b => pure b
  | _ => confused

/-- `a.f = e` Go semantics, as used by the code at `features/clone/clone.go:71-98`. -/
def setV (f : Sel) (a x : V) : HM Unit :=
  match a, f, x with
  | .val (.msg t') _ r, .slot t i, .val _ _ v => if t = t' then hsetSlot r i v else confused
  | .val (.msg _) _ r, .unknown, .val .bytes _ v => hsetUnknown r v
  | .val (.wrapper t' n') _ r, .member t n, .val _ _ v => if t = t' ∧ n = n' then hsetMember r n v else confused
  | _, _, _ => confused

/-- `a[x] = e` Go semantics, as used by the code at `features/clone/clone.go:145-152`. -/
def setIndexV (a x e : V) : HM Unit :=
  match a, x, e with
  | .val (.list _ _) _ d, .int i, .val _ _ v => hsetIndex d i v
  | .val (.map _) _ d, .key k, .val _ _ v => hmapPut d k v
  | _, _, _ => confused

/-- The elements of a slice that is not of bytes.
Go semantics, as used by the code at `features/clone/clone.go:127-144`. -/
def helems (s : HV) : HM (List HV) :=
  match s with
  | .nil => pure []
  | .slice a len => hread a >>= fun c => match c with
    | .arr xs => pure (xs.take len)
    | _ => confused
  | _ => confused

/-- `copy(d, xs)` of elements already read.
Go semantics, as used by the code at `features/clone/clone.go:127-144`. -/
def hcopyElems (d : HV) (ys : List HV) : HM Unit :=
  match d with
  | .nil => pure ()
  | .slice a len => hread a >>= fun c => match c with
    | .arr xs => hwrite a (.arr (ys.take len ++ xs.drop (min len ys.length)))
    | _ => confused
  | _ => confused

/-- `copy(a, b)` Go semantics, as used by the code at `features/clone/clone.go:127-144`. -/
def copyV (a b : V) : HM Unit :=
  match a, b with
  | .val .bytes _ d, .val .bytes _ s => hreadBytes s >>= fun b => hcopyInto d b
  | .val (.list _ _) _ d, .val (.list _ _) _ s => helems s >>= fun xs => hcopyElems d xs
  | _, _ => confused

/-- `clear(s)` on a slice of strings or byte slices.
Go semantics, as used by the code at `features/pool/pool.go:59-70`. -/
def clearV (g : V) : HM Unit :=
  match g with
  | .val (.list k _) _ v => hclear k v
  | _ => confused

/-- A block with some variables declared at its start; they are gone at its end.
Go semantics, as used by the code at `features/clone/clone.go:51-288`. -/
def block (bind : Vars) (f : Vars → HM Flow) (vs : Vars) : HM Flow :=
  f (bind ++ vs) >>= fun r => match r with
    | .next ws => pure (.next (ws.drop (ws.length - vs.length)))
    | .ret b => pure (.ret b)

/-- A loop over so many elements of a slice, from an index on: each is read when it is its turn.
Go semantics, as used by the code at `features/clone/clone.go:127-152` and
`features/pool/pool.go:56-70`. -/
def loopList (f : V → V → Vars → HM Flow) (T : GTy) (p : List Nat) (s : HV) : Nat → Nat → Vars → HM Flow
  | _, 0, vs => pure (.next vs)
  | i, n + 1, vs => hindex s i >>= fun x => f (.int i) (.val T (p ++ [i]) x) vs >>= fun r => match r with
    | .next vs => loopList f T p s (i + 1) n vs
    | .ret b => pure (.ret b)

/-- A loop over entries of a map.
Go semantics, as used by the code at `features/clone/clone.go:127-152` and
`features/pool/pool.go:56-70`. -/
def loopMap (f : V → V → Vars → HM Flow) (T : GTy) (p : List Nat) : Nat → List (Key × HV) → Vars → HM Flow
  | _, [], vs => pure (.next vs)
  | i, (k, x) :: es, vs => f (.key k) (.val T (p ++ [i]) x) vs >>= fun r => match r with
    | .next vs => loopMap f T p (i + 1) es vs
    | .ret b => pure (.ret b)

/-- `range`: over a slice the number of iterations is the length at the start.
Go semantics, as used by the code at `features/clone/clone.go:127-152` and
`features/pool/pool.go:56-70`. -/
def rangeV (f : V → V → Vars → HM Flow) (g : V) (vs : Vars) : HM Flow :=
  match g with
  | .val (.list k t) p s => hlen s >>= fun n => loopList f (elemTy k t) p s 0 n vs
  | .val (.map md) p s => hentries s >>= fun es => loopMap f (elemTy md.val md.valMsg) p 0 es vs
  | _ => confused

/-- The variables a loop declares.
Go semantics, as used by the code at `features/clone/clone.go:127-152` and
`features/pool/pool.go:56-70`. -/
def loopVars (x : Option Id) (y : Id) (a b : V) : Vars :=
  match x with
  | some x => [(y, b), (x, a)]
  | none => [(y, b)]

/-- The dynamic type of an interface, with the pointer in it.
Go semantics, as used by the code at `features/pool/pool.go:71-76`. -/
def assertV (S : Schema) (g : V) (t num : Nat) : HM (Option V) :=
  match g with
  | .val (.iface t' slot) p v => hdyn S t' slot v >>= fun o => pure (if t' = t ∧ o = some num then some (.val (.wrapper t num) p v) else none)
  | _ => confused

/-- `e.(*W)` for an interface: the pointer in it, if its dynamic type is that.
Go semantics, as used by the code at `features/pool/pool.go:71-76`. -/
def holdsV (g : V) (t num : Nat) : HM (Option V) :=
  match g with
  | .val (.iface t' _) p v => if t' = t then hholds v num >>= fun o => pure (o.map fun _ => .val (.wrapper t num) p v) else confused
  | _ => confused

/-- Does the message type have a `CloneVT`? (`features/clone/clone.go:71-98`) -/
def implements (S : Schema) (g : V) : HM Bool :=
  match g with
  | .val (.msg t) _ _ => pure !(S.msg t).foreign
  | _ => confused

/-- `e.Reset()` of a message, protobuf-go's `*m = T{}`. (`features/pool/pool.go:90`) -/
def resetV (S : Schema) (g : V) : HM Unit :=
  match g with
  | .val (.msg t) _ v => match v with
    | .nil => HM.lift (.panic .nilDeref)
    | .ptr a => hwrite a (hzeroCell S t)
    | _ => confused
  | _ => confused

/-- A call of `ResetVT` or `ReturnToVTPool`. (`features/pool/pool.go:60-82,99`) -/
def onMsg (f : Nat → HV → HM Unit) (g : V) : HM Unit :=
  match g with
  | .val (.msg t) _ v => f t v
  | _ => confused

/-- `vtprotoPool_T.Put(e)` (`features/pool/pool.go:100`) -/
def putV (t : Nat) (g : V) : HM Unit :=
  match g with
  | .val (.msg t') _ v => if t = t' then hput t v else confused
  | _ => confused

/-- Execution of statements.
Go semantics, as used by the code at `features/clone/clone.go:51-288` and
`features/pool/pool.go:44-106`. -/
def exec (C : Ctx) : Stmt → Vars → HM Flow
  | .skip, vs => pure (.next vs)
  | .seq a b, vs => exec C a vs >>= fun r => match r with
    | .next vs => exec C b vs
    | .ret b => pure (.ret b)
  | .define x e, vs => eval C vs e >>= fun v => pure (.next ((x, v) :: vs))
  | .setField a f e, vs => eval C vs a >>= fun a => eval C vs e >>= fun v => setV f a v >>= fun _ => pure (.next vs)
  | .setIndex a x e, vs => eval C vs a >>= fun a => eval C vs x >>= fun x => eval C vs e >>= fun v => setIndexV a x v >>= fun _ => pure (.next vs)
  | .copy a b, vs => eval C vs a >>= fun a => eval C vs b >>= fun b => copyV a b >>= fun _ => pure (.next vs)
  | .clear e, vs => eval C vs e >>= clearV >>= fun _ => pure (.next vs)
  | .ite c a b, vs => eval C vs c >>= truth >>= fun t => if t then block [] (exec C a) vs else block [] (exec C b) vs
  | .ifWith x e c s, vs => eval C vs e >>= fun v =>
      block [(x, v)] (fun vs => eval C vs c >>= truth >>= fun t => if t then block [] (exec C s) vs else pure (.next vs)) vs
  | .range x y e body, vs => eval C vs e >>= fun g => rangeV (fun a b => block (loopVars x y a b) (exec C body)) g vs
  | .ifType x e t n a b, vs => eval C vs e >>= fun g => assertV C.S g t n >>= fun o => match o with
    | some w => block [(x, w)] (exec C a) vs
    | none => block [] (exec C b) vs
  | .ifHolds x e t n s, vs => eval C vs e >>= fun g => holdsV g t n >>= fun o => match o with
    | some w => block [(x, w)] (exec C s) vs
    | none => pure (.next vs)
  | .ifImpl x e _ a b, vs => eval C vs e >>= fun g => implements C.S g >>= fun ok =>
      if ok then block [(x, g)] (exec C a) vs else block [] (exec C b) vs
  | .resetVT e, vs => eval C vs e >>= onMsg C.reset >>= fun _ => pure (.next vs)
  | .reset e, vs => eval C vs e >>= resetV C.S >>= fun _ => pure (.next vs)
  | .returnToPool e, vs => eval C vs e >>= onMsg C.back >>= fun _ => pure (.next vs)
  | .put t e, vs => eval C vs e >>= putV t >>= fun _ => pure (.next vs)
  | .ret e, vs => eval C vs e >>= fun v => pure (.ret v)

/-- The result of a method that returns a pointer. (`features/clone/clone.go:154-178`) -/
def result (f : Flow) : HM HV :=
  match f with
  | .ret (.val _ _ v) => pure v
  | _ => confused

/-- The end of a method without result. (`features/pool/pool.go:50-102`) -/
def finish (f : Flow) : HM Unit :=
  match f with
  | .next _ => pure ()
  | .ret _ => confused

end Vtp.GoH
