import Verif.Model.Go
import Verif.Model.Equal
/-!
# The part of Go that `features/equal` emits

Syntax and meaning of the statements printed for `EqualVT` and `EqualMessageVT`. They change nothing but their own
variables. The meaning follows the Go language specification. Simplifications: the operands of an operation have the
static types the Go compiler would accept (anything else is `typeConfusion`); a pointer to a scalar is represented by
the scalar, as in `Val`; the condition of a two-result type assertion in an `if` is part of that statement. Values are
trees, so a value remembers where in the messages compared it was read, and pointers read at the same place of both
messages are identical if `same` says so; the address of a new struct is that of no other.
-/

namespace Vtp.GoE

open Go (GTy NumTy Sel slotTy memberTy elemTy)

/-- Local variables of the emitted code. (`features/equal/equal.go:57,125-131,201-212,263`) -/
inductive Id where
  | this | that | thatMsg | thatIface | p | q | i | vx | vy | ok | c | ot | equal
  deriving DecidableEq, Repr

/-- Expressions. Go semantics, as used by the code at `features/equal/equal.go:57-293`. -/
inductive Expr where
  | tt
  | ff
  | nil
  | id (x : Id)
  | sel (e : Expr) (f : Sel)
  /-- `*e` -/
  | star (e : Expr)
  /-- `e[x]` on a slice -/
  | index (e x : Expr)
  | len (e : Expr)
  /-- `string(e)` -/
  | str (e : Expr)
  | eq (a b : Expr)
  | ne (a b : Expr)
  | land (a b : Expr)
  | lor (a b : Expr)
  | not (a : Expr)
  /-- `(*T)(e)`, `T` being the type of `types/known` for the message or wrapper type of `e` -/
  | known (e : Expr)
  /-- `&T{}` -/
  | newMsg (t : Nat)
  /-- `a.EqualVT(b)` -/
  | call (a b : Expr)
  /-- `a.(interface{ EqualVT(I) bool }).EqualVT(b)`, `I` being the interface type of the oneof -/
  | callIface (a b : Expr)
  /-- `proto.Equal(a, b)` -/
  | protoEqual (a b : Expr)
  deriving DecidableEq, Repr

/-- Statements. Go semantics, as used by the code at `features/equal/equal.go:57-293`. -/
inductive Stmt where
  | skip
  | seq (a b : Stmt)
  /-- `x := e` -/
  | define (x : Id) (e : Expr)
  /-- `x = e` -/
  | assign (x : Id) (e : Expr)
  /-- `if c { a } else { b }` -/
  | ite (c : Expr) (a b : Stmt)
  /-- `if x, y := a, b; c { s }` -/
  | ifWith (x y : Id) (a b c : Expr) (s : Stmt)
  /-- `for x, y := range e { body }` -/
  | range (x y : Id) (e : Expr) (body : Stmt)
  /-- `y, ok := e[x]` on a map -/
  | lookup (y : Id) (e x : Expr)
  /-- `x, ok := e.(*W)`, `W` being a oneof wrapper; with `copy` its type of `types/known` -/
  | assert (x : Id) (e : Expr) (t num : Nat) (copy : Bool)
  /-- `x, ok := e.(*T)`, `T` being a message type -/
  | assertMsg (x : Id) (e : Expr) (t : Nat)
  /-- `if x, ok := e.(*W); ok { a } else { b }`, also one case of `switch x := e.(type)` -/
  | ifType (x : Id) (e : Expr) (t num : Nat) (a b : Stmt)
  /-- `if x, ok := interface{}(e).(interface{ EqualVT(*T) bool }); ok { a } else { b }` -/
  | ifImpl (x : Id) (e : Expr) (t : Nat) (a b : Stmt)
  /-- `return e` -/
  | ret (e : Expr)
  deriving DecidableEq, Repr

@[inherit_doc] infixr:40 " ;; " => Stmt.seq

/-- Values of expressions.
Go semantics, as used by the code at `features/equal/equal.go:57-293`. -/
inductive V where
  | bool (b : Bool)
  | int (n : Nat)
  /-- untyped `nil`, or the nil interface -/
  | nil
  /-- a value of a static type, read at a place of the message; `none`: a new struct, or not read from a message -/
  | val (T : GTy) (at_ : Option (List Nat)) (v : Val)
  deriving DecidableEq, Repr

/-- Local variables, innermost first.
Go semantics, as used by the code at `features/equal/equal.go:57-293`. -/
abbrev Vars := List (Id × V)

/-- How a statement ends. Go semantics, as used by the code at `features/equal/equal.go:57-293`. -/
inductive Flow where
  | next (vs : Vars)
  | ret (b : Bool)
  deriving DecidableEq, Repr

/-- What emitted code finds around it; `equal` is `EqualVT` of a type.
(`features/equal/equal.go:57-131,143-188,274-292`) -/
structure Ctx where
  S : Schema
  R : Runtime
  same : List Nat → Bool
  equal : GTy → V → V → Res Bool

/-- The type system excludes this.
Go semantics, as used by the code at `features/equal/equal.go:57-293`. -/
abbrev confused {α : Type} : Res α := .panic .typeConfusion

/-- The value of a variable.
Go semantics, as used by the code at `features/equal/equal.go:57-293`. -/
def find (x : Id) : Vars → Res V
  | [] => confused
  | (y, v) :: vs => if x = y then .ok v else find x vs

/-- The variables after an assignment.
Go semantics, as used by the code at `features/equal/equal.go:57-293`. -/
def update (x : Id) (v : V) : Vars → Res Vars
  | [] => confused
  | (y, w) :: vs => if x = y then .ok ((y, v) :: vs) else do
    let vs ← update x v vs
    .ok ((y, w) :: vs)

/-- Types with a nil value.
Go semantics, as used by the code at `features/equal/equal.go:59-63`. -/
def nilable : GTy → Bool
  | .num _ => false
  | .str => false
  | _ => true

/-- Go's `==` on numbers.
Go semantics, as used by the code at `features/equal/equal.go:237-245`. -/
def numEq (T : NumTy) (a b : BitVec 64) : Bool :=
  match T with
  | .float64 => float64Eq a b
  | .float32 => float32Eq (a.setWidth 32) (b.setWidth 32)
  | _ => a == b

/-- Go's `==` on pointers.
Go semantics, as used by the code at `features/equal/equal.go:59-63,165-167,263`. -/
def ptrEq (C : Ctx) (T : GTy) (a b : Option (List Nat)) (v w : Val) : Res Bool :=
  if Go.isNilG T v && Go.isNilG T w then .ok true
  else match a, b with
    | some p, some q => if p = q then .ok (C.same p && decide (v = w)) else confused
    | _, _ => .ok false

/-- Go's `==`. Go semantics, as used by the code at `features/equal/equal.go:59-63,237-256`. -/
def eqV (C : Ctx) (a b : V) : Res Bool :=
  match a, b with
  | .int m, .int n => .ok (m == n)
  | .val T _ v, .nil => if nilable T then .ok (Go.isNilG T v) else confused
  | .val T x v, .val T' y w =>
    if T = T' then match T with
      | .num N => .ok (numEq N v.bits w.bits)
      | .str => .ok (v.bytes == w.bytes)
      | .msg _ => ptrEq C T x y v w
      | .wrapper _ _ => ptrEq C T x y v w
      | _ => confused
    else confused
  | _, _ => confused

/-- Selection of a field; selecting from a nil pointer panics.
Go semantics, as used by the code at `features/equal/equal.go:194-195`. -/
def selV (S : Schema) (f : Sel) (g : V) : Res V :=
  match g with
  | .val (.msg t') a v => match f with
    | .slot t i => if t = t' then match v with
        | .msg slots _ _ => .ok (.val (slotTy S t i) (a.map (· ++ [i])) (slots.getD i .nil))
        | .nil => .panic .nilDeref
        | _ => confused
      else confused
    | .unknown => match v with
        | .msg _ unk _ => .ok (.val .bytes none (.str unk))
        | .nil => .panic .nilDeref
        | _ => confused
    | .member _ _ => confused
  | .val (.wrapper t' n') a v => match f with
    | .member t n => if t = t' ∧ n = n' then match v with
        | .wrap _ x => .ok (.val (memberTy S t n) (a.map (· ++ [0])) x)
        | .wrapNil _ => .panic .nilDeref
        | _ => confused
      else confused
    | _ => confused
  | _ => confused

/-- `*p` for a pointer to a scalar.
Go semantics, as used by the code at `features/equal/equal.go:239`. -/
def starV (g : V) : Res V :=
  match g with
  | .val (.ptr k) _ v => if v.isNil then .panic .nilDeref else .ok (.val (elemTy k 0) none v)
  | _ => confused

/-- `len`. Go semantics, as used by the code at `features/equal/equal.go:198`. -/
def lenV (g : V) : Res V :=
  match g with
  | .val (.list _ _) _ v => .ok (.int v.elems.length)
  | .val (.map _) _ v => .ok (.int v.entries.length)
  | _ => confused

/-- `string(e)` of a byte slice.
Go semantics, as used by the code at `features/equal/equal.go:119,249-252`. -/
def strV (g : V) : Res V :=
  match g with
  | .val .bytes _ v => .ok (.val .str none (.str v.bytes))
  | _ => confused

/-- `e[x]`: an element of a slice, panicking outside.
Go semantics, as used by the code at `features/equal/equal.go:210`. -/
def indexV (g x : V) : Res V :=
  match g, x with
  | .val (.list k t) a v, .int i => match v.elems[i]? with
    | some y => .ok (.val (elemTy k t) (a.map (· ++ [i])) y)
    | none => .panic .indexOutOfRange
  | _, _ => confused

/-- A Boolean. Go semantics, as used by the code at `features/equal/equal.go:57-293`. -/
def truth (g : V) : Res Bool :=
  match g with
  | .bool b => .ok b
  | _ => confused

/-- A call of `EqualVT` on a pointer to a message or oneof wrapper.
(`features/equal/equal.go:274-283`) -/
def callV (C : Ctx) (g x : V) : Res V :=
  match g with
  | .val (.msg t) _ _ => C.equal (.msg t) g x >>= fun b => .ok (.bool b)
  | .val (.wrapper t n) _ _ => C.equal (.wrapper t n) g x >>= fun b => .ok (.bool b)
  | _ => confused

/-- The wrapper in the interface field of a oneof: its type and the pointer; `none` for nil.
Go semantics, as used by the code at `features/equal/equal.go:91-100`. -/
def dyn (g : V) : Option (Nat × Nat × V) :=
  match g with
  | .val (.iface t _) a (.wrap n x) => some (t, n, .val (.wrapper t n) a (.wrap n x))
  | .val (.iface t _) a (.wrapNil n) => some (t, n, .val (.wrapper t n) a (.wrapNil n))
  | _ => none

/-- A call of `EqualVT` through an interface: that of the dynamic type. The wrappers of the members of the oneof have
the method; the assertion panics otherwise. (`features/equal/equal.go:100`) -/
def callIfaceV (C : Ctx) (g x : V) : Res V :=
  match g with
  | .val (.iface _ slot) _ _ => match dyn g with
    | some (t, n, w) => match (C.S.msg t).member slot n with
      | some _ => callV C w x
      | none => .panic .typeAssertion
    | none => .panic .typeAssertion
  | _ => confused

/-- `proto.Equal` of two messages of a type. (`features/equal/equal.go:289`) -/
def protoEqualV (R : Runtime) (g x : V) : Res V :=
  match g, x with
  | .val (.msg t) _ v, .val (.msg t') _ w => if t = t' then .ok (.bool (R.equal t v w)) else confused
  | _, _ => confused

/-- Values of expressions.
Go semantics, as used by the code at `features/equal/equal.go:57-293`. -/
def eval (C : Ctx) (vs : Vars) : Expr → Res V
  | .tt => .ok (.bool true)
  | .ff => .ok (.bool false)
  | .nil => .ok .nil
  | .id x => find x vs
  | .sel e f => eval C vs e >>= selV C.S f
  | .star e => eval C vs e >>= starV
  | .index e x => eval C vs e >>= fun g => eval C vs x >>= fun x => indexV g x
  | .len e => eval C vs e >>= lenV
  | .str e => eval C vs e >>= strV
  | .eq a b => eval C vs a >>= fun a => eval C vs b >>= fun b => eqV C a b >>= fun r => .ok (.bool r)
  | .ne a b => eval C vs a >>= fun a => eval C vs b >>= fun b => eqV C a b >>= fun r => .ok (.bool !r)
  | .land a b => eval C vs a >>= truth >>= fun r => if r then eval C vs b else .ok (.bool false)
  | .lor a b => eval C vs a >>= truth >>= fun r => if r then .ok (.bool true) else eval C vs b
  | .not a => eval C vs a >>= truth >>= fun r => .ok (.bool !r)
  | .known e => eval C vs e
  | .newMsg t => .ok (.val (.msg t) none (zeroMsg C.S t))
  | .call a b => eval C vs a >>= fun a => eval C vs b >>= fun b => callV C a b
  | .callIface a b => eval C vs a >>= fun a => eval C vs b >>= fun b => callIfaceV C a b
  | .protoEqual a b => eval C vs a >>= fun a => eval C vs b >>= fun b => protoEqualV C.R a b

/-- A block with some variables declared at its start; they are gone at its end.
Go semantics, as used by the code at `features/equal/equal.go:57-293`. -/
def block (bind : Vars) (f : Vars → Res Flow) (vs : Vars) : Res Flow :=
  f (bind ++ vs) >>= fun r => match r with
    | .next ws => .ok (.next (ws.drop (ws.length - vs.length)))
    | .ret b => .ok (.ret b)

/-- A loop over a list. Go semantics, as used by the code at `features/equal/equal.go:201-214`. -/
def loop {α : Type} (f : α → Vars → Res Flow) : List α → Vars → Res Flow
  | [], vs => .ok (.next vs)
  | a :: as, vs => f a vs >>= fun r => match r with
    | .next vs => loop f as vs
    | .ret b => .ok (.ret b)

/-- What `range` goes through: index and element of a slice, key and value of a map in the iteration order. The place
of a map key says how many keys came before.
Go semantics, as used by the code at `features/equal/equal.go:201-214`. -/
def rangeV (g : V) : Res (List (V × V)) :=
  match g with
  | .val (.list k t) a v => .ok (v.elems.zipIdx.map fun p => (.int p.2, .val (elemTy k t) (a.map (· ++ [p.2])) p.1))
  | .val (.map md) a v => .ok (v.entries.zipIdx.map fun p =>
      (.val (elemTy md.key 0) (some [p.2]) p.1.1.toVal, .val (elemTy md.val md.valMsg) (a.map (· ++ [p.2])) p.1.2))
  | _ => confused

/-- `e[x]` on a map: the value and whether it is there; its place is that of the key in the loop.
Go semantics, as used by the code at `features/equal/equal.go:203-206`. -/
def lookupV (g x : V) : Res (V × Bool) :=
  match g, x with
  | .val (.map md) a v, .val _ b y => match Go.asKey y with
    | some key => match mapGet v key with
      | some z => .ok (.val (elemTy md.val md.valMsg) (a.bind fun p => b.map (p ++ ·)) z, true)
      | none => .ok (.val (elemTy md.val md.valMsg) none (Go.zeroG (elemTy md.val md.valMsg)), false)
    | none => confused
  | _, _ => confused

/-- The result of `e.(*W)`.
Go semantics, as used by the code at `features/equal/equal.go:153-164`. -/
def assertV (g : V) (t num : Nat) (copy : Bool) : V × Bool :=
  match dyn g with
  | some (t', n, w) => if t' = t ∧ n = num ∧ copy = false then (w, true) else (.val (.wrapper t num) none (.wrapNil num), false)
  | none => (.val (.wrapper t num) none (.wrapNil num), false)

/-- The result of `e.(*T)` on a `proto.Message`.
Go semantics, as used by the code at `features/equal/equal.go:126-129`. -/
def assertMsgV (g : V) (t : Nat) : Res (V × Bool) :=
  match g with
  | .val (.msg t') a v => if t' = t then .ok (.val (.msg t') a v, true) else .ok (.val (.msg t) none .nil, false)
  | .nil => .ok (.val (.msg t) none .nil, false)
  | _ => confused

/-- Does the message type have an `EqualVT`? (`features/equal/equal.go:285`) -/
def implements (S : Schema) (g : V) : Bool :=
  match g with
  | .val (.msg t) _ _ => !(S.msg t).foreign
  | _ => false

/-- Execution of statements.
Go semantics, as used by the code at `features/equal/equal.go:57-293`. -/
def exec (C : Ctx) : Stmt → Vars → Res Flow
  | .skip, vs => .ok (.next vs)
  | .seq a b, vs => exec C a vs >>= fun r => match r with
    | .next vs => exec C b vs
    | .ret b => .ok (.ret b)
  | .define x e, vs => eval C vs e >>= fun v => .ok (.next ((x, v) :: vs))
  | .assign x e, vs => eval C vs e >>= fun v => update x v vs >>= fun vs => .ok (.next vs)
  | .ite c a b, vs => eval C vs c >>= truth >>= fun t => if t then block [] (exec C a) vs else block [] (exec C b) vs
  | .ifWith x y a b c s, vs => eval C vs a >>= fun v => eval C vs b >>= fun w =>
      block [(y, w), (x, v)] (fun vs => eval C vs c >>= truth >>= fun t => if t then block [] (exec C s) vs else .ok (.next vs)) vs
  | .range x y e body, vs => eval C vs e >>= rangeV >>= fun ps => loop (fun p => block [(y, p.2), (x, p.1)] (exec C body)) ps vs
  | .lookup y e x, vs => eval C vs e >>= fun g => eval C vs x >>= fun x => lookupV g x >>= fun r =>
      .ok (.next ((.ok, .bool r.2) :: (y, r.1) :: vs))
  | .assert x e t n copy, vs => eval C vs e >>= fun g =>
      .ok (.next ((.ok, .bool (assertV g t n copy).2) :: (x, (assertV g t n copy).1) :: vs))
  | .assertMsg x e t, vs => eval C vs e >>= fun g => assertMsgV g t >>= fun r => .ok (.next ((.ok, .bool r.2) :: (x, r.1) :: vs))
  | .ifType x e t n a b, vs => eval C vs e >>= fun g =>
      if (assertV g t n false).2 then block [(x, (assertV g t n false).1)] (exec C a) vs else block [] (exec C b) vs
  | .ifImpl x e _ a b, vs => eval C vs e >>= fun g =>
      if implements C.S g then block [(x, g)] (exec C a) vs else block [] (exec C b) vs
  | .ret e, vs => eval C vs e >>= truth >>= fun b => .ok (.ret b)

/-- The result of a method. (`features/equal/equal.go:57-121`) -/
def result (r : Res Flow) : Res Bool :=
  r >>= fun f => match f with
    | .ret b => .ok b
    | .next _ => confused

end Vtp.GoE
