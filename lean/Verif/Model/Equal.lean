import Verif.Model.Unmarshal
import Verif.Model.Marshal
/-!
# `EqualVT` and `EqualMessageVT`, `features/equal/equal.go`

Line numbers are those of `features/equal/equal.go`.
-/

namespace Vtp

/-- Go's `==` on float64 bits: NaN differs from everything, the two zeros are equal.
Go semantics, as used by the code at `features/equal/equal.go:239,241`. -/
def float64Eq (a b : BitVec 64) : Bool :=
  let nan (x : BitVec 64) : Bool := decide ((x <<< 1) > 0xffe0000000000000#64)
  !nan a && !nan b && (a == b || ((a <<< 1) == 0 && (b <<< 1) == 0))

/-- Go's `==` on float32 bits.
Go semantics, as used by the code at `features/equal/equal.go:239,241`. -/
def float32Eq (a b : BitVec 32) : Bool :=
  let nan (x : BitVec 32) : Bool := decide ((x <<< 1) > 0xff000000#32)
  !nan a && !nan b && (a == b || ((a <<< 1) == 0 && (b <<< 1) == 0))

/-- Go's `x == y` on scalars of a kind (`!=` at line 241). (`features/equal/equal.go:241`) -/
def scalarEq (k : Kind) (v w : Val) : Bool :=
  match k with
  | .string => v.bytes == w.bytes
  | .double => float64Eq v.bits w.bits
  | .float => float32Eq (v.bits.setWidth 32) (w.bits.setWidth 32)
  | _ => v.bits == w.bits

/-- `*p` for a pointer to a scalar.
Go semantics, as used by the code at `features/equal/equal.go:239`. -/
def deref (v : Val) : Res Val := if v.isNil then .panic .nilDeref else .ok v

/-- `compareScalar`, lines 237-245; `true` if the comparison goes on.
(`features/equal/equal.go:237-245`) -/
def compareScalar (nullable : Bool) (k : Kind) (v w : Val) : Res Bool :=
  if nullable then
    if v.isNil && !w.isNil then .ok false
    else if !v.isNil then
      if w.isNil then .ok false
      else do
        let p ← deref v
        let q ← deref w
        .ok (scalarEq k p q)
    else .ok true
  else .ok (scalarEq k v w)

/-- `compareBytes`, lines 247-256. (`features/equal/equal.go:247-256`) -/
def compareBytes (nullable : Bool) (v w : Val) : Bool :=
  if nullable then !((v.isNil && !w.isNil) || (!v.isNil && w.isNil) || v.bytes != w.bytes)
  else v.bytes == w.bytes

/-- What comparison depends on. `same p`: are the two pointers at access path `p` of the two messages the same? Values are
trees here, so pointer identity is an arbitrary parameter; identical pointers point to the same value.
(`features/equal/equal.go:59-63,165-167,263`) -/
structure CEnv where
  S : Schema
  R : Runtime
  same : List Nat → Bool := fun _ => false

/-- Go's `p == q` on pointers to messages and to oneof wrappers.
(`features/equal/equal.go:59-63,165-167,263`) -/
def CEnv.ptrEq (C : CEnv) (path : List Nat) (v w : Val) : Bool :=
  (v.isNil && w.isNil) || (C.same path && decide (v = w))

/-- Comparison of the messages at a path. (`features/equal/equal.go:258-293`) -/
abbrev SubEq := List Nat → Nat → Val → Val → Res Bool

/-- The `switch` of `compareCall`, lines 274-292: the type's `EqualVT` (well-known types by their local copy), or `proto.Equal`.
(`features/equal/equal.go:274-292`) -/
def callEqual (C : CEnv) (rec : SubEq) (path : List Nat) (t : Nat) (v w : Val) : Res Bool :=
  if (C.S.msg t).foreign then .ok (C.R.equal t v w) else rec path t v w

/-- `compareCall`, lines 258-293. (`features/equal/equal.go:258-293`) -/
def compareCall (C : CEnv) (rec : SubEq) (nullable : Bool) (path : List Nat) (t : Nat) (v w : Val) : Res Bool :=
  if nullable then callEqual C rec path t v w
  else if C.ptrEq path v w then .ok true
  else callEqual C rec path t (if v.isNil then zeroMsg C.S t else v) (if w.isNil then zeroMsg C.S t else w)

/-- The `switch` on the kind, lines 217-229 and 175-184.
(`features/equal/equal.go:217-229,175-184`) -/
def compareKind (C : CEnv) (rec : SubEq) (nullable : Bool) (path : List Nat) (k : Kind) (t : Nat) (v w : Val) : Res Bool :=
  match k with
  | .bytes => .ok (compareBytes nullable v w)
  | .message => compareCall C rec nullable path t v w
  | .group => compareCall C rec nullable path t v w
  | k => compareScalar nullable k v w

/-- A sequence of comparisons each of which returns false or goes on.
(`features/equal/equal.go:69-114`) -/
def allRes {α : Type} (f : α → Res Bool) : List α → Res Bool
  | [] => .ok true
  | a :: as => do
    let b ← f a
    if b then allRes f as else .ok false

/-- The same with the position in the list, counted from `i`.
(`features/equal/equal.go:197-214`) -/
def allIdx {α : Type} (f : Nat → α → Res Bool) : Nat → List α → Res Bool
  | _, [] => .ok true
  | i, a :: as => do
    let b ← f i a
    if b then allIdx f (i + 1) as else .ok false

/-- `rhs[i]` on a slice. (`features/equal/equal.go:210`) -/
def indexVal (v : Val) (i : Nat) : Res Val :=
  match v.elems[i]? with
  | some x => .ok x
  | none => .panic .indexOutOfRange

/-- `rhs[k]` on a map, with the `ok` result. (`features/equal/equal.go:202-208`) -/
def mapGet (v : Val) (k : Key) : Option Val := (v.entries.find? fun e => decide (e.1 = k)).map (·.2)

/-- `field`, lines 190-235. The range loop over a map goes through it in its iteration order.
(`features/equal/equal.go:190-235`) -/
def compareField (C : CEnv) (rec : SubEq) (path : List Nat) (f : FieldDesc) (nullable : Bool) (v w : Val) : Res Bool :=
  if f.card == .repeated then
    if f.len v ≠ f.len w then .ok false
    else match f.map with
      | some md => allIdx (fun i (e : Key × Val) =>
          match mapGet w e.1 with
          | none => .ok false
          | some y => compareKind C rec false (path ++ [i]) md.val md.valMsg e.2 y) 0 v.entries
      | none => allIdx (fun i x => do
          let y ← indexVal w i
          compareKind C rec false (path ++ [i]) f.kind f.msg x y) 0 v.elems
  else compareKind C rec nullable path f.kind f.msg v w

/-- The wrapper's `EqualVT`, lines 143-188, `f` being its member: `this` and `that` are the interface fields. A type assertion to
another wrapper type fails (lines 152-162). (`features/equal/equal.go:143-188,152-162`) -/
def wrapperEqual (C : CEnv) (rec : SubEq) (path : List Nat) (f : FieldDesc) (v w : Val) : Res Bool :=
  match v, w with
  | .wrap _ x, .wrap n y =>
    if n ≠ f.num then .ok false
    else if C.ptrEq path v w then .ok true
    else compareKind C rec false (path ++ [0]) f.kind f.msg x y
  | .wrap _ _, .wrapNil _ => .ok false
  | .wrapNil _, .wrap _ _ => .ok false
  | .wrapNil _, .wrapNil n => .ok (n == f.num)
  | _, _ => .panic .typeConfusion

/-- The block for a oneof, lines 83-104. (`features/equal/equal.go:83-104`) -/
def compareOneof (C : CEnv) (rec : SubEq) (path : List Nat) (d : MsgDesc) (slot : Nat) (v w : Val) : Res Bool :=
  if v.isNil && !w.isNil then .ok false
  else if !v.isNil then
    if w.isNil then .ok false
    else
      let num : Nat := match v with
        | .wrap n _ => n
        | .wrapNil n => n
        | _ => 0
      match d.member slot num with
      | some f => wrapperEqual C rec path f v w
      | none => .panic .typeAssertion
  else .ok true

/-- The representatives of the oneofs, lines 70-82: the first field of each.
(`features/equal/equal.go:70-82`) -/
def oneofFirst : List Nat → List FieldDesc → List FieldDesc
  | _, [] => []
  | seen, f :: fs =>
    if f.oneof then
      if seen.contains f.slot then oneofFirst seen fs else f :: oneofFirst (f.slot :: seen) fs
    else oneofFirst seen fs

/-- `nullable`, line 110. (`features/equal/equal.go:110`) -/
def MsgDesc.nullable (d : MsgDesc) (f : FieldDesc) : Bool := f.hasMessage || f.synthetic || (!d.proto3 && !f.oneof)

/-- `EqualVT` after the nil tests, lines 65-120. (`features/equal/equal.go:65-120`) -/
def equalBody (C : CEnv) (rec : SubEq) (path : List Nat) (d : MsgDesc) (s s' : List Val) (u u' : Bytes) : Res Bool := do
  let fs := sortFields d.fields
  let b ← allRes (fun f => compareOneof C rec (path ++ [f.slot]) d f.slot (slotOf s f) (slotOf s' f)) (oneofFirst [] fs)
  if b then do
    let b ← allRes (fun f => compareField C rec (path ++ [f.slot]) f (d.nullable f) (slotOf s f) (slotOf s' f)) (fs.filter fun f => !f.oneof)
    if b then (if d.keepUnknown then .ok (u == u') else .ok true) else .ok false
  else .ok false

/-- `EqualVT` with bounded recursion depth, lines 57-121. (`features/equal/equal.go:57-121`) -/
def equalN (C : CEnv) : Nat → SubEq
  | 0, _, _, _, _ => .diverge
  | n + 1, path, t, v, w =>
    if C.ptrEq path v w then .ok true
    else match v, w with
      | .msg s u _, .msg s' u' _ => equalBody C (equalN C n) path (C.S.msg t) s s' u u'
      | .nil, _ => .ok false
      | _, .nil => .ok false
      | _, _ => .panic .typeConfusion

/-- `this.EqualVT(that)`, lines 57-121. (`features/equal/equal.go:57-121`) -/
def equalVT (C : CEnv) (t : Nat) (v w : Val) : Res Bool := equalN C (max v.depth w.depth + 1) [] t v w

/-- `this.EqualMessageVT(thatMsg)`, lines 125-131; `t'` is the type of `thatMsg`, `none` for the nil interface.
(`features/equal/equal.go:125-131`) -/
def equalMessageVT (C : CEnv) (t : Nat) (v : Val) (that : Option (Nat × Val)) : Res Bool :=
  match that with
  | some (t', w) => if t' = t then equalVT C t v w else .ok false
  | none => .ok false

end Vtp
