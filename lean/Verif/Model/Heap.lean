import Verif.Model.Unmarshal
/-!
# Memory

The other parts of the model treat messages as values. Here they are objects in memory: pointers, slices with their arrays, maps, boxed
scalars, oneof wrappers, and the pools as sets of pointers. Addresses are indices into the list of all objects ever allocated.
-/

namespace Vtp

/-- Addresses of objects. Go semantics, as used by the code at
`features/unmarshal/unmarshal.go:504,570`. -/
abbrev Addr := Nat

/-- What a struct field, array element or variable holds.
Go semantics, as used by the code at `features/unmarshal/unmarshal.go:286-714`. -/
inductive HV where
  /-- nil pointer, slice, map or interface -/
  | nil
  /-- a number, bool or enum -/
  | num (n : BitVec 64)
  /-- a string with memory of its own, which never changes -/
  | str (b : Bytes)
  /-- a string made by `unsafe.String` from bytes of the array at `a` -/
  | view (a : Addr) (off len : Nat)
  /-- a byte slice; its capacity reaches to the end of the array at `a` -/
  | bytes (a : Addr) (off len : Nat)
  /-- another slice; it begins at the beginning of its array, its capacity reaches to the end -/
  | slice (a : Addr) (len : Nat)
  /-- a pointer to a message, a boxed scalar, or a map; or a oneof's interface holding a pointer to a wrapper -/
  | ptr (a : Addr)
  /-- a oneof's interface holding a nil pointer to a wrapper -/
  | wrapNil (num : Nat)
  deriving DecidableEq, Repr, Inhabited

/-- Objects. Go semantics, as used by the code at `features/unmarshal/unmarshal.go:286-714`. -/
inductive Cell where
  /-- a message: struct fields, `unknownFields`, and the extensions, which are not looked into -/
  | msg (slots : List HV) (unk : HV) (ext : Bytes)
  /-- a message of a type without generated methods, left to the runtime; its memory is not looked into -/
  | foreign (v : Val)
  /-- a boxed scalar (`*int64`, …) -/
  | box (v : HV)
  /-- the wrapper of a oneof member -/
  | wrap (num : Nat) (v : HV)
  /-- the array of a slice of anything but bytes -/
  | arr (xs : List HV)
  /-- the array of byte slices -/
  | bytes (b : Bytes)
  | map (es : List (Key × HV))
  deriving DecidableEq, Repr

/-- The objects there are; the address of an object is its position. Go semantics, as used by the
code at `features/unmarshal/unmarshal.go:504,570`. -/
abbrev Heap := List Cell

/-- All memory, and what the pools of the message types hold. Go does not say where new objects are put and what the pools hand out. `free` are
places for the next objects, marked by `.foreign .nil`, which is not the contents of any object in use; `gets` what the pools are asked for next; if they are empty then new objects come after the others, and the code says what it
wants. They matter where code is run with what it met when others did things in between (`Verif/Lemmas/ConcVirt.lean`).
(`features/pool/pool.go:44-48,97-106`) -/
structure HState where
  heap : Heap
  pool : List (Nat × Addr)
  free : List Addr := []
  gets : List (Option Addr) := []
  deriving DecidableEq, Repr

/-- Bound for the nesting of what an object holds, apart from what is in other objects.
Go semantics, as used by the code at `features/pool/pool.go:79-82`. -/
def Cell.nesting : Cell → Nat
  | .foreign v => v.depth + 1
  | _ => 1

/-- Recursion limit for code that follows the messages in memory: they are not nested deeper than this if memory is not shared. The code has no
such limit; on memory with cycles it would not end.
Go semantics, as used by the code at `features/pool/pool.go:79-82`. -/
def HState.fuel (σ : HState) : Nat := (σ.heap.map Cell.nesting).sum + 2

/-- Code working on memory.
Go semantics, as used by the code at `features/unmarshal/unmarshal.go:797-892`. -/
def HM (α : Type) : Type := HState → HState × Res α

namespace HM

/-- Sequencing: `return err` and panics leave the function.
Go semantics, as used by the code at `features/unmarshal/unmarshal.go:797-892`. -/
def bind {α β : Type} (x : HM α) (f : α → HM β) : HM β := fun σ =>
  match x σ with
  | (σ', .ok a) => f a σ'
  | (σ', .err e) => (σ', .err e)
  | (σ', .panic p) => (σ', .panic p)
  | (σ', .diverge) => (σ', .diverge)

instance : Monad HM where
  pure a := fun σ => (σ, .ok a)
  bind := HM.bind

/-- Code that does not touch memory.
Go semantics, as used by the code at `features/unmarshal/unmarshal.go:797-892`. -/
def lift {α : Type} (r : Res α) : HM α := fun σ => (σ, r)

end HM

/-- Reading an object.
Go semantics, as used by the code at `features/unmarshal/unmarshal.go:498,516,566`. -/
def hread (a : Addr) : HM Cell := fun σ =>
  match σ.heap[a]? with
  | some c => (σ, .ok c)
  | none => (σ, .panic .typeConfusion)

/-- Writing to an object.
Go semantics, as used by the code at `features/unmarshal/unmarshal.go:507,517,570`. -/
def hwrite (a : Addr) (c : Cell) : HM Unit := fun σ => ({ σ with heap := σ.heap.set a c }, .ok ())

/-- Where the next object will be.
Go semantics, as used by the code at `features/unmarshal/unmarshal.go:504,570`. -/
def HState.next (σ : HState) : Addr :=
  match σ.free with
  | a :: _ => if σ.heap[a]? = some (.foreign .nil) then a else σ.heap.length
  | [] => σ.heap.length

/-- Memory with a new object.
Go semantics, as used by the code at `features/unmarshal/unmarshal.go:504,570`. -/
def HState.grow (σ : HState) (c : Cell) : HState :=
  { σ with heap := if σ.next < σ.heap.length then σ.heap.set σ.next c else σ.heap ++ [c], free := σ.free.tail }

/-- A new object.
Go semantics, as used by the code at `features/unmarshal/unmarshal.go:504,570`. -/
def halloc (c : Cell) : HM Addr := fun σ => (σ.grow c, .ok σ.next)

/-- `x == nil`. Go semantics, as used by the code at `features/unmarshal/unmarshal.go:516,566`. -/
def HV.isNil : HV → Bool
  | .nil => true
  | _ => false

/-- How the runtime chooses: `extra n` is the capacity beyond what is needed that a growing slice is given when its array is put at `n`.
Go semantics, as used by the code at `features/unmarshal/unmarshal.go:609,742-768,860`. -/
abbrev Growth := Nat → Nat

/-- `make([]byte, len(b))` and `copy`. (`features/unmarshal/unmarshal.go:598-599`) -/
def hcopyBytes (b : Bytes) : HM HV := do
  let a ← halloc (.bytes b)
  pure (.bytes a 0 b.length)

/-- A new array for a byte slice that grows.
Go semantics, as used by the code at `features/unmarshal/unmarshal.go:609,860`. -/
def hgrowBytes (extra : Growth) (b : Bytes) : HM HV := fun σ =>
  (do let a ← halloc (.bytes (b ++ List.replicate (extra σ.next) 0))
      pure (HV.bytes a 0 b.length) : HM HV) σ

/-- `append(s[:n], b...)`: in place if the capacity suffices.
(`features/unmarshal/unmarshal.go:609`) -/
def happendBytes (extra : Growth) (s : HV) (n : Nat) (b : Bytes) : HM HV :=
  match s with
  | .nil => if b = [] then pure .nil else hgrowBytes extra b
  | .bytes a off _ => do
    match ← hread a with
    | .bytes c =>
      if off + n + b.length ≤ c.length then do
        hwrite a (.bytes (c.take (off + n) ++ b ++ c.drop (off + n + b.length)))
        pure (.bytes a off (n + b.length))
      else hgrowBytes extra ((c.drop off).take n ++ b)
    | _ => HM.lift (.panic .typeConfusion)
  | _ => HM.lift (.panic .typeConfusion)

/-- A new array for a slice that grows: `xs`, of which `len` elements are in the slice, and what there is beyond.
Go semantics, as used by the code at `features/unmarshal/unmarshal.go:552,560`. -/
def hgrowArr (extra : Growth) (xs : List HV) (len : Nat) : HM HV := fun σ =>
  (do let a ← halloc (.arr (xs ++ List.replicate (extra σ.next) .nil))
      pure (HV.slice a len) : HM HV) σ

/-- `append(s, x)` on a slice of anything but bytes, in the array `c` at `a`.
Go semantics, as used by the code at `features/unmarshal/unmarshal.go:552,560`. -/
def happendTo (extra : Growth) (a len : Nat) (x : HV) (c : Cell) : HM HV :=
  match c with
  | .arr xs =>
    if len < xs.length then do
      hwrite a (.arr (xs.set len x))
      pure (.slice a (len + 1))
    else hgrowArr extra (xs ++ [x]) (len + 1)
  | _ => HM.lift (.panic .typeConfusion)

/-- `append(s, x)` on a slice of anything but bytes.
Go semantics, as used by the code at `features/unmarshal/unmarshal.go:552,560`. -/
def happend (extra : Growth) (s x : HV) : HM HV :=
  match s with
  | .nil => hgrowArr extra [x] 1
  | .slice a len => do
    let c ← hread a
    happendTo extra a len x c
  | _ => HM.lift (.panic .typeConfusion)

/-- `make([]T, 0, n)`. (`features/unmarshal/unmarshal.go:742-768`) -/
def hmakeSlice (n : Nat) : HM HV := do
  let a ← halloc (.arr (List.replicate n .nil))
  pure (.slice a 0)

/-- Reading the struct field in `slot` of a message.
Go semantics, as used by the code at `features/unmarshal/unmarshal.go:498,516,566`. -/
def hgetSlot (p : HV) (slot : Nat) : HM HV :=
  match p with
  | .nil => HM.lift (.panic .nilDeref)
  | .ptr a => do
    match ← hread a with
    | .msg s _ _ => pure (s.getD slot .nil)
    | _ => HM.lift (.panic .typeConfusion)
  | _ => HM.lift (.panic .typeConfusion)

/-- Assigning to the struct field in `slot` of a message.
Go semantics, as used by the code at `features/unmarshal/unmarshal.go:507,517,570`. -/
def hsetSlot (p : HV) (slot : Nat) (v : HV) : HM Unit :=
  match p with
  | .nil => HM.lift (.panic .nilDeref)
  | .ptr a => do
    match ← hread a with
    | .msg s u e => hwrite a (.msg (s.set slot v) u e)
    | _ => HM.lift (.panic .typeConfusion)
  | _ => HM.lift (.panic .typeConfusion)

/-- Go's zero value of a scalar kind.
Go semantics, as used by the code at `features/unmarshal/unmarshal.go:504,570` and
`generator/generatedfile.go:67-108`. -/
def hzeroScalar : Kind → HV
  | .string => .str []
  | .bytes => .nil
  | .message => .nil
  | .group => .nil
  | _ => .num 0

/-- Go's zero value of the struct field of a proto field.
Go semantics, as used by the code at `features/unmarshal/unmarshal.go:504,570` and
`generator/generatedfile.go:67-108`. -/
def hzeroField (f : FieldDesc) : HV :=
  if f.oneof || f.card == .repeated || f.presence then .nil else hzeroScalar f.kind

/-- The zero value of one struct field.
Go semantics, as used by the code at `features/unmarshal/unmarshal.go:504,570` and
`generator/generatedfile.go:67-108`. -/
def hzeroSlot (d : MsgDesc) (s : Nat) : HV :=
  match d.fields.find? (fun f => f.slot == s) with
  | some f => hzeroField f
  | none => .nil

/-- `T{}`.
Go semantics, as used by the code at `features/unmarshal/unmarshal.go:504,570` and
`generator/generatedfile.go:67-108`. -/
def hzeroCell (S : Schema) (t : Nat) : Cell :=
  if (S.msg t).foreign then .foreign (zeroMsg S t)
  else .msg ((List.range (S.msg t).nslots).map (hzeroSlot (S.msg t))) .nil []

/-- `&T{}`. (`features/unmarshal/unmarshal.go:504,570`) -/
def hnew (S : Schema) (t : Nat) : HM HV := do
  let a ← halloc (hzeroCell S t)
  pure (.ptr a)

/-- The message asked for, if any: the next of `gets` if there is one, else the one which the code says.
(`features/pool/pool.go:104-106,41-45`) -/
def HState.ask (σ : HState) (want : Option Addr) : Option Addr :=
  match want with
  | none => none
  | some a => σ.gets.headD (some a)

/-- After asking for a message.
(`features/pool/pool.go:104-106,41-45`) -/
def HState.asked (σ : HState) (want : Option Addr) : HState :=
  match want with
  | none => σ
  | some _ => { σ with gets := σ.gets.tail }

/-- `TFromVTPool()`, `features/pool/pool.go:104-106,41-45`. Which of its messages `sync.Pool` hands out, if any, is not determined: `want` and `gets` are the
choice; if that message is not in the pool a new one is made. -/
def poolGet (S : Schema) (want : Option Addr) (t : Nat) : HM HV := fun σ =>
  match σ.ask want with
  | some a => if (t, a) ∈ σ.pool then ({ σ.asked want with pool := σ.pool.erase (t, a) }, .ok (.ptr a)) else hnew S t (σ.asked want)
  | none => hnew S t (σ.asked want)

/-- `vtprotoPool_T.Put(m)`, `features/pool/pool.go:100`. -/
def poolPut (t : Nat) (a : Addr) : HM Unit := fun σ => ({ σ with pool := (t, a) :: σ.pool }, .ok ())

end Vtp
