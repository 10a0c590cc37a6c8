import Verif.Model.Conc
import Verif.Model.Equal
/-!
# The methods that only read, on memory

`SizeVT`, `MarshalVT` and `EqualVT` of messages that are objects in memory, as programs of single steps. They are those of `Verif/Model/Size.lean`, `Marshal.lean` and
`Equal.lean`, which see the same places of the generator, with the values read from memory where the code reads them. All steps are reads.

Simplified: a struct field, or the length of a slice, is read once where the code may read it several times; the length of a string or byte slice is taken from its
contents, which are read, where the code looks at the header only; the buffer that is written to is not an object in memory.
-/

namespace Vtp.Conc

/-- Contents of a string or byte slice, `copy(dAtA[i:], m.F)`, `string(m.F)`.
(`features/marshal/marshalto.go:602-607` and `features/equal/equal.go:116-120,247-256`) -/
def hbytes (x : HV) : Prog Bytes :=
  match x with
  | .str b => pure b
  | .view a off len => do
    match ← hread a with
    | .bytes c => pure ((c.drop off).take len)
    | _ => Prog.lift (.panic .typeConfusion)
  | .bytes a off len => do
    match ← hread a with
    | .bytes c => pure ((c.drop off).take len)
    | _ => Prog.lift (.panic .typeConfusion)
  | _ => pure []

/-- `*p` for a pointer to a scalar, e.g. `features/size/size.go:86,112`. -/
def hderef (x : HV) : Prog HV :=
  match x with
  | .nil => Prog.lift (.panic .nilDeref)
  | .ptr a => do
    match ← hread a with
    | .box y => pure y
    | _ => Prog.lift (.panic .typeConfusion)
  | _ => Prog.lift (.panic .typeConfusion)

/-- Is the struct field of a singular field a pointer to a scalar?
(`features/size/size.go:61-276` and `features/equal/equal.go:108-114`) -/
def isBoxed (oneof : Bool) (f : FieldDesc) : Bool := !oneof && f.presence && isScalarKind f.kind

/-- `m.F` or `*m.F`, the scalar in a singular field.
(`features/size/size.go:61-276` and `features/marshal/marshalto.go:115-532`) -/
def hscalar (oneof : Bool) (f : FieldDesc) (x : HV) : Prog HV := if isBoxed oneof f then hderef x else pure x

/-- `len(m)` of a map. (`features/size/size.go:61-276` and `features/equal/equal.go:197-200`) -/
def hmapLen (m : HV) : Prog Nat :=
  match m with
  | .nil => pure 0
  | .ptr a => do
    match ← hread a with
    | .map es => pure es.length
    | _ => Prog.lift (.panic .typeConfusion)
  | _ => Prog.lift (.panic .typeConfusion)

/-- The next entry of `range` over a map.
(`features/size/size.go:163-218` and `features/marshal/marshalto.go:83-113`) -/
def hentryAt (m : HV) (i : Nat) : Prog (Key × HV) :=
  match m with
  | .ptr a => do
    match ← hread a with
    | .map es => match es[i]? with
      | some e => pure e
      | none => Prog.lift (.panic .indexOutOfRange)
    | _ => Prog.lift (.panic .typeConfusion)
  | _ => Prog.lift (.panic .typeConfusion)

/-- The length of a list or map.
(`features/size/size.go:61-276` and `features/equal/equal.go:197-200`) -/
def hfieldLen (f : FieldDesc) (x : HV) : Prog Nat := if f.map.isSome then hmapLen x else hlen x

/-- A foreign message, which is handed to the runtime.
(`features/size/size.go:42-59` and `features/marshal/marshalto.go:720-748`) -/
def hforeign (x : HV) : Prog Val :=
  match x with
  | .nil => pure .nil
  | .ptr a => do
    match ← hread a with
    | .foreign v => pure v
    | _ => Prog.lift (.panic .typeConfusion)
  | _ => Prog.lift (.panic .typeConfusion)

/-! ## `SizeVT` -/

/-- See `sizeScalar`, `features/size/size.go:78-151,230-264,165-201`. -/
def hsizeScalar (k : Kind) (x : HV) : Prog Nat :=
  if k = .string ∨ k = .bytes then do
    let b ← hbytes x
    pure (sizeScalar k (.str b))
  else pure (sizeScalar k (.num x.bits))

/-- `for _, e := range s { n += … }`, from the index on, for so many elements.
(`features/size/size.go:61-276`) -/
def hsumElems (g : HV → Prog Nat) (s : HV) : Nat → Nat → Prog Nat
  | _, 0 => pure 0
  | i, n + 1 => do
    let x ← hindex s i
    let a ← g x
    let b ← hsumElems g s (i + 1) n
    pure (a + b)

/-- `for k, v := range m { n += … }`, the same for maps. (`features/size/size.go:163-218`) -/
def hsumEntries (g : Key → HV → Prog Nat) (m : HV) : Nat → Nat → Prog Nat
  | _, 0 => pure 0
  | i, n + 1 => do
    let (k, x) ← hentryAt m i
    let a ← g k x
    let b ← hsumEntries g m (i + 1) n
    pure (a + b)

/-- `messageSize`, `features/size/size.go:42-59`. -/
def hmessageSize (E : Env) (rec : Nat → HV → Prog Nat) (t : Nat) (x : HV) : Prog Nat :=
  if (E.S.msg t).foreign then do
    let v ← hforeign x
    pure (E.R.size t v)
  else rec t x

/-- `mapEntrySize`, `features/size/size.go:163-218`. -/
def hmapEntrySize (E : Env) (rec : Nat → HV → Prog Nat) (md : MapDesc) (k : Key) (x : HV) : Prog Nat :=
  if md.val = .message then do
    let l ← if x.isNil then pure 0 else hmessageSize E rec md.valMsg x
    pure (keySize 1 (protoWireType md.key) + sizeScalar md.key k.toVal + (l + (keySize 2 (protoWireType md.val) + sizeOfVarint (u64 l))))
  else do
    let l ← hsizeScalar md.val x
    pure (keySize 1 (protoWireType md.key) + sizeScalar md.key k.toVal + (keySize 2 (protoWireType md.val) + l))

/-- `m.F == 0` and `len(m.F) == 0`, see `isZeroVal`.
(`features/size/size.go:61-276` and `features/marshal/marshalto.go:115-532`) -/
def hisZero (k : Kind) (x : HV) : Prog Bool :=
  if k = .string ∨ k = .bytes then do
    let b ← hbytes x
    pure (isZeroVal k (.str b))
  else pure (isZeroVal k (.num x.bits))

/-- `if m.F != 0 { … }` around the code for a singular scalar, unless it has presence; `none` if it is not run, else the scalar.
(`features/size/size.go:61-276` and `features/marshal/marshalto.go:115-532`) -/
def hpresent (oneof : Bool) (f : FieldDesc) (x : HV) : Prog (Option HV) := do
  let y ← hscalar oneof f x
  let z ← hisZero f.kind y
  pure (if !oneof && !(f.hasMessage || f.presence) && z then none else some y)

/-- The part of `field` inside the outer `if`, `features/size/size.go:77-267`; see `sizeFieldBody`. -/
def hsizeFieldBody (E : Env) (rec : Nat → HV → Prog Nat) (oneof : Bool) (f : FieldDesc) (x : HV) : Prog Nat :=
  let repeated := f.card == .repeated
  let wireType := if f.packed then 2 else protoWireType f.kind
  let key := keySize f.num wireType
  let single : Prog Nat := do
    match ← hpresent oneof f x with
    | some y => do
      let n ← hsizeScalar f.kind y
      pure (key + n)
    | none => pure 0
  let fixed (n : Nat) : Prog Nat :=
    if f.packed then do
      let l ← hlen x
      pure (key + sizeOfVarint (u64 (l * n)) + l * n)
    else if repeated then do
      let l ← hlen x
      pure ((key + n) * l)
    else single
  let var : Prog Nat :=
    if f.packed then do
      let c ← hlen x
      let l ← hsumElems (hsizeScalar f.kind) x 0 c
      pure (key + sizeOfVarint (u64 l) + l)
    else if repeated then do
      let c ← hlen x
      hsumElems (fun e => do
        let n ← hsizeScalar f.kind e
        pure (key + n)) x 0 c
    else single
  let str : Prog Nat :=
    if repeated then do
      let c ← hlen x
      hsumElems (fun e => do
        let n ← hsizeScalar f.kind e
        pure (key + n)) x 0 c
    else single
  match f.kind with
  | .double => fixed 8
  | .fixed64 => fixed 8
  | .sfixed64 => fixed 8
  | .float => fixed 4
  | .fixed32 => fixed 4
  | .sfixed32 => fixed 4
  | .bool => fixed 1
  | .int64 => var
  | .uint64 => var
  | .uint32 => var
  | .enum => var
  | .int32 => var
  | .sint32 => var
  | .sint64 => var
  | .string => str
  | .bytes => str
  | .group => do
    let l ← hmessageSize E rec f.msg x
    pure (l + 2 * key)
  | .message =>
    match f.map with
    | some md => do
      let c ← hmapLen x
      hsumEntries (fun k e => do
        let s ← hmapEntrySize E rec md k e
        pure (s + keySize f.num (protoWireType f.kind) + sizeOfVarint (u64 s))) x 0 c
    | none =>
      if repeated then do
        let c ← hlen x
        hsumElems (fun e => do
          let l ← hmessageSize E rec f.msg e
          pure (key + l + sizeOfVarint (u64 l))) x 0 c
      else do
        let l ← hmessageSize E rec f.msg x
        pure (key + l + sizeOfVarint (u64 l))

/-- `field`, `features/size/size.go:61-276`. -/
def hsizeField (E : Env) (rec : Nat → HV → Prog Nat) (oneof : Bool) (f : FieldDesc) (x : HV) : Prog Nat :=
  let nullable := f.hasMessage || (!oneof && f.presence)
  let repeated := f.card == .repeated
  let key := keySize f.num (if f.packed then 2 else protoWireType f.kind)
  if repeated then do
    let l ← hfieldLen f x
    if l > 0 then hsizeFieldBody E rec oneof f x else pure 0
  else if nullable then
    if !x.isNil then hsizeFieldBody E rec oneof f x
    else if oneof && f.kind == .message && f.map.isNone then pure (key + 1)
    else pure 0
  else hsizeFieldBody E rec oneof f x

/-- The oneof part of `SizeVT`, `features/size/size.go:309-320,338-347`. -/
def hsizeOneof (E : Env) (rec : Nat → HV → Prog Nat) (d : MsgDesc) (slot : Nat) (x : HV) : Prog Nat :=
  match x with
  | .ptr a => do
    match ← hread a with
    | .wrap n y => match d.member slot n with
      | some f => hsizeField E rec true f y
      | none => pure 0
    | _ => Prog.lift (.panic .typeConfusion)
  | _ => pure 0

/-- The loop over the fields of the message `p`, `features/size/size.go:298-322`. -/
def hsizeFields (E : Env) (rec : Nat → HV → Prog Nat) (d : MsgDesc) (p : HV) : List Nat → List FieldDesc → Prog Nat
  | _, [] => pure 0
  | seen, f :: fs =>
    if f.oneof then
      if seen.contains f.slot then hsizeFields E rec d p seen fs
      else do
        let x ← hgetSlot p f.slot
        let a ← hsizeOneof E rec d f.slot x
        let b ← hsizeFields E rec d p (f.slot :: seen) fs
        pure (a + b)
    else do
      let x ← hgetSlot p f.slot
      let a ← hsizeField E rec false f x
      let b ← hsizeFields E rec d p seen fs
      pure (a + b)

/-- `SizeVT` with bounded recursion depth, `features/size/size.go:292-327`. -/
def hsizeN (E : Env) : Nat → Nat → HV → Prog Nat
  | 0, _, _ => Prog.lift .diverge
  | n + 1, t, p =>
    if p.isNil then pure 0
    else do
      let a ← hsizeFields E (hsizeN E n) (E.S.msg t) p [] (E.S.msg t).fields
      if (E.S.msg t).keepUnknown then do
        let u ← hgetUnknown p
        let b ← hbytes u
        pure (a + b.length)
      else pure (a + 0)

/-! ## `MarshalVT` -/

/-- A piece of marshalling code which reads memory; `dAtA` and `i` are variables.
(`features/marshal/marshalto.go:593-682`) -/
abbrev HWriter := WState → Prog WState

namespace HWriter

/-- Code that does not read memory. (`features/marshal/marshalto.go:593-682`) -/
def lift (w : Writer) : HWriter := fun s => Prog.lift (w s)

/-- Sequential composition. (`features/marshal/marshalto.go:593-682`) -/
def seq (w u : HWriter) : HWriter := fun s => do
  let s ← w s
  u s

/-- See `Writer.call`. (`features/marshal/marshalto.go:720-748`) -/
def call (f : Bytes → Prog (Bytes × Nat)) : HWriter := fun s =>
  if 0 ≤ s.i ∧ s.i ≤ s.buf.length then do
    let (b, n) ← f (s.buf.take s.i.toNat)
    pure ⟨b ++ s.buf.drop s.i.toNat, s.i - n⟩
  else Prog.lift (.panic .sliceOutOfRange)

/-- See `Writer.measured`. (`features/marshal/marshalto.go:115-532`) -/
def measured (w : HWriter) : HWriter := fun s => do
  let s' ← w s
  Prog.lift (Writer.varint (u64 (s.i - s'.i).toNat) s')

/-- `for j := len(s) - 1; j >= 0; j--`, for the first `n` elements.
(`features/marshal/marshalto.go:115-532`) -/
def down (g : HV → HWriter) (s : HV) : Nat → HWriter
  | 0 => lift Writer.skip
  | n + 1 => fun st => do
    let x ← hindex s n
    let st ← g x st
    down g s n st

/-- `for k, v := range m`, from the position on, for so many entries.
(`features/marshal/marshalto.go:83-113`) -/
def entries (g : Key → HV → HWriter) (m : HV) : Nat → Nat → HWriter
  | _, 0 => lift Writer.skip
  | i, n + 1 => fun st => do
    let (k, x) ← hentryAt m i
    let st ← g k x st
    entries g m (i + 1) n st

/-- A sequence of statements. (`features/marshal/marshalto.go:624-682`) -/
def each {α : Type} (f : α → HWriter) : List α → HWriter
  | [] => lift Writer.skip
  | a :: as => seq (f a) (each f as)

end HWriter

open HWriter (lift seq)

/-- See `marshalScalar`, `features/marshal/marshalto.go:83-109,137-359,410-518`. -/
def hmarshalScalar (k : Kind) (x : HV) : HWriter := fun s =>
  if k = .string ∨ k = .bytes then do
    let b ← hbytes x
    Prog.lift (marshalScalar k (.str b) s)
  else Prog.lift (marshalScalar k (.num x.bits) s)

/-- The numbers of a list, each as it is written, `features/marshal/marshalto.go:202-208`. -/
def hnums (k : Kind) (s : HV) : Nat → Nat → Prog (List (BitVec 64))
  | _, 0 => pure []
  | i, n + 1 => do
    let x ← hindex s i
    let l ← hnums k s (i + 1) n
    pure (wireVarint k (.num x.bits) :: l)

/-- `MarshalToSizedBufferVT` of messages of a type: bytes written to, and how many.
(`features/marshal/marshalto.go:720-748`) -/
abbrev HSubMarshal := Nat → HV → Bytes → Prog (Bytes × Nat)

/-- `marshalBackward` without the length, `features/marshal/marshalto.go:720-748`. -/
def hmarshalSub (E : Env) (rec : HSubMarshal) (t : Nat) (x : HV) : HWriter :=
  if (E.S.msg t).foreign then fun s => do
    let v ← hforeign x
    Prog.lift (marshalSub E (fun _ _ _ => .panic .typeConfusion) t v s)
  else HWriter.call (rec t x)

/-- One iteration of the map loop, `features/marshal/marshalto.go:382-400`. -/
def hmarshalEntry (E : Env) (rec : HSubMarshal) (num wireType : Nat) (md : MapDesc) (k : Key) (x : HV) : HWriter :=
  let value : HWriter := if md.val = .message then HWriter.measured (hmarshalSub E rec md.valMsg x) else hmarshalScalar md.val x
  seq (HWriter.measured
    (seq value (seq (lift (Writer.key 2 (protoWireType md.val)))
      (seq (lift (marshalScalar md.key k.toVal)) (lift (Writer.key 1 (protoWireType md.key)))))))
    (lift (Writer.key num wireType))

/-- The part of `field` inside the outer `if`, `features/marshal/marshalto.go:136-521`; see `marshalFieldBody`. -/
def hmarshalFieldBody (E : Env) (rec : HSubMarshal) (oneof : Bool) (f : FieldDesc) (x : HV) : HWriter :=
  let repeated := f.card == .repeated
  let wireType := if f.packed then 2 else protoWireType f.kind
  let elem (y : HV) : HWriter := seq (hmarshalScalar f.kind y) (lift (Writer.key f.num wireType))
  let single : HWriter := fun s => do
    match ← hpresent oneof f x with
    | some y => elem y s
    | none => lift Writer.skip s
  let all : HWriter := fun s => do
    let c ← hlen x
    HWriter.down elem x c s
  let fixed (n : Nat) : HWriter :=
    if f.packed then fun s => do
      let c ← hlen x
      seq (HWriter.down (hmarshalScalar f.kind) x c) (seq (lift (Writer.varint (u64 (c * n)))) (lift (Writer.key f.num wireType))) s
    else if repeated then all
    else single
  let var : HWriter :=
    if f.packed then fun s => do
      let c ← hlen x
      let total ← hsumElems (hsizeScalar f.kind) x 0 c
      let ns ← hnums f.kind x 0 c
      Prog.lift (do
        let buf ← packedVarints ns s.buf (s.i - total)
        Writer.seq (Writer.varint (u64 total)) (Writer.key f.num wireType) ⟨buf, s.i - total⟩)
    else if repeated then all
    else single
  let str : HWriter := if repeated then all else single
  match f.kind with
  | .double => fixed 8
  | .fixed64 => fixed 8
  | .sfixed64 => fixed 8
  | .float => fixed 4
  | .fixed32 => fixed 4
  | .sfixed32 => fixed 4
  | .bool => fixed 1
  | .int64 => var
  | .uint64 => var
  | .uint32 => var
  | .enum => var
  | .int32 => var
  | .sint32 => var
  | .sint64 => var
  | .string => str
  | .bytes => str
  | .group => seq (lift (Writer.key f.num 4)) (seq (hmarshalSub E rec f.msg x) (lift (Writer.key f.num 3)))
  | .message =>
    match f.map with
    | some md => fun s => do
      let c ← hmapLen x
      HWriter.entries (hmarshalEntry E rec f.num wireType md) x 0 c s
    | none =>
      let sub (y : HV) : HWriter := seq (HWriter.measured (hmarshalSub E rec f.msg y)) (lift (Writer.key f.num wireType))
      if repeated then fun s => do
        let c ← hlen x
        HWriter.down sub x c s
      else sub x

/-- `field`, `features/marshal/marshalto.go:115-532`. -/
def hmarshalField (E : Env) (rec : HSubMarshal) (oneof : Bool) (f : FieldDesc) (x : HV) : HWriter :=
  let nullable := f.hasMessage || (!oneof && f.presence)
  let repeated := f.card == .repeated
  let wireType := if f.packed then 2 else protoWireType f.kind
  if repeated then fun s => do
    let l ← hfieldLen f x
    if l > 0 then hmarshalFieldBody E rec oneof f x s else lift Writer.skip s
  else if nullable then
    if f.card == .required then
      if x.isNil then lift (Writer.fail (.requiredNotSet f.num)) else hmarshalFieldBody E rec oneof f x
    else if !x.isNil then hmarshalFieldBody E rec oneof f x
    else if oneof && f.kind == .message && f.map.isNone then lift (Writer.seq (Writer.varint 0) (Writer.key f.num wireType))
    else lift Writer.skip
  else hmarshalFieldBody E rec oneof f x

/-- See `runSized`, `features/marshal/marshalto.go:696-700`. -/
def hrunSized (w : HWriter) (buf : Bytes) : Prog (Bytes × Nat) := do
  let s ← w ⟨buf, buf.length⟩
  pure (s.buf, (buf.length - s.i).toNat)

/-- Dispatch on a oneof's dynamic type, `features/marshal/marshalto.go:655-668`. -/
def hmarshalOneof (E : Env) (rec : HSubMarshal) (d : MsgDesc) (slot : Nat) (x : HV) : HWriter :=
  match x with
  | .ptr a => fun s => do
    match ← hread a with
    | .wrap n y => match d.member slot n with
      | some f => HWriter.call (hrunSized (hmarshalField E rec true f y)) s
      | none => lift Writer.skip s
    | _ => Prog.lift (.panic .typeConfusion)
  | .wrapNil _ => HWriter.call fun _ => Prog.lift (.panic .nilDeref)
  | _ => lift Writer.skip

/-- One field in strict mode of the message `p`, `features/marshal/marshalto.go:625-640`. -/
def hmarshalStrictField (E : Env) (rec : HSubMarshal) (p : HV) (f : FieldDesc) : HWriter := fun s => do
  let x ← hgetSlot p f.slot
  if f.oneof then
    match x with
    | .ptr a => do
      match ← hread a with
      | .wrap n y => if n == f.num then HWriter.call (hrunSized (hmarshalField E rec true f y)) s else lift Writer.skip s
      | _ => Prog.lift (.panic .typeConfusion)
    | .wrapNil n => if n == f.num then HWriter.call (fun _ => Prog.lift (.panic .nilDeref)) s else lift Writer.skip s
    | _ => lift Writer.skip s
  else hmarshalField E rec false f x s

/-- The loop over oneofs, `features/marshal/marshalto.go:645-670`. -/
def hmarshalOneofs (E : Env) (rec : HSubMarshal) (d : MsgDesc) (p : HV) : List Nat → List FieldDesc → HWriter
  | _, [] => lift Writer.skip
  | seen, f :: fs =>
    if f.oneof then
      if seen.contains f.slot then hmarshalOneofs E rec d p seen fs
      else seq (fun s => do
        let x ← hgetSlot p f.slot
        hmarshalOneof E rec d f.slot x s) (hmarshalOneofs E rec d p (f.slot :: seen) fs)
    else hmarshalOneofs E rec d p seen fs

/-- A field that is not in a oneof, after the oneofs, `features/marshal/marshalto.go:671-675`. -/
def hmarshalOther (E : Env) (rec : HSubMarshal) (p : HV) (f : FieldDesc) : HWriter :=
  if f.oneof then lift Writer.skip else fun s => do
    let x ← hgetSlot p f.slot
    hmarshalField E rec false f x s

/-- Body of `MarshalToSizedBufferVT[Strict]` on a non-nil message, `features/marshal/marshalto.go:597-679`. -/
def hmarshalBody (E : Env) (rec : HSubMarshal) (strict : Bool) (d : MsgDesc) (p : HV) : HWriter :=
  let fs := (sortFields d.fields).reverse
  seq (if d.keepUnknown then fun s => do
      let u ← hgetUnknown p
      let b ← hbytes u
      lift (Writer.copy b) s
    else lift Writer.skip)
    (if strict then HWriter.each (hmarshalStrictField E rec p) fs
     else seq (hmarshalOneofs E rec d p [] fs) (HWriter.each (hmarshalOther E rec p) fs))

/-- `MarshalToSizedBufferVT[Strict]` with bounded recursion depth, `features/marshal/marshalto.go:593-682`. -/
def hmarshalToSizedN (E : Env) (strict : Bool) : Nat → HSubMarshal
  | 0, _, _, _ => Prog.lift .diverge
  | n + 1, t, p, buf => if p.isNil then pure (buf, 0) else hrunSized (hmarshalBody E (hmarshalToSizedN E strict n) strict (E.S.msg t) p) buf

/-- `MarshalVT[Strict]`, `features/marshal/marshalto.go:575-586`; `none` is the nil slice. -/
def hmarshalVT (E : Env) (strict : Bool) (n t : Nat) (p : HV) : Prog (Option Bytes) :=
  if p.isNil then pure none
  else do
    let size ← hsizeN E n t p
    let (b, c) ← hmarshalToSizedN E strict n t p (List.replicate size 0)
    if c ≤ b.length then pure (some (b.take c)) else Prog.lift (.panic .sliceOutOfRange)

/-! ## `EqualVT` -/

/-- A message: one in memory, or one that the method has made itself by `&T{}` and that nobody else knows, `features/equal/equal.go:264-272`. -/
inductive Src where
  | at (x : HV)
  | fresh

/-- `p == nil` (`features/equal/equal.go:59-63`) -/
def Src.isNil : Src → Bool
  | .at x => x.isNil
  | .fresh => false

/-- Go's `p == q` on pointers. (`features/equal/equal.go:59-63,263`) -/
def HV.same : HV → HV → Bool
  | .nil, .nil => true
  | .ptr a, .ptr b => a == b
  | _, _ => false

/-- Go's `p == q` on pointers to messages. (`features/equal/equal.go:59-63,263`) -/
def Src.same : Src → Src → Bool
  | .at x, .at y => HV.same x y
  | _, _ => false

/-- Comparison of messages. (`features/equal/equal.go:258-293`) -/
abbrev HSubEq := Nat → Src → Src → Prog Bool

/-- `p.F` of the struct field in `slot`. (`features/equal/equal.go:190-235`) -/
def Src.slot (S : Schema) (t : Nat) (p : Src) (slot : Nat) : Prog HV :=
  match p with
  | .at x => hgetSlot x slot
  | .fresh => pure (match hzeroCell S t with
    | .msg s _ _ => s.getD slot .nil
    | _ => .nil)

/-- `p.unknownFields`. (`features/equal/equal.go:116-120`) -/
def Src.unknown (p : Src) : Prog Bytes :=
  match p with
  | .at x => do
    let u ← hgetUnknown x
    hbytes u
  | .fresh => pure []

/-- A foreign message. (`features/equal/equal.go:284-291`) -/
def Src.foreign (S : Schema) (t : Nat) (p : Src) : Prog Val :=
  match p with
  | .at x => hforeign x
  | .fresh => pure (zeroMsg S t)

/-- Go's `x == y` on scalars of a kind, `features/equal/equal.go:241`. -/
def hscalarEq (k : Kind) (x y : HV) : Prog Bool :=
  if k = .string then do
    let b ← hbytes x
    let c ← hbytes y
    pure (scalarEq k (.str b) (.str c))
  else pure (scalarEq k (.num x.bits) (.num y.bits))

/-- `compareScalar`, `features/equal/equal.go:237-245`. -/
def hcompareScalar (nullable : Bool) (k : Kind) (x y : HV) : Prog Bool :=
  if nullable then
    if x.isNil && !y.isNil then pure false
    else if !x.isNil then
      if y.isNil then pure false
      else do
        let p ← hderef x
        let q ← hderef y
        hscalarEq k p q
    else pure true
  else hscalarEq k x y

/-- `compareBytes`, `features/equal/equal.go:247-256`. -/
def hcompareBytes (nullable : Bool) (x y : HV) : Prog Bool := do
  let b ← hbytes x
  let c ← hbytes y
  pure (if nullable then !((x.isNil && !y.isNil) || (!x.isNil && y.isNil) || b != c) else b == c)

/-- The `switch` of `compareCall`, `features/equal/equal.go:274-292`. -/
def hcallEqual (C : CEnv) (rec : HSubEq) (t : Nat) (p q : Src) : Prog Bool :=
  if (C.S.msg t).foreign then do
    let v ← p.foreign C.S t
    let w ← q.foreign C.S t
    pure (C.R.equal t v w)
  else rec t p q

/-- `compareCall`, `features/equal/equal.go:258-293`. -/
def hcompareCall (C : CEnv) (rec : HSubEq) (nullable : Bool) (t : Nat) (x y : HV) : Prog Bool :=
  if nullable then hcallEqual C rec t (.at x) (.at y)
  else if HV.same x y then pure true
  else hcallEqual C rec t (if x.isNil then .fresh else .at x) (if y.isNil then .fresh else .at y)

/-- The `switch` on the kind, `features/equal/equal.go:217-229,175-184`. -/
def hcompareKind (C : CEnv) (rec : HSubEq) (nullable : Bool) (k : Kind) (t : Nat) (x y : HV) : Prog Bool :=
  match k with
  | .bytes => hcompareBytes nullable x y
  | .message => hcompareCall C rec nullable t x y
  | .group => hcompareCall C rec nullable t x y
  | k => hcompareScalar nullable k x y

/-- A loop whose body returns false or goes on. (`features/equal/equal.go:197-214`) -/
def hallIdx (g : Nat → Prog Bool) : Nat → Nat → Prog Bool
  | _, 0 => pure true
  | i, n + 1 => do
    let b ← g i
    if b then hallIdx g (i + 1) n else pure false

/-- A sequence of statements each of which returns false or goes on.
(`features/equal/equal.go:69-114`) -/
def hallOf {α : Type} (g : α → Prog Bool) : List α → Prog Bool
  | [] => pure true
  | a :: as => do
    let b ← g a
    if b then hallOf g as else pure false

/-- `m[k]` with the `ok` result. (`features/equal/equal.go:202-208`) -/
def hmapGet (m : HV) (k : Key) : Prog (Option HV) :=
  match m with
  | .nil => pure none
  | .ptr a => do
    match ← hread a with
    | .map es => pure ((es.find? fun e => decide (e.1 = k)).map (·.2))
    | _ => Prog.lift (.panic .typeConfusion)
  | _ => Prog.lift (.panic .typeConfusion)

/-- `field`, `features/equal/equal.go:190-235`. -/
def hcompareField (C : CEnv) (rec : HSubEq) (f : FieldDesc) (nullable : Bool) (x y : HV) : Prog Bool :=
  if f.card == .repeated then do
    let l ← hfieldLen f x
    let l' ← hfieldLen f y
    if l ≠ l' then pure false
    else match f.map with
      | some md => hallIdx (fun i => do
          let (k, v) ← hentryAt x i
          match ← hmapGet y k with
          | none => pure false
          | some w => hcompareKind C rec false md.val md.valMsg v w) 0 l
      | none => hallIdx (fun i => do
          let v ← hindex x i
          let w ← hindex y i
          hcompareKind C rec false f.kind f.msg v w) 0 l
  else hcompareKind C rec nullable f.kind f.msg x y

/-- The wrapper's `EqualVT`, `features/equal/equal.go:143-188`, `f` being its member. -/
def hwrapperEqual (C : CEnv) (rec : HSubEq) (f : FieldDesc) (x y : HV) : Prog Bool :=
  match x, y with
  | .ptr a, .ptr b => do
    match ← hread b with
    | .wrap n w =>
      if n ≠ f.num then pure false
      else if a = b then pure true
      else do
        match ← hread a with
        | .wrap _ v => hcompareKind C rec false f.kind f.msg v w
        | _ => Prog.lift (.panic .typeConfusion)
    | _ => Prog.lift (.panic .typeConfusion)
  | .ptr _, .wrapNil _ => pure false
  | .wrapNil _, .ptr _ => pure false
  | .wrapNil _, .wrapNil n => pure (n == f.num)
  | _, _ => Prog.lift (.panic .typeConfusion)

/-- The dynamic type of a oneof's interface: the number of the member.
(`features/equal/equal.go:83-105,153-164`) -/
def hmemberOf (x : HV) : Prog Nat :=
  match x with
  | .wrapNil n => pure n
  | .ptr a => do
    match ← hread a with
    | .wrap n _ => pure n
    | _ => Prog.lift (.panic .typeConfusion)
  | _ => Prog.lift (.panic .typeConfusion)

/-- The block for a oneof, `features/equal/equal.go:83-104`. -/
def hcompareOneof (C : CEnv) (rec : HSubEq) (d : MsgDesc) (slot : Nat) (x y : HV) : Prog Bool :=
  if x.isNil && !y.isNil then pure false
  else if !x.isNil then
    if y.isNil then pure false
    else do
      let n ← hmemberOf x
      match d.member slot n with
      | some f => hwrapperEqual C rec f x y
      | none => Prog.lift (.panic .typeAssertion)
  else pure true

/-- `EqualVT` after the nil tests, `features/equal/equal.go:65-120`. -/
def hequalBody (C : CEnv) (rec : HSubEq) (t : Nat) (p q : Src) : Prog Bool := do
  let d := C.S.msg t
  let fs := sortFields d.fields
  let b ← hallOf (fun f => do
    let x ← p.slot C.S t f.slot
    let y ← q.slot C.S t f.slot
    hcompareOneof C rec d f.slot x y) (oneofFirst [] fs)
  if b then do
    let b ← hallOf (fun f => do
      let x ← p.slot C.S t f.slot
      let y ← q.slot C.S t f.slot
      hcompareField C rec f (d.nullable f) x y) (fs.filter fun f => !f.oneof)
    if b then
      if d.keepUnknown then do
        let u ← p.unknown
        let u' ← q.unknown
        pure (u == u')
      else pure true
    else pure false
  else pure false

/-- `EqualVT` with bounded recursion depth, `features/equal/equal.go:57-121`. -/
def hequalN (C : CEnv) : Nat → HSubEq
  | 0, _, _, _ => Prog.lift .diverge
  | n + 1, t, p, q =>
    if p.same q then pure true
    else if p.isNil || q.isNil then pure false
    else hequalBody C (hequalN C n) t p q

end Vtp.Conc
