import Verif.Model.Size
/-!
# `MarshalVT`, `MarshalToVT`, `MarshalToSizedBufferVT` and the strict variants:
`features/marshal/marshalto.go`

The emitted code writes backwards: `i` is the index of the first byte written so far.
`Stable` is false in both registered features (`features/marshal/marshalto.go:22,25`), so the
branches on it are not modelled.
-/

namespace Vtp

/-- The variables `dAtA` and `i` of the emitted code. (`features/marshal/marshalto.go:593-600`) -/
structure WState where
  buf : Bytes
  i : Int
  deriving DecidableEq, Repr

/-- A piece of emitted marshalling code. (`features/marshal/marshalto.go:593-682`) -/
abbrev Writer := WState → Res WState

namespace Writer

/-- No code. (`features/marshal/marshalto.go:593-682`) -/
def skip : Writer := fun s => .ok s

/-- `return 0, err`. (`features/marshal/marshalto.go:618-620`) -/
def fail (e : Err) : Writer := fun _ => .err e

/-- Sequential composition. (`features/marshal/marshalto.go:593-682`) -/
def seq (w u : Writer) : Writer := fun s => w s >>= fun s => u s

/-- A loop, or a sequence of statements, over a list. (`features/marshal/marshalto.go:593-682`) -/
def each {α : Type} (f : α → Writer) : List α → Writer
  | [] => skip
  | a :: as => seq (f a) (each f as)

/-- `i--; dAtA[i] = b`. (`features/marshal/marshalto.go:68-81`) -/
def byte (b : UInt8) : Writer := fun s => do
  let buf ← putByte s.buf (s.i - 1) b
  .ok ⟨buf, s.i - 1⟩

/-- `encodeKey`, `features/marshal/marshalto.go:68-81`: the key bytes, last one first. -/
def key (num wt : Nat) : Writer := each byte (keyBuf num wt).reverse

/-- `encodeVarint`, `features/marshal/marshalto.go:64-66`. -/
def varint (v : BitVec 64) : Writer := fun s => do
  let (buf, i) ← encodeVarint s.buf s.i v
  .ok ⟨buf, i⟩

/-- `encodeFixed64`, `encodeFixed32`, `features/marshal/marshalto.go:54-62`, for `n` = 8, 4:
`i -= n; binary.LittleEndian.PutUintN(dAtA[i:], v)`. The slice expression panics if `i` is out of
range, `PutUintN` if fewer than `n` bytes follow. -/
def fixed (n : Nat) (v : BitVec 64) : Writer := fun s =>
  let i := s.i - n
  if 0 ≤ i ∧ i ≤ s.buf.length then
    if i + n ≤ s.buf.length then
      .ok ⟨s.buf.take i.toNat ++ leBytes n v.toNat ++ s.buf.drop (i.toNat + n), i⟩
    else .panic .indexOutOfRange
  else .panic .sliceOutOfRange

/-- `i -= len(b); copy(dAtA[i:], b)`, e.g. `features/marshal/marshalto.go:103-104`. `copy` moves as
many bytes as fit. -/
def copy (b : Bytes) : Writer := fun s =>
  let i := s.i - b.length
  if 0 ≤ i ∧ i ≤ s.buf.length then
    .ok ⟨s.buf.take i.toNat ++ b.take (s.buf.length - i.toNat) ++ s.buf.drop (i.toNat + b.length), i⟩
  else .panic .sliceOutOfRange

/-- `size, err := x.MarshalToSizedBufferVT(dAtA[:i]); ...; i -= size`,
`features/marshal/marshalto.go:613-622,710-718,727`. The callee works on the first `i` bytes. -/
def call (f : Bytes → Res (Bytes × Nat)) : Writer := fun s =>
  if 0 ≤ s.i ∧ s.i ≤ s.buf.length then do
    let (b, n) ← f (s.buf.take s.i.toNat)
    .ok ⟨b ++ s.buf.drop s.i.toNat, s.i - n⟩
  else .panic .sliceOutOfRange

/-- A writer followed by the varint of how many bytes it moved `i` by:
`baseI := i; ...; encodeVarint(baseI - i)`, `features/marshal/marshalto.go:390-398`; also
`encodeVarint(size)` after a call, `710-718`. -/
def measured (w : Writer) : Writer := fun s => do
  let s' ← w s
  varint (u64 (s.i - s'.i).toNat) s'

end Writer

open Writer

/-- The inner loop writing one packed varint forwards at `j`, `features/marshal/marshalto.go:209-215`
(also 446-452, 490-496); gives the new `j`. -/
def packedVarintLoop : Nat → Bytes → Int → BitVec 64 → Res (Bytes × Int)
  | 0, _, _, _ => .diverge
  | n + 1, buf, j, v =>
    if v.toNat ≥ 2 ^ 7 then do
      let buf ← putByte buf j (UInt8.ofBitVec ((v &&& 0x7f ||| 0x80).setWidth 8))
      packedVarintLoop n buf (j + 1) (v >>> 7)
    else do
      let buf ← putByte buf j (UInt8.ofBitVec (v.setWidth 8))
      .ok (buf, j + 1)

/-- The loop over the elements of a packed varint field, `features/marshal/marshalto.go:202-216`. -/
def packedVarints : List (BitVec 64) → Bytes → Int → Res Bytes
  | [], buf, _ => .ok buf
  | v :: vs, buf, j => do
    let (buf, j) ← packedVarintLoop 10 buf j v
    packedVarints vs buf j

/-- The integer written for a varint-encoded kind: the argument of `encodeVarint` at
`features/marshal/marshalto.go:90,107,109,222,459,503` and so on. -/
def wireVarint (k : Kind) (v : Val) : BitVec 64 :=
  match k with
  | .sint32 => (zigzag32 (v.bits.setWidth 32)).setWidth 64
  | .sint64 => zigzag64 v.bits
  | _ => v.bits

/-- The code writing one scalar before its key: `mapField`, `features/marshal/marshalto.go:83-109`, and
the same code in each branch of `field`, `137-359,410-518`. -/
def marshalScalar (k : Kind) (v : Val) : Writer :=
  match k with
  | .double => fixed 8 v.bits
  | .fixed64 => fixed 8 v.bits
  | .sfixed64 => fixed 8 v.bits
  | .float => fixed 4 v.bits
  | .fixed32 => fixed 4 v.bits
  | .sfixed32 => fixed 4 v.bits
  | .bool => byte (if v.bits != 0 then 1 else 0)
  | .string => seq (copy v.bytes) (varint (u64 v.bytes.length))
  | .bytes => seq (copy v.bytes) (varint (u64 v.bytes.length))
  | .message => Writer.skip
  | .group => Writer.skip
  | k => varint (wireVarint k v)

/-- `marshalBackward` without the length, `features/marshal/marshalto.go:720-748`. -/
def marshalSub (E : Env) (rec : Nat → Val → Bytes → Res (Bytes × Nat)) (t : Nat) (v : Val) : Writer :=
  if (E.S.msg t).foreign then
    match E.R.marshal t v with
    | some b => copy b
    | none => fail .foreign
  else call (rec t v)

/-- One iteration of the map loop, `features/marshal/marshalto.go:382-400`. -/
def marshalEntry (E : Env) (rec : Nat → Val → Bytes → Res (Bytes × Nat)) (num wireType : Nat) (md : MapDesc)
    (e : Key × Val) : Writer :=
  let value : Writer := match md.val with
    | .message => measured (marshalSub E rec md.valMsg e.2)
    | k => marshalScalar k e.2
  seq (measured
    (seq value (seq (key 2 (protoWireType md.val))
      (seq (marshalScalar md.key e.1.toVal) (key 1 (protoWireType md.key))))))
    (key num wireType)

/-- The part of `field` inside the outer `if`, `features/marshal/marshalto.go:136-521`. -/
def marshalFieldBody (E : Env) (rec : Nat → Val → Bytes → Res (Bytes × Nat)) (oneof : Bool) (f : FieldDesc)
    (v : Val) : Writer :=
  let nullable := f.hasMessage || (!oneof && f.presence)
  let repeated := f.card == .repeated
  let wireType := if f.packed then 2 else protoWireType f.kind
  let elem (x : Val) : Writer := seq (marshalScalar f.kind x) (key f.num wireType)
  let single : Writer := if !oneof && !nullable && isZeroVal f.kind v then Writer.skip else elem v
  -- lines 137-188, 237-333
  let fixed (n : Nat) : Writer :=
    if f.packed then
      seq (each (marshalScalar f.kind) v.elems.reverse) (seq (varint (u64 (v.elems.length * n))) (key f.num wireType))
    else if repeated then each elem v.elems.reverse
    else single
  -- lines 189-236, 431-518
  let var : Writer :=
    if f.packed then fun s =>
      let total := (v.elems.map (sizeScalar f.kind)).sum
      let i := s.i - total
      do
        let buf ← packedVarints (v.elems.map (wireVarint f.kind)) s.buf i
        seq (varint (u64 total)) (key f.num wireType) ⟨buf, i⟩
    else if repeated then each elem v.elems.reverse
    else single
  -- lines 334-359, 410-430
  let str : Writer := if repeated then each elem v.elems.reverse else single
  match f.kind with
  | .double => fixed 8
  | .fixed64 => fixed 8
  | .sfixed64 => fixed 8
  | .float => fixed 4
  | .fixed32 => fixed 4
  | .sfixed32 => fixed 4
  | .bool => fixed 1
  | .int64 => var
  | .uint64 => var
  | .uint32 => var
  | .enum => var
  | .int32 => var
  | .sint32 => var
  | .sint64 => var
  | .string => str
  | .bytes => str
  | .group => seq (key f.num 4) (seq (marshalSub E rec f.msg v) (key f.num 3))
  | .message =>
    match f.map with
    | some md => each (marshalEntry E rec f.num wireType md) v.entries
    | none =>
      let sub (x : Val) : Writer := seq (measured (marshalSub E rec f.msg x)) (key f.num wireType)
      if repeated then each sub v.elems.reverse else sub v

/-- `field`, `features/marshal/marshalto.go:115-532`, with its guards (119-129) and the `else` for an
empty message in a oneof (524-528). -/
def marshalField (E : Env) (rec : Nat → Val → Bytes → Res (Bytes × Nat)) (oneof : Bool) (f : FieldDesc)
    (v : Val) : Writer :=
  let nullable := f.hasMessage || (!oneof && f.presence)
  let repeated := f.card == .repeated
  let wireType := if f.packed then 2 else protoWireType f.kind
  if repeated then (if f.len v > 0 then marshalFieldBody E rec oneof f v else Writer.skip)
  else if nullable then
    if f.card == .required then
      if v.isNil then fail (.requiredNotSet f.num) else marshalFieldBody E rec oneof f v
    else if !v.isNil then marshalFieldBody E rec oneof f v
    else if oneof && f.kind == .message && f.map.isNone then seq (varint 0) (key f.num wireType)
    else Writer.skip
  else marshalFieldBody E rec oneof f v

/-- A wrapper's `MarshalToSizedBufferVT`, `features/marshal/marshalto.go:696-700`: a local `i`
starting at `len(dAtA)`, result `len(dAtA) - i`. -/
def runSized (w : Writer) (buf : Bytes) : Res (Bytes × Nat) := do
  let s ← w ⟨buf, buf.length⟩
  .ok (s.buf, (buf.length - s.i).toNat)

/-- Dispatch on a oneof's dynamic type, `features/marshal/marshalto.go:655-668`. A typed nil wrapper
is dereferenced by the wrapper's method. -/
def marshalOneof (E : Env) (rec : Nat → Val → Bytes → Res (Bytes × Nat)) (d : MsgDesc) (slot : Nat) (v : Val) : Writer :=
  match v with
  | .wrap n x => match d.member slot n with
    | some f => call (runSized (marshalField E rec true f x))
    | none => Writer.skip
  | .wrapNil _ => call fun _ => .panic .nilDeref
  | _ => Writer.skip

/-- One field in strict mode, `features/marshal/marshalto.go:625-640`. -/
def marshalStrictField (E : Env) (rec : Nat → Val → Bytes → Res (Bytes × Nat)) (slots : List Val)
    (f : FieldDesc) : Writer :=
  if f.oneof then
    match slotOf slots f with
    | .wrap n x => if n == f.num then call (runSized (marshalField E rec true f x)) else Writer.skip
    | .wrapNil n => if n == f.num then call (fun _ => .panic .nilDeref) else Writer.skip
    | _ => Writer.skip
  else marshalField E rec false f (slotOf slots f)

/-- The loop over oneofs, `features/marshal/marshalto.go:645-670`, over the fields in descending order;
`seen` are the oneofs done. -/
def marshalOneofs (E : Env) (rec : Nat → Val → Bytes → Res (Bytes × Nat)) (d : MsgDesc) (slots : List Val) :
    List Nat → List FieldDesc → Writer
  | _, [] => Writer.skip
  | seen, f :: fs =>
    if f.oneof then
      if seen.contains f.slot then marshalOneofs E rec d slots seen fs
      else seq (marshalOneof E rec d f.slot (slotOf slots f)) (marshalOneofs E rec d slots (f.slot :: seen) fs)
    else marshalOneofs E rec d slots seen fs

/-- `sort.Slice(message.Fields, ...)`, `features/marshal/marshalto.go:609-611`. -/
def sortFields (fs : List FieldDesc) : List FieldDesc := fs.insertionSort (fun a b => a.num ≤ b.num)

/-- Body of `MarshalToSizedBufferVT[Strict]` on a non-nil message, `features/marshal/marshalto.go:597-679`. -/
def marshalBody (E : Env) (rec : Nat → Val → Bytes → Res (Bytes × Nat)) (strict : Bool) (d : MsgDesc)
    (slots : List Val) (unk : Bytes) : Writer :=
  let fs := (sortFields d.fields).reverse
  seq (if d.keepUnknown then copy unk else Writer.skip)
    (if strict then each (marshalStrictField E rec slots) fs
     else seq (marshalOneofs E rec d slots [] fs)
       (each (fun f => if f.oneof then Writer.skip else marshalField E rec false f (slotOf slots f)) fs))

/-- `MarshalToSizedBufferVT` (`strict = false`) and `MarshalToSizedBufferVTStrict` with bounded
recursion depth, `features/marshal/marshalto.go:593-682`. Gives the buffer afterwards and the count. -/
def marshalToSizedN (E : Env) (strict : Bool) : Nat → Nat → Val → Bytes → Res (Bytes × Nat)
  | 0, _, _, buf => .ok (buf, 0)
  | n + 1, t, v, buf =>
    match v with
    | .msg slots unk _ => runSized (marshalBody E (marshalToSizedN E strict n) strict (E.S.msg t) slots unk) buf
    | _ => .ok (buf, 0)

/-- `MarshalToSizedBufferVT[Strict]`, `features/marshal/marshalto.go:593-682`. -/
def marshalToSized (E : Env) (strict : Bool) (t : Nat) (v : Val) (buf : Bytes) : Res (Bytes × Nat) :=
  marshalToSizedN E strict v.depth t v buf

/-- `MarshalToVT[Strict]`, `features/marshal/marshalto.go:588-591`. `arr` is the buffer up to its
capacity: the slice expression `dAtA[:size]` reaches up to `cap(dAtA)`, the length plays no part. -/
def marshalTo (E : Env) (strict : Bool) (t : Nat) (v : Val) (arr : Bytes) : Res (Bytes × Nat) :=
  let size := sizeVT E t v
  if size ≤ arr.length then do
    let (b, n) ← marshalToSized E strict t v (arr.take size)
    .ok (b ++ arr.drop size, n)
  else .panic .sliceOutOfRange

/-- `MarshalVT[Strict]`, `features/marshal/marshalto.go:575-586`; `none` is the nil slice. -/
def marshalVT (E : Env) (strict : Bool) (t : Nat) (v : Val) : Res (Option Bytes) :=
  match v with
  | .msg _ _ _ => do
    let size := sizeVT E t v
    let (b, n) ← marshalToSized E strict t v (List.replicate size 0)
    if n ≤ b.length then .ok (some (b.take n)) else .panic .sliceOutOfRange
  | _ => .ok none

end Vtp
