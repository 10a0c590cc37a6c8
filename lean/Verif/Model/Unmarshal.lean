import Verif.Model.Size
/-!
# The generated `UnmarshalVT` and `UnmarshalVTUnsafe`, `features/unmarshal/unmarshal.go`

The receiver is a state: a decode that fails leaves the fields it has already set.
-/

namespace Vtp

/-- What the decoder depends on. `aliasing` selects `UnmarshalVTUnsafe`
(`features/unmarshal/unmarshal.go:22-36,49-54`). The last two fields describe the world around the call:

* `later`: contents of the caller's input buffer at the time the message is looked at. Values which
  alias the buffer are given that content. With `aliasing = false` it is not used.
* `alloc off t`: the message the pool hands out for type `t` when asked at offset `off` of the input. -/
structure UEnv where
  S : Schema
  R : Runtime
  A : Arch
  aliasing : Bool := false
  later : Bytes := []
  alloc : Nat → Nat → Val

/-- A piece of `UnmarshalVT`: from the receiver to the receiver afterwards and the outcome.
Go semantics, as used by the code at `features/unmarshal/unmarshal.go:797-892`. -/
def UM (α : Type) : Type := Val → Val × Res α

namespace UM

/-- Sequencing: `return err` and panics leave the function.
Go semantics, as used by the code at `features/unmarshal/unmarshal.go:797-892`. -/
def bind {α β : Type} (x : UM α) (f : α → UM β) : UM β := fun m =>
  match x m with
  | (m', .ok a) => f a m'
  | (m', .err e) => (m', .err e)
  | (m', .panic p) => (m', .panic p)
  | (m', .diverge) => (m', .diverge)

instance : Monad UM where
  pure a := fun m => (m, .ok a)
  bind := UM.bind

/-- Code that does not touch the receiver.
Go semantics, as used by the code at `features/unmarshal/unmarshal.go:797-892`. -/
def lift {α : Type} (r : Res α) : UM α := fun m => (m, r)

end UM

/-- Reading the struct field in `slot` of the receiver; nil receivers panic.
Go semantics, as used by the code at `features/unmarshal/unmarshal.go:286-714`. -/
def getSlot (slot : Nat) : UM Val := fun m =>
  match m with
  | .msg s _ _ => (m, .ok (s.getD slot .nil))
  | .nil => (m, .panic .nilDeref)
  | _ => (m, .panic .typeConfusion)

/-- Assigning to the struct field in `slot` of the receiver; nil receivers panic.
Go semantics, as used by the code at `features/unmarshal/unmarshal.go:286-714`. -/
def setSlot (slot : Nat) (v : Val) : UM Unit := fun m =>
  match m with
  | .msg s u e => (.msg (s.set slot v) u e, .ok ())
  | .nil => (m, .panic .nilDeref)
  | _ => (m, .panic .typeConfusion)

/-- `m.unknownFields = append(m.unknownFields, b...)`, `features/unmarshal/unmarshal.go:860`. -/
def appendUnknown (b : Bytes) : UM Unit := fun m =>
  match m with
  | .msg s u e => (.msg s (u ++ b) e, .ok ())
  | .nil => (m, .panic .nilDeref)
  | _ => (m, .panic .typeConfusion)

/-- Go's zero value of a scalar kind.
Go semantics, as used by the code at `features/unmarshal/unmarshal.go:504,570` and
`generator/generatedfile.go:67-108`. -/
def zeroScalar : Kind → Val
  | .string => .str []
  | .bytes => .nil
  | .message => .nil
  | .group => .nil
  | _ => .num 0

/-- Go's zero value of the struct field of a proto field: nil for pointers, slices, maps and
interfaces.
Go semantics, as used by the code at `features/unmarshal/unmarshal.go:504,570` and
`generator/generatedfile.go:67-108`. -/
def zeroField (f : FieldDesc) : Val :=
  if f.oneof || f.card == .repeated || f.presence then .nil else zeroScalar f.kind

/-- The zero value of one struct field.
Go semantics, as used by the code at `features/unmarshal/unmarshal.go:504,570` and
`generator/generatedfile.go:67-108`. -/
def zeroSlot (d : MsgDesc) (s : Nat) : Val :=
  match d.fields.find? (fun f => f.slot == s) with
  | some f => zeroField f
  | none => .nil

/-- `&T{}`.
Go semantics, as used by the code at `features/unmarshal/unmarshal.go:504,570` and
`generator/generatedfile.go:67-108`. -/
def zeroMsg (S : Schema) (t : Nat) : Val := .msg ((List.range (S.msg t).nslots).map (zeroSlot (S.msg t))) [] []

/-- The Go slice expression `dAtA[i:j]`.
Go semantics, as used by the code at `features/unmarshal/unmarshal.go:55-81`. -/
def slice (d : Bytes) (i j : Nat) : Res Bytes :=
  if i ≤ j ∧ j ≤ d.length then .ok ((d.drop i).take (j - i)) else .panic .sliceOutOfRange

/-- The contents, as seen later, of a string or byte slice made from the bytes `b` at offset `off` of
the caller's buffer: a copy in safe mode, an alias in unsafe mode
(`features/unmarshal/unmarshal.go:436-450,590-614,198-213,246-251`). The `unique` option
(lines 444-449, 205-210) interns a copy, which has the same contents. -/
def UEnv.keep (E : UEnv) (off : Nat) (b : Bytes) : Bytes :=
  if E.aliasing then (E.later.drop off).take b.length else b

/-- A decoded length: `int(n)`, the sign test, `iNdEx + length` with the overflow test and the bounds
test; gives start and end. `features/unmarshal/unmarshal.go:423-435` (strings, `w = 64`), `483-494`
(messages), `578-589` (bytes), `729-740` (packed), `185-197`, `216-227`, `233-245` (map entries).
All but strings and map bytes read the length into an `int`. -/
def readSpan (A : Arch) (w : Nat) (d : Bytes) (i : Nat) : Res (Nat × Nat) := do
  let (n, i) ← decodeVarint w d i
  let len := A.wrap n.toInt
  if len < 0 then .err .invalidLength
  else
    let post := A.wrap (i + len)
    if post < 0 then .err .invalidLength
    else if post > d.length then .err .unexpectedEOF
    else .ok (i, post.toNat)

/-- Reading one numeric, bool or enum value into a fresh variable,
`features/unmarshal/unmarshal.go:293-419,616-710` and `160-183,253-272`. The value is given as
`uint64(v)`. -/
def readNum (A : Arch) (k : Kind) (d : Bytes) (i : Nat) : Res (BitVec 64 × Nat) :=
  let fixed (n : Nat) (conv : Nat → BitVec 64) : Res (BitVec 64 × Nat) := do
    let (v, i) ← decodeFixed A n d i
    .ok (conv v, i)
  let var (w : Nat) (conv : BitVec w → BitVec 64) : Res (BitVec 64 × Nat) := do
    let (v, i) ← decodeVarint w d i
    .ok (conv v, i)
  match k with
  | .double => fixed 8 (BitVec.ofNat 64)
  | .float => fixed 4 (BitVec.ofNat 64)
  | .int64 => var 64 id
  | .uint64 => var 64 id
  | .int32 => var 32 (·.signExtend 64)
  | .enum => var 32 (·.signExtend 64)
  | .uint32 => var 32 (·.setWidth 64)
  | .fixed64 => fixed 8 (BitVec.ofNat 64)
  | .sfixed64 => fixed 8 (BitVec.ofNat 64)
  | .fixed32 => fixed 4 (BitVec.ofNat 64)
  | .sfixed32 => fixed 4 (fun v => (BitVec.ofNat 32 v).signExtend 64)
  | .bool => var A.bits (fun v => if v = 0 then 0 else 1)
  | .sint32 => var 32 (fun v => (unzigzag32 v).signExtend 64)
  | .sint64 => var 64 unzigzag64
  | _ => .panic .typeConfusion

/-- Value left in the destination of the varint loop when it stops, for whatever reason
(`features/unmarshal/unmarshal.go:93` with `varName` a struct field). -/
def varintAcc (w : Nat) (d : Bytes) : Nat → Nat → Nat → BitVec w → BitVec w
  | 0, _, _, acc => acc
  | n + 1, shift, i, acc =>
    if shift ≥ 64 then acc
    else match d[i]? with
      | none => acc
      | some b =>
        let acc := acc ||| (BitVec.ofNat w (b &&& 0x7f).toNat <<< shift)
        if b < 0x80 then acc else varintAcc w d n (shift + 7) (i + 1) acc

/-- For the kinds decoded straight into a struct field (`m.F = 0` and then the loop on `m.F`,
`features/unmarshal/unmarshal.go:331-332,348-349,365-366,382-383,399-400,626-627,643-644,660-661,677-678`):
what the struct field holds when the read stops. `none` for the other kinds. A fixed-width read that
fails leaves the 0. -/
def direct (A : Arch) (k : Kind) (d : Bytes) (i : Nat) : Option (BitVec 64) :=
  let fixed : Option (BitVec 64) := match readNum A k d i with
    | .ok (v, _) => some v
    | _ => some 0
  match k with
  | .int64 => some (varintAcc 64 d 11 0 i 0)
  | .uint64 => some (varintAcc 64 d 11 0 i 0)
  | .int32 => some ((varintAcc 32 d 11 0 i 0).signExtend 64)
  | .enum => some ((varintAcc 32 d 11 0 i 0).signExtend 64)
  | .uint32 => some ((varintAcc 32 d 11 0 i 0).setWidth 64)
  | .fixed64 => fixed
  | .fixed32 => fixed
  | .sfixed64 => fixed
  | .sfixed32 => fixed
  | _ => none

/-- `append(s, v)` on the slice in a struct field. An element between length and capacity is
overwritten. Go semantics, as used by the code at `features/unmarshal/unmarshal.go:286-714`. -/
def appendVal (s v : Val) : Res Val :=
  match s with
  | .nil => .ok (.list [v] [])
  | .list xs sp => .ok (.list (xs ++ [v]) sp.tail)
  | _ => .panic .typeConfusion

/-- Storing a decoded scalar: in a new oneof wrapper, appended, or assigned (directly or through a new
pointer), e.g. `features/unmarshal/unmarshal.go:296-306`, `451-460`, `590-614`. -/
def store (f : FieldDesc) (v : Val) : UM Unit := do
  if f.oneof then setSlot f.slot (.wrap f.num v)
  else if f.card == .repeated then do
    let s ← getSlot f.slot
    let s ← UM.lift (appendVal s v)
    setSlot f.slot s
  else setSlot f.slot v

/-- A sub-message decoder: offset of the bytes in the caller's buffer, type, bytes, receiver.
(`features/unmarshal/unmarshal.go:55-81`) -/
abbrev SubDec := Nat → Nat → Bytes → UM Unit

/-- `decodeMessage`, `features/unmarshal/unmarshal.go:56-81`. For a foreign message the runtime resets
the message first; what it leaves behind on error is not modelled (the old value is kept). Well-known
types and messages of other packages with vtproto methods are ordinary messages. -/
def decodeMessage (E : UEnv) (rec : SubDec) (off t : Nat) (b : Bytes) : UM Unit := fun v =>
  if (E.S.msg t).foreign then
    if v.isNil then (v, .panic .nilDeref)
    else match E.R.unmarshal t b with
      | some v' => (v', .ok ())
      | none => (v, .err .foreign)
  else rec off t b v

/-- `TFromVTPool()` if both types are pooled, `&T{}` otherwise: `features/unmarshal/unmarshal.go:501-505,567-571`. -/
def newSub (E : UEnv) (d : MsgDesc) (off t : Nat) : Val :=
  if d.pooled && (E.S.msg t).pooled then E.alloc off t else zeroMsg E.S t

/-- `mapField`, `features/unmarshal/unmarshal.go:160-273`: reads a map key or value. `old` is what the
variable holds; the varint kinds without a temporary (lines 170-175, 253-257) are or-ed into it. -/
def mapItem (E : UEnv) (rec : SubDec) (k : Kind) (t : Nat) (d : Bytes) (base i : Nat) (old : Val) : Res (Val × Nat) :=
  match k with
  | .int64 => do
    let (v, i) ← decodeVarintLoop 64 d 11 0 i old.bits
    .ok (.num v, i)
  | .uint64 => do
    let (v, i) ← decodeVarintLoop 64 d 11 0 i old.bits
    .ok (.num v, i)
  | .int32 => do
    let (v, i) ← decodeVarintLoop 32 d 11 0 i (old.bits.setWidth 32)
    .ok (.num (v.signExtend 64), i)
  | .enum => do
    let (v, i) ← decodeVarintLoop 32 d 11 0 i (old.bits.setWidth 32)
    .ok (.num (v.signExtend 64), i)
  | .uint32 => do
    let (v, i) ← decodeVarintLoop 32 d 11 0 i (old.bits.setWidth 32)
    .ok (.num (v.setWidth 64), i)
  | .string => do
    let (i, post) ← readSpan E.A 64 d i
    let b ← slice d i post
    .ok (.str (E.keep (base + i) b), post)
  | .bytes => do
    -- `make([]byte, mapbyteLen)` with the 64-bit length, line 249
    let (n, _) ← decodeVarint 64 d i
    let (i, post) ← readSpan E.A 64 d i
    if !E.aliasing && decide (n.toNat ≥ 2 ^ (E.A.bits - 1)) then .panic .makeLen
    else
      let b ← slice d i post
      .ok (.str (E.keep (base + i) b), post)
  | .message => do
    let (i, post) ← readSpan E.A E.A.bits d i
    let b ← slice d i post
    match decodeMessage E rec (base + i) t b (zeroMsg E.S t) with
    | (v, .ok ()) => .ok (v, post)
    | (_, .err e) => .err e
    | (_, .panic p) => .panic p
    | (_, .diverge) => .diverge
  | .group => .panic .typeConfusion
  | k => do
    let (v, i) ← readNum E.A k d i
    .ok (.num v, i)

/-- A decoded map key. Under unsafe decoding a string key aliases the buffer too; here it keeps the
content it had when it was inserted. (`features/unmarshal/unmarshal.go:160-273`) -/
def toKey : Val → Key
  | .num n => .num n
  | .str b => .str b
  | _ => .num 0

/-- `Skip(dAtA[iNdEx:])` and the checks after it, `features/unmarshal/unmarshal.go:834-843` with
`limit = l` and `535-544` with `limit = postIndex`: index after the record. -/
def skipAt (A : Arch) (d : Bytes) (i : Nat) (limit : Nat) : Res Nat := do
  let b ← slice d i d.length
  let n ← skip A b
  if A.wrap (i + n) < 0 then .err .invalidLength
  else if A.wrap (i + n) > limit then .err .unexpectedEOF
  else .ok (A.wrap (i + n)).toNat

/-- The loop over a map entry, `features/unmarshal/unmarshal.go:522-547`: final `mapkey` and `mapvalue`. -/
def entryLoop (E : UEnv) (rec : SubDec) (md : MapDesc) (d : Bytes) (base post : Nat) :
    Nat → Nat → Val → Val → Res (Val × Val)
  | 0, _, _, _ => .diverge
  | n + 1, i, key, val =>
    if i < post then do
      let (wire, j) ← decodeVarint 64 d i
      let num : BitVec 32 := (wire >>> 3).setWidth 32
      if num = 1 then do
        -- map keys are never kept by reference: see `toKey`
        let (key, j) ← mapItem { E with aliasing := false } rec md.key 0 d base j key
        entryLoop E rec md d base post n j key val
      else if num = 2 then do
        let (val, j) ← mapItem E rec md.val md.valMsg d base j val
        entryLoop E rec md d base post n j key val
      else do
        let j ← skipAt E.A d i post
        entryLoop E rec md d base post n j key val
    else .ok (key, val)

/-- `m[k] = v`. Go leaves the iteration order unspecified; a new key goes last.
(`features/unmarshal/unmarshal.go:160-273`) -/
def mapInsert : List (Key × Val) → Key → Val → List (Key × Val)
  | [], k, v => [(k, v)]
  | (k', v') :: es, k, v => if k' = k then (k, v) :: es else (k', v') :: mapInsert es k v

/-- `m.F[mapkey] = mapvalue`, `features/unmarshal/unmarshal.go:548`, on the map `s` in the struct field. -/
def mapPut (f : FieldDesc) (s : Val) (k : Key) (v : Val) : UM Unit :=
  match s with
  | .map es => setSlot f.slot (.map (mapInsert es k v))
  | _ => UM.lift (.panic .typeConfusion)

/-- A map field, `features/unmarshal/unmarshal.go:509-548`, with the entry at `[i, post)`. -/
def mapEntry (E : UEnv) (rec : SubDec) (f : FieldDesc) (md : MapDesc) (d : Bytes) (base i post : Nat) : UM Unit := do
  let s ← getSlot f.slot
  let s := if s.isNil then .map [] else s
  setSlot f.slot s
  let (k, v) ← UM.lift (entryLoop E rec md d base post (d.length + 1) i (zeroScalar md.key) (zeroScalar md.val))
  mapPut f s (toKey k) v

/-- The loop for a group field, `features/unmarshal/unmarshal.go:463-481`. The wire type tested at line
468 is that of the enclosing tag (`wire`), not of `groupFieldWire`. -/
def groupLoop (E : UEnv) (rec : SubDec) (f : FieldDesc) (wire : BitVec 64) (d : Bytes) (base start : Nat) :
    Nat → Nat → UM Nat
  | 0, _ => UM.lift .diverge
  | n + 1, i => do
    let (_, j) ← UM.lift (decodeVarint 64 d i)
    if (wire &&& 7).toNat = 4 then do
      let b ← UM.lift (slice d start i)
      let v ← getSlot f.slot
      match decodeMessage E rec (base + start) f.msg b v with
      | (v', r) => do
        setSlot f.slot v'
        UM.lift r
        pure j
    else do
      let b ← UM.lift (slice d j d.length)
      let k ← UM.lift (skip E.A b)
      if E.A.wrap (j + k) < 0 then UM.lift (.err .invalidLength)
      else groupLoop E rec f wire d base start n (E.A.wrap (j + k)).toNat

/-- The message a record of a message field is decoded into, `s` being the struct field's value:
`features/unmarshal/unmarshal.go:498-505` (oneof: the member it holds, else a new message), `550-561`
(repeated: a new element; pooled messages take the one beyond the length if there is one), `566-572`
(singular: the message there, else a new one). -/
def subTarget (E : UEnv) (d : MsgDesc) (f : FieldDesc) (off : Nat) (s : Val) : Res Val :=
  if f.oneof then
    match s with
    | .wrap n x => .ok (if n = f.num then x else newSub E d off f.msg)
    | .wrapNil n => if n = f.num then .panic .nilDeref else .ok (newSub E d off f.msg)
    | _ => .ok (newSub E d off f.msg)
  else if f.card == .repeated then
    match s with
    | .nil => .ok (zeroMsg E.S f.msg)
    | .list _ sp =>
      if d.pooled then
        match sp with
        | [] => .ok (zeroMsg E.S f.msg)
        | y :: _ => .ok (if y.isNil then zeroMsg E.S f.msg else y)
      else .ok (zeroMsg E.S f.msg)
    | _ => .panic .typeConfusion
  else .ok (if s.isNil then newSub E d off f.msg else s)

/-- The struct field with the decoded message in it. (`features/unmarshal/unmarshal.go:482-575`) -/
def subAssign (f : FieldDesc) (s x : Val) : Val :=
  if f.oneof then .wrap f.num x
  else if f.card == .repeated then
    match s with
    | .list xs sp => .list (xs ++ [x]) sp.tail
    | _ => .list [x] []
  else x

/-- Does the oneof hold a wrapper for the field? (`features/unmarshal/unmarshal.go:495-508`) -/
def holds (f : FieldDesc) (s : Val) : Bool :=
  match s with
  | .wrap n _ => n == f.num
  | _ => false

/-- A message field that is not a map, with the sub-message bytes `b` at offset `off`:
`features/unmarshal/unmarshal.go:495-508,549-574`. A new oneof wrapper is stored only when the decode
succeeds (line 507); in the other cases the struct field already refers to the message. -/
def messageItem (E : UEnv) (rec : SubDec) (d : MsgDesc) (f : FieldDesc) (off : Nat) (b : Bytes) : UM Unit := do
  let s ← getSlot f.slot
  let x ← UM.lift (subTarget E d f off s)
  let (x', r) := decodeMessage E rec off f.msg b x
  if f.oneof && !holds f s then do
    UM.lift r
    setSlot f.slot (subAssign f s x')
  else do
    setSlot f.slot (subAssign f s x')
    UM.lift r

/-- `fieldItem`, `features/unmarshal/unmarshal.go:286-714`: one value of a field at index `i`; gives the
index after it. `proto3` is the parameter of that name (false for lists, line 727 and 771). -/
def fieldItem (E : UEnv) (rec : SubDec) (d : MsgDesc) (f : FieldDesc) (proto3 : Bool) (wire : BitVec 64)
    (b : Bytes) (base i : Nat) : UM Nat :=
  match f.kind with
  | .string => do
    let (i, post) ← UM.lift (readSpan E.A 64 b i)
    let s ← UM.lift (slice b i post)
    store f (.str (E.keep (base + i) s))
    pure post
  | .bytes => do
    let (i, post) ← UM.lift (readSpan E.A E.A.bits b i)
    let s ← UM.lift (slice b i post)
    store f (.str (E.keep (base + i) s))
    pure post
  | .group => groupLoop E rec f wire b base i (b.length + 1) i
  | .message => do
    let (i, post) ← UM.lift (readSpan E.A E.A.bits b i)
    match f.map with
    | some md => mapEntry E rec f md b base i post
    | none => do
      let s ← UM.lift (slice b i post)
      messageItem E rec d f (base + i) s
    pure post
  | k => do
    if !f.oneof && f.card != .repeated && proto3 && !f.synthetic then
      match direct E.A k b i with
      | some v => setSlot f.slot (.num v)
      | none => pure ()
    let (v, i) ← UM.lift (readNum E.A k b i)
    store f (.num v)
    pure i

/-- `elementCount`, `features/unmarshal/unmarshal.go:742-758`, for the packed payload `b`. -/
def elementCount (k : Kind) (b : Bytes) : Nat :=
  match k with
  | .double => b.length / 8
  | .fixed64 => b.length / 8
  | .sfixed64 => b.length / 8
  | .float => b.length / 4
  | .fixed32 => b.length / 4
  | .sfixed32 => b.length / 4
  | .int64 => b.countP (· < 128)
  | .uint64 => b.countP (· < 128)
  | .int32 => b.countP (· < 128)
  | .uint32 => b.countP (· < 128)
  | .sint32 => b.countP (· < 128)
  | .sint64 => b.countP (· < 128)
  | .bool => b.length
  | _ => 0

/-- The loop over packed elements, `features/unmarshal/unmarshal.go:770-772`. -/
def packedLoop (E : UEnv) (rec : SubDec) (d : MsgDesc) (f : FieldDesc) (wire : BitVec 64) (b : Bytes) (base post : Nat) :
    Nat → Nat → UM Nat
  | 0, _ => UM.lift .diverge
  | n + 1, i =>
    if i < post then do
      let j ← fieldItem E rec d f false wire b base i
      packedLoop E rec d f wire b base post n j
    else pure i

/-- `m.F = make(T, 0, elementCount)` if the slice is empty, `features/unmarshal/unmarshal.go:760-768`. The
capacity of scalar slices is not modelled, so the pooled variant of the test makes no difference. -/
def prealloc (f : FieldDesc) (count : Nat) : UM Unit := do
  if count ≠ 0 then do
    let s ← getSlot f.slot
    if s.elems = [] then setSlot f.slot (.list [] []) else pure ()
  else pure ()

/-- One `case` of the field switch, `features/unmarshal/unmarshal.go:716-781`. -/
def fieldCase (E : UEnv) (rec : SubDec) (d : MsgDesc) (f : FieldDesc) (wire : BitVec 64) (b : Bytes) (base i : Nat) : UM Nat :=
  let wt := (wire &&& 7).toNat
  if f.isList && protoWireType f.kind != 2 then
    if wt = protoWireType f.kind then fieldItem E rec d f false wire b base i
    else if wt = 2 then do
      let (i, post) ← UM.lift (readSpan E.A E.A.bits b i)
      let s ← UM.lift (slice b i post)
      prealloc f (elementCount f.kind s)
      packedLoop E rec d f wire b base post (b.length + 1) i
    else UM.lift (.err (.wrongWireType f.num))
  else if wt ≠ protoWireType f.kind then UM.lift (.err (.wrongWireType f.num))
  else fieldItem E rec d f d.proto3 wire b base i

/-- `message.Desc.RequiredNumbers()`, `features/unmarshal/unmarshal.go:808`. -/
def MsgDesc.required (d : MsgDesc) : List Nat := (d.fields.filter fun f => f.card == .required).map (·.num)

/-- `var hasFields [n]uint64`, `features/unmarshal/unmarshal.go:811-813`. -/
def noFields (d : MsgDesc) : List (BitVec 64) :=
  if d.required.length > 0 then List.replicate (1 + (d.required.length - 1) / 64) 0 else []

/-- `hasFields[bit/64] |= 1 << (bit%64)`, `features/unmarshal/unmarshal.go:783-794`. -/
def markField (d : MsgDesc) (f : FieldDesc) (has : List (BitVec 64)) : Res (List (BitVec 64)) :=
  if f.card == .required then
    let bit := d.required.idxOf f.num
    match has[bit / 64]? with
    | some w => .ok (has.set (bit / 64) (w ||| ((1 : BitVec 64) <<< (bit % 64))))
    | none => .panic .indexOutOfRange
  else .ok has

/-- The checks after the loop, `features/unmarshal/unmarshal.go:869-885`. -/
def checkRequired (d : MsgDesc) (has : List (BitVec 64)) : List FieldDesc → Res Unit
  | [] => .ok ()
  | f :: fs =>
    if f.card == .required then
      let bit := d.required.idxOf f.num
      match has[bit / 64]? with
      | some w => if w &&& ((1 : BitVec 64) <<< (bit % 64)) = 0 then .err (.requiredNotSet f.num) else checkRequired d has fs
      | none => .panic .indexOutOfRange
    else checkRequired d has fs

/-- `proto.UnmarshalOptions{AllowPartial: true}.Unmarshal(b, m)`, `features/unmarshal/unmarshal.go:852-855`:
the runtime resets the receiver and decodes `b` into it. What it leaves on error is not modelled. -/
def runtimePartial (E : UEnv) (t : Nat) (b : Bytes) : UM Unit := fun m =>
  match m with
  | .msg _ _ _ => match E.R.unmarshalPartial t b with
    | some m' => (m', .ok ())
    | none => (m, .err .foreign)
  | .nil => (m, .panic .nilDeref)
  | _ => (m, .panic .typeConfusion)

/-- The `default` case, `features/unmarshal/unmarshal.go:832-866`, for the record at `i`: extension ranges go
through the runtime, which resets the receiver; other records are kept as unknown fields. -/
def unknownCase (E : UEnv) (t : Nat) (num : Nat) (b : Bytes) (i : Nat) : UM Nat := do
  let d := E.S.msg t
  let j ← UM.lift (skipAt E.A b i b.length)
  if d.extRanges.any (fun r => decide (r.1 ≤ num) && decide (num < r.2)) then do
    let s ← UM.lift (slice b i j)
    runtimePartial E t s
    pure j
  else do
    let s ← UM.lift (slice b i j)
    if d.keepUnknown then appendUnknown s
    pure j

/-- One record, `features/unmarshal/unmarshal.go:817-866`: the record at index `i`; gives the index after
it and `hasFields`. -/
def recordStep (E : UEnv) (rec : SubDec) (t : Nat) (b : Bytes) (base i : Nat) (has : List (BitVec 64)) :
    UM (Nat × List (BitVec 64)) := do
  let (wire, j) ← UM.lift (decodeVarint 64 b i)
  let num : BitVec 32 := (wire >>> 3).setWidth 32
  if (wire &&& 7).toNat = 4 then UM.lift (.err .endGroupForNonGroup)
  else if num.toInt ≤ 0 then UM.lift (.err .illegalTag)
  else match (E.S.msg t).fields.find? (fun f => f.num == num.toNat) with
    | some f => do
      let j ← fieldCase E rec (E.S.msg t) f wire b base j
      let has ← UM.lift (markField (E.S.msg t) f has)
      pure (j, has)
    | none => do
      let j ← unknownCase E t num.toNat b i
      pure (j, has)

/-- The loop over the records, `features/unmarshal/unmarshal.go:816-867`; gives the final index and
`hasFields`. -/
def recordLoop (E : UEnv) (rec : SubDec) (t : Nat) (b : Bytes) (base : Nat) :
    Nat → Nat → List (BitVec 64) → UM (Nat × List (BitVec 64))
  | 0, _, _ => UM.lift .diverge
  | n + 1, i, has =>
    if i < b.length then do
      let (j, has) ← recordStep E rec t b base i has
      recordLoop E rec t b base n j has
    else pure (i, has)

/-- The body of the method, `features/unmarshal/unmarshal.go:810-891`. -/
def unmarshalBody (E : UEnv) (rec : SubDec) : SubDec := fun base t b => do
  let (i, has) ← recordLoop E rec t b base (b.length + 1) 0 (noFields (E.S.msg t))
  UM.lift (checkRequired (E.S.msg t) has (E.S.msg t).fields)
  if i > b.length then UM.lift (.err .unexpectedEOF) else pure ()

/-- The method with its recursion limited to a depth.
(`features/unmarshal/unmarshal.go:797-892`) -/
def unmarshalN (E : UEnv) : Nat → SubDec
  | 0 => fun _ _ _ => UM.lift .diverge
  | n + 1 => unmarshalBody E (unmarshalN E n)

/-- `m.UnmarshalVT(b)` / `m.UnmarshalVTUnsafe(b)` for a message of type `t`: the receiver afterwards and the
result. A sub-message is shorter than the message it is in, which bounds the recursion.
(`features/unmarshal/unmarshal.go:797-892`) -/
def unmarshalVT (E : UEnv) (t : Nat) (b : Bytes) (m : Val) : Val × Res Unit :=
  unmarshalN E (b.length + 1) 0 t b m

end Vtp
