import Verif.Model.Heap
/-!
# `UnmarshalVT` and `UnmarshalVTUnsafe` on memory

The same code as in `Verif/Model/Unmarshal.lean`, `features/unmarshal/unmarshal.go`. What does not touch memory is shared with that file.
Records of extensions are handed to the runtime (lines 852-855), which empties the message first.
-/

namespace Vtp

/-- What the decoder depends on. `buf` is the array with the input, whose contents the functions below get as an argument, from which unsafe decoding makes strings and byte slices. `pick off` is
the message which the pool hands out when asked at offset `off` of the input.
(`features/unmarshal/unmarshal.go:797-892` and `features/pool/pool.go:104-106`) -/
structure HEnv where
  S : Schema
  R : Runtime
  A : Arch
  aliasing : Bool := false
  buf : Addr := 0
  extra : Growth := fun _ => 0
  pick : Nat → Option Addr

/-- A sub-message decoder: offset of the bytes in the caller's buffer, type, bytes, receiver.
(`features/unmarshal/unmarshal.go:55-81`) -/
abbrev HSubDec := Nat → Nat → Bytes → HV → HM Unit

/-- A decoded string, `features/unmarshal/unmarshal.go:436-450,198-213`. -/
def HEnv.string (E : HEnv) (off : Nat) (b : Bytes) : HV := if E.aliasing then .view E.buf off b.length else .str b

/-- A decoded byte slice in new memory or as part of the buffer, `features/unmarshal/unmarshal.go:591-596,599-605,246-251`. -/
def HEnv.newBytes (E : HEnv) (off : Nat) (b : Bytes) : HM HV := if E.aliasing then pure (.bytes E.buf off b.length) else hcopyBytes b

/-- Storing a decoded number or string, e.g. `features/unmarshal/unmarshal.go:296-306,451-460`. `inPlace`: `proto3 && !nullable`. -/
def hstore (E : HEnv) (d : MsgDesc) (f : FieldDesc) (p : HV) (v : HV) : HM Unit := do
  if f.oneof then do
    let a ← halloc (.wrap f.num v)
    hsetSlot p f.slot (.ptr a)
  else if f.card == .repeated then do
    let s ← hgetSlot p f.slot
    let s ← happend E.extra s v
    hsetSlot p f.slot s
  else if d.proto3 && !f.synthetic then hsetSlot p f.slot v
  else do
    let a ← halloc (.box v)
    hsetSlot p f.slot (.ptr a)

/-- `if m.F == nil { m.F = []byte{} }`, `features/unmarshal/unmarshal.go:611-613`. -/
def hnonNil (s : HV) : HM HV := if s.isNil then hcopyBytes [] else pure s

/-- Storing decoded bytes, `features/unmarshal/unmarshal.go:590-614`. -/
def hstoreBytes (E : HEnv) (f : FieldDesc) (p : HV) (off : Nat) (b : Bytes) : HM Unit := do
  if f.oneof then do
    let v ← E.newBytes off b
    let a ← halloc (.wrap f.num v)
    hsetSlot p f.slot (.ptr a)
  else if f.card == .repeated then do
    let s ← hgetSlot p f.slot
    let v ← E.newBytes off b
    let s ← happend E.extra s v
    hsetSlot p f.slot s
  else if E.aliasing then hsetSlot p f.slot (.bytes E.buf off b.length)
  else do
    let s ← hgetSlot p f.slot
    let s ← happendBytes E.extra s 0 b
    let s ← hnonNil s
    hsetSlot p f.slot s

/-- `m.unknownFields = append(m.unknownFields, b...)`, `features/unmarshal/unmarshal.go:860`. -/
def hunknownLen : HV → Nat
  | .bytes _ _ len => len
  | _ => 0

/-- `m.unknownFields = append(m.unknownFields, b...)`, `features/unmarshal/unmarshal.go:860`. -/
def happendUnknown (E : HEnv) (p : HV) (b : Bytes) : HM Unit :=
  match p with
  | .nil => HM.lift (.panic .nilDeref)
  | .ptr a => do
    match ← hread a with
    | .msg _ u _ => do
      let u' ← happendBytes E.extra u (hunknownLen u) b
      match ← hread a with
      | .msg s _ e => hwrite a (.msg s u' e)
      | _ => HM.lift (.panic .typeConfusion)
    | _ => HM.lift (.panic .typeConfusion)
  | _ => HM.lift (.panic .typeConfusion)

/-- `decodeMessage`, `features/unmarshal/unmarshal.go:56-81`. The runtime resets a message of a foreign type and decodes into the same object. -/
def hdecodeMessage (E : HEnv) (rec : HSubDec) (off t : Nat) (b : Bytes) (x : HV) : HM Unit :=
  if (E.S.msg t).foreign then
    match x with
    | .nil => HM.lift (.panic .nilDeref)
    | .ptr a => match E.R.unmarshal t b with
      | some v => hwrite a (.foreign v)
      | none => HM.lift (.err .foreign)
    | _ => HM.lift (.panic .typeConfusion)
  else rec off t b x

/-- `TFromVTPool()` if both types are pooled, `&T{}` otherwise: `features/unmarshal/unmarshal.go:501-505,567-571`. -/
def hnewSub (E : HEnv) (d : MsgDesc) (off t : Nat) : HM HV :=
  if d.pooled && (E.S.msg t).pooled then poolGet E.S (E.pick off) t else hnew E.S t

/-- `mapField`, `features/unmarshal/unmarshal.go:160-273`; see `mapItem`. -/
def hmapItem (E : HEnv) (rec : HSubDec) (k : Kind) (t : Nat) (d : Bytes) (base i : Nat) (old : BitVec 64) : HM (HV × Nat) :=
  match k with
  | .int64 => do
    let (v, i) ← HM.lift (decodeVarintLoop 64 d 11 0 i old)
    pure (.num v, i)
  | .uint64 => do
    let (v, i) ← HM.lift (decodeVarintLoop 64 d 11 0 i old)
    pure (.num v, i)
  | .int32 => do
    let (v, i) ← HM.lift (decodeVarintLoop 32 d 11 0 i (old.setWidth 32))
    pure (.num (v.signExtend 64), i)
  | .enum => do
    let (v, i) ← HM.lift (decodeVarintLoop 32 d 11 0 i (old.setWidth 32))
    pure (.num (v.signExtend 64), i)
  | .uint32 => do
    let (v, i) ← HM.lift (decodeVarintLoop 32 d 11 0 i (old.setWidth 32))
    pure (.num (v.setWidth 64), i)
  | .string => do
    let (i, post) ← HM.lift (readSpan E.A 64 d i)
    let b ← HM.lift (slice d i post)
    pure (E.string (base + i) b, post)
  | .bytes => do
    let (n, _) ← HM.lift (decodeVarint 64 d i)
    let (i, post) ← HM.lift (readSpan E.A 64 d i)
    if !E.aliasing && decide (n.toNat ≥ 2 ^ (E.A.bits - 1)) then HM.lift (.panic .makeLen)
    else do
      let b ← HM.lift (slice d i post)
      let v ← E.newBytes (base + i) b
      pure (v, post)
  | .message => do
    let (i, post) ← HM.lift (readSpan E.A E.A.bits d i)
    let b ← HM.lift (slice d i post)
    let v ← hnew E.S t
    hdecodeMessage E rec (base + i) t b v
    pure (v, post)
  | .group => HM.lift (.panic .typeConfusion)
  | k => do
    let (v, i) ← HM.lift (readNum E.A k d i)
    pure (.num v, i)

/-- The 64-bit pattern of a scalar.
Go semantics, as used by the code at `features/unmarshal/unmarshal.go:286-419`. -/
def HV.bits : HV → BitVec 64
  | .num n => n
  | _ => 0

/-- The loop over a map entry, `features/unmarshal/unmarshal.go:522-547`: final `mapkey` and `mapvalue`. Keys do not have memory of their own
here, see `toKey`. -/
def hentryLoop (E : HEnv) (rec : HSubDec) (md : MapDesc) (d : Bytes) (base post : Nat) :
    Nat → Nat → Val → HV → HM (Val × HV)
  | 0, _, _, _ => HM.lift .diverge
  | n + 1, i, key, val =>
    if i < post then do
      let (wire, j) ← HM.lift (decodeVarint 64 d i)
      let num : BitVec 32 := (wire >>> 3).setWidth 32
      if num = 1 then do
        let (key, j) ← HM.lift (mapItem ⟨E.S, E.R, E.A, false, [], fun _ _ => .nil⟩ (fun _ _ _ => UM.lift (.panic .typeConfusion)) md.key 0 d base j key)
        hentryLoop E rec md d base post n j key val
      else if num = 2 then do
        let (val, j) ← hmapItem E rec md.val md.valMsg d base j val.bits
        hentryLoop E rec md d base post n j key val
      else do
        let j ← HM.lift (skipAt E.A d i post)
        hentryLoop E rec md d base post n j key val
    else pure (key, val)

/-- `m[k] = v` on the entries.
Go semantics, as used by the code at `features/unmarshal/unmarshal.go:160-273`. -/
def hmapInsert : List (Key × HV) → Key → HV → List (Key × HV)
  | [], k, v => [(k, v)]
  | (k', v') :: es, k, v => if k' = k then (k, v) :: es else (k', v') :: hmapInsert es k v

/-- `m.F[mapkey] = mapvalue`, `features/unmarshal/unmarshal.go:548`, on the map `s`. -/
def hmapPut (s : HV) (k : Key) (v : HV) : HM Unit :=
  match s with
  | .ptr a => do
    match ← hread a with
    | .map es => hwrite a (.map (hmapInsert es k v))
    | _ => HM.lift (.panic .typeConfusion)
  | _ => HM.lift (.panic .typeConfusion)

/-- `if m.F == nil { m.F = make(map…) }`, `features/unmarshal/unmarshal.go:516-518`: the map. -/
def hmakeMap (p : HV) (slot : Nat) : HM HV := do
  let s ← hgetSlot p slot
  if s.isNil then do
    let a ← halloc (.map [])
    hsetSlot p slot (.ptr a)
    pure (.ptr a)
  else pure s

/-- A map field, `features/unmarshal/unmarshal.go:509-548`, with the entry at `[i, post)`. -/
def hmapEntry (E : HEnv) (rec : HSubDec) (f : FieldDesc) (md : MapDesc) (d : Bytes) (base i post : Nat) (p : HV) : HM Unit := do
  let s ← hmakeMap p f.slot
  let (k, v) ← hentryLoop E rec md d base post (d.length + 1) i (zeroScalar md.key) (hzeroScalar md.val)
  hmapPut s (toKey k) v

/-- The loop for a group field, `features/unmarshal/unmarshal.go:463-481`. -/
def hgroupLoop (E : HEnv) (rec : HSubDec) (f : FieldDesc) (wire : BitVec 64) (d : Bytes) (base start : Nat) (p : HV) :
    Nat → Nat → HM Nat
  | 0, _ => HM.lift .diverge
  | n + 1, i => do
    let (_, j) ← HM.lift (decodeVarint 64 d i)
    if (wire &&& 7).toNat = 4 then do
      let b ← HM.lift (slice d start i)
      let v ← hgetSlot p f.slot
      hdecodeMessage E rec (base + start) f.msg b v
      pure j
    else do
      let b ← HM.lift (slice d j d.length)
      let k ← HM.lift (skip E.A b)
      if E.A.wrap (j + k) < 0 then HM.lift (.err .invalidLength)
      else hgroupLoop E rec f wire d base start p n (E.A.wrap (j + k)).toNat

/-- Dynamic type of a oneof's interface: is it the wrapper of the member with number `n`? Gives the pointer to the wrapper, nil for a nil one.
(`features/unmarshal/unmarshal.go:495-508`) -/
def hholds (s : HV) (n : Nat) : HM (Option HV) :=
  match s with
  | .nil => pure none
  | .wrapNil n' => pure (if n' = n then some .nil else none)
  | .ptr a => do
    match ← hread a with
    | .wrap n' _ => pure (if n' = n then some (.ptr a) else none)
    | _ => HM.lift (.panic .typeConfusion)
  | _ => HM.lift (.panic .typeConfusion)

/-- `oneof.F` for a pointer to a wrapper. (`features/unmarshal/unmarshal.go:495-508`) -/
def hmember (w : HV) : HM HV :=
  match w with
  | .nil => HM.lift (.panic .nilDeref)
  | .ptr a => do
    match ← hread a with
    | .wrap _ x => pure x
    | _ => HM.lift (.panic .typeConfusion)
  | _ => HM.lift (.panic .typeConfusion)

/-- `len(s) == cap(s)`, `s[len(s)]`: the element beyond the length, if there is one.
(`features/unmarshal/unmarshal.go:549-564`) -/
def hspare (s : HV) : HM (Option HV) :=
  match s with
  | .nil => pure none
  | .slice a len => do
    match ← hread a with
    | .arr xs => pure xs[len]?
    | _ => HM.lift (.panic .typeConfusion)
  | _ => HM.lift (.panic .typeConfusion)

/-- `s[:len(s)+1]`. (`features/unmarshal/unmarshal.go:549-564`) -/
def HV.longer : HV → HV
  | .slice a len => .slice a (len + 1)
  | s => s

/-- `len(s) == cap(s)` and `s[:len(s)+1]`, only in pooled messages: `features/unmarshal/unmarshal.go:550-557`. -/
def hreuse (d : MsgDesc) (s : HV) : HM (Option HV) := if d.pooled then hspare s else pure none

/-- A message field that is not a map, with the sub-message bytes `b` at offset `off`: `features/unmarshal/unmarshal.go:495-508,549-574`. Lines 554-556, which
put a new message where the element beyond the length is nil, are the same as an `append` within the capacity. -/
def hmessageItem (E : HEnv) (rec : HSubDec) (d : MsgDesc) (f : FieldDesc) (off : Nat) (b : Bytes) (p : HV) : HM Unit := do
  let s ← hgetSlot p f.slot
  if f.oneof then do
    match ← hholds s f.num with
    | some w => do
      let x ← hmember w
      hdecodeMessage E rec off f.msg b x
    | none => do
      let x ← hnewSub E d off f.msg
      hdecodeMessage E rec off f.msg b x
      let a ← halloc (.wrap f.num x)
      hsetSlot p f.slot (.ptr a)
  else if f.card == .repeated then do
    match ← hreuse d s with
    | some (.ptr x) => do
      hsetSlot p f.slot s.longer
      hdecodeMessage E rec off f.msg b (.ptr x)
    | _ => do
      let x ← hnew E.S f.msg
      let s ← happend E.extra s x
      hsetSlot p f.slot s
      hdecodeMessage E rec off f.msg b x
  else do
    if s.isNil then do
      let x ← hnewSub E d off f.msg
      hsetSlot p f.slot x
      hdecodeMessage E rec off f.msg b x
    else hdecodeMessage E rec off f.msg b s

/-- A map entry or message in `[i, post)`, `features/unmarshal/unmarshal.go:492-574`. -/
def hsubItem (E : HEnv) (rec : HSubDec) (d : MsgDesc) (f : FieldDesc) (b : Bytes) (base i post : Nat) (p : HV) : HM Unit :=
  match f.map with
  | some md => hmapEntry E rec f md b base i post p
  | none => do
    let s ← HM.lift (slice b i post)
    hmessageItem E rec d f (base + i) s p

/-- What is stored into the struct field before the value is complete, see `direct`.
(`features/unmarshal/unmarshal.go:568-574`) -/
def hdirect (E : HEnv) (f : FieldDesc) (proto3 : Bool) (b : Bytes) (i : Nat) (p : HV) : HM Unit :=
  if !f.oneof && f.card != .repeated && proto3 && !f.synthetic then
    match direct E.A f.kind b i with
    | some v => hsetSlot p f.slot (.num v)
    | none => pure ()
  else pure ()

/-- `fieldItem`, `features/unmarshal/unmarshal.go:286-714`; see `fieldItem`. -/
def hfieldItem (E : HEnv) (rec : HSubDec) (d : MsgDesc) (f : FieldDesc) (proto3 : Bool) (wire : BitVec 64)
    (b : Bytes) (base i : Nat) (p : HV) : HM Nat :=
  match f.kind with
  | .string => do
    let (i, post) ← HM.lift (readSpan E.A 64 b i)
    let s ← HM.lift (slice b i post)
    hstore E d f p (E.string (base + i) s)
    pure post
  | .bytes => do
    let (i, post) ← HM.lift (readSpan E.A E.A.bits b i)
    let s ← HM.lift (slice b i post)
    hstoreBytes E f p (base + i) s
    pure post
  | .group => hgroupLoop E rec f wire b base i p (b.length + 1) i
  | .message => do
    let (i, post) ← HM.lift (readSpan E.A E.A.bits b i)
    hsubItem E rec d f b base i post p
    pure post
  | k => do
    hdirect E f proto3 b i p
    let (v, i) ← HM.lift (readNum E.A k b i)
    hstore E d f p (.num v)
    pure i

/-- The loop over packed elements, `features/unmarshal/unmarshal.go:770-772`. -/
def hpackedLoop (E : HEnv) (rec : HSubDec) (d : MsgDesc) (f : FieldDesc) (wire : BitVec 64) (b : Bytes) (base post : Nat) (p : HV) :
    Nat → Nat → HM Nat
  | 0, _ => HM.lift .diverge
  | n + 1, i =>
    if i < post then do
      let j ← hfieldItem E rec d f false wire b base i p
      hpackedLoop E rec d f wire b base post p n j
    else pure i

/-- `len(s)` and `cap(s)`. (`features/unmarshal/unmarshal.go:549-564`) -/
def hlenCap (s : HV) : HM (Nat × Nat) :=
  match s with
  | .nil => pure (0, 0)
  | .slice a len => do
    match ← hread a with
    | .arr xs => pure (len, xs.length)
    | _ => HM.lift (.panic .typeConfusion)
  | _ => HM.lift (.panic .typeConfusion)

/-- `len(s)` of a slice that is not of bytes. (`features/unmarshal/unmarshal.go:549-564`) -/
def hlen (s : HV) : HM Nat :=
  match s with
  | .nil => pure 0
  | .slice a len => do
    match ← hread a with
    | .arr xs => pure (xs.take len).length
    | _ => HM.lift (.panic .typeConfusion)
  | _ => HM.lift (.panic .typeConfusion)

/-- `s[i]` (`features/unmarshal/unmarshal.go:549-564`) -/
def hindex (s : HV) (i : Nat) : HM HV :=
  match s with
  | .slice a len => do
    match ← hread a with
    | .arr xs => match (xs.take len)[i]? with
      | some x => pure x
      | none => HM.lift (.panic .indexOutOfRange)
    | _ => HM.lift (.panic .typeConfusion)
  | _ => HM.lift (.panic .typeConfusion)

/-- `m.F = make(T, 0, elementCount)` if the slice is empty and, for pooled messages, too small, `features/unmarshal/unmarshal.go:760-768`. -/
def hprealloc (d : MsgDesc) (f : FieldDesc) (count : Nat) (p : HV) : HM Unit := do
  if count ≠ 0 then do
    let s ← hgetSlot p f.slot
    let (len, cap) ← hlenCap s
    if len = 0 ∧ (d.pooled = true → cap < count) then do
      let s ← hmakeSlice count
      hsetSlot p f.slot s
    else pure ()
  else pure ()

/-- One `case` of the field switch, `features/unmarshal/unmarshal.go:716-781`. -/
def hfieldCase (E : HEnv) (rec : HSubDec) (d : MsgDesc) (f : FieldDesc) (wire : BitVec 64) (b : Bytes) (base i : Nat) (p : HV) : HM Nat :=
  let wt := (wire &&& 7).toNat
  if f.isList && protoWireType f.kind != 2 then
    if wt = protoWireType f.kind then hfieldItem E rec d f false wire b base i p
    else if wt = 2 then do
      let (i, post) ← HM.lift (readSpan E.A E.A.bits b i)
      let s ← HM.lift (slice b i post)
      hprealloc d f (elementCount f.kind s) p
      hpackedLoop E rec d f wire b base post p (b.length + 1) i
    else HM.lift (.err (.wrongWireType f.num))
  else if wt ≠ protoWireType f.kind then HM.lift (.err (.wrongWireType f.num))
  else hfieldItem E rec d f d.proto3 wire b base i p

/-- Unless unknown fields are to be ignored, `features/unmarshal/unmarshal.go:858-861`. -/
def hkeepUnknown (E : HEnv) (t : Nat) (p : HV) (s : Bytes) : HM Unit := if (E.S.msg t).keepUnknown then happendUnknown E p s else pure ()

/-- `proto.UnmarshalOptions{AllowPartial: true}.Unmarshal(b, m)`, `features/unmarshal/unmarshal.go:852-855`, for the record `b` of an extension: the runtime empties
the message and decodes into it. There are no fields in the record, so it only sets the extensions, or, if it does not know the extension, `unknownFields`.
What it leaves on error is not modelled. -/
def hruntimePartial (E : HEnv) (t : Nat) (b : Bytes) (p : HV) : HM Unit :=
  match p with
  | .nil => HM.lift (.panic .nilDeref)
  | .ptr a => do
    match ← hread a with
    | .msg _ _ _ => match E.R.unmarshalPartial t b with
      | some (.msg _ u e) => do
        hwrite a (.msg ((List.range (E.S.msg t).nslots).map (hzeroSlot (E.S.msg t))) .nil e)
        happendUnknown E p u
      | some _ => HM.lift (.panic .typeConfusion)
      | none => HM.lift (.err .foreign)
    | _ => HM.lift (.panic .typeConfusion)
  | _ => HM.lift (.panic .typeConfusion)

/-- The `default` case, `features/unmarshal/unmarshal.go:832-866`, for the record at `i`. -/
def hunknownCase (E : HEnv) (t num : Nat) (b : Bytes) (i : Nat) (p : HV) : HM Nat := do
  let j ← HM.lift (skipAt E.A b i b.length)
  let s ← HM.lift (slice b i j)
  if (E.S.msg t).extRanges.any (fun r => decide (r.1 ≤ num) && decide (num < r.2)) then hruntimePartial E t s p else hkeepUnknown E t p s
  pure j

/-- One record, `features/unmarshal/unmarshal.go:817-866`. -/
def hrecordStep (E : HEnv) (rec : HSubDec) (t : Nat) (b : Bytes) (base i : Nat) (has : List (BitVec 64)) (p : HV) :
    HM (Nat × List (BitVec 64)) := do
  let (wire, j) ← HM.lift (decodeVarint 64 b i)
  let num : BitVec 32 := (wire >>> 3).setWidth 32
  if (wire &&& 7).toNat = 4 then HM.lift (.err .endGroupForNonGroup)
  else if num.toInt ≤ 0 then HM.lift (.err .illegalTag)
  else match (E.S.msg t).fields.find? (fun f => f.num == num.toNat) with
    | some f => do
      let j ← hfieldCase E rec (E.S.msg t) f wire b base j p
      let has ← HM.lift (markField (E.S.msg t) f has)
      pure (j, has)
    | none => do
      let j ← hunknownCase E t num.toNat b i p
      pure (j, has)

/-- The loop over the records, `features/unmarshal/unmarshal.go:816-867`. -/
def hrecordLoop (E : HEnv) (rec : HSubDec) (t : Nat) (b : Bytes) (base : Nat) (p : HV) :
    Nat → Nat → List (BitVec 64) → HM (Nat × List (BitVec 64))
  | 0, _, _ => HM.lift .diverge
  | n + 1, i, has =>
    if i < b.length then do
      let (j, has) ← hrecordStep E rec t b base i has p
      hrecordLoop E rec t b base p n j has
    else pure (i, has)

/-- The body of the method, `features/unmarshal/unmarshal.go:810-891`. -/
def hunmarshalBody (E : HEnv) (rec : HSubDec) : HSubDec := fun base t b p => do
  let (i, has) ← hrecordLoop E rec t b base p (b.length + 1) 0 (noFields (E.S.msg t))
  HM.lift (checkRequired (E.S.msg t) has (E.S.msg t).fields)
  if i > b.length then HM.lift (.err .unexpectedEOF) else pure ()

/-- The method with its recursion limited to a depth.
(`features/unmarshal/unmarshal.go:797-892`) -/
def hunmarshalN (E : HEnv) : Nat → HSubDec
  | 0 => fun _ _ _ _ => HM.lift .diverge
  | n + 1 => hunmarshalBody E (hunmarshalN E n)

/-- `p.UnmarshalVT(b)` / `p.UnmarshalVTUnsafe(b)` for a message of type `t`.
(`features/unmarshal/unmarshal.go:797-892`) -/
def hunmarshalVT (E : HEnv) (t : Nat) (b : Bytes) (p : HV) : HM Unit := hunmarshalN E (b.length + 1) 0 t b p

end Vtp
