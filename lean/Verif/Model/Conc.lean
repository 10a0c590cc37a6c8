import Verif.Model.HeapPool
import Verif.Model.HeapClone
/-!
# The methods as programs of single steps

In `Verif/Model/Heap.lean` and what builds on it, code is a function on memory: a method runs from its beginning to its end. Several goroutines run in steps which come
in any order. Here the same methods are programs, trees of single steps: reading an object, writing it, allocating one, `Get` and `Put` of a pool. What a step does to
memory is said in `Verif/Spec/Conc.lean`. The definitions below `Prog` are those of `Verif/Model/Heap.lean`, `HeapUnmarshal.lean`, `HeapPool.lean` and `HeapClone.lean`,
with `Prog` in place of `HM`; `Verif/Lemmas/ConcRun.lean` proves that run alone each of them does what the one there does.

Simplified: objects are read and written as a whole, so two goroutines that access different struct fields of a message count as accessing the same memory.
-/

namespace Vtp.Conc

/-- Code in steps, `α` being what it gives at its end.
Go semantics, as used by the code at `features/unmarshal/unmarshal.go:797-892`. -/
inductive Prog (α : Type) : Type where
  | done (r : Res α)
  | read (a : Addr) (k : Cell → Prog α)
  | write (a : Addr) (c : Cell) (k : Prog α)
  /-- what is in the new object may depend on its address: this stands for what the runtime is free to choose -/
  | alloc (c : Addr → Cell) (k : Addr → Prog α)
  /-- `Get` of the pool of messages of type `t`: a message or none; `want` as in `Vtp.poolGet` -/
  | get (want : Option Addr) (t : Nat) (k : Option Addr → Prog α)
  | put (t : Nat) (a : Addr) (k : Prog α)

namespace Prog

/-- Code that is at its end.
Go semantics, as used by the code at `features/unmarshal/unmarshal.go:797-892`. -/
abbrev ret {α : Type} (a : α) : Prog α := .done (.ok a)

/-- Sequencing: `return err` and panics leave the function.
Go semantics, as used by the code at `features/unmarshal/unmarshal.go:797-892`. -/
def bind {α β : Type} (x : Prog α) (f : α → Prog β) : Prog β :=
  match x with
  | .done (.ok a) => f a
  | .done (.err e) => .done (.err e)
  | .done (.panic p) => .done (.panic p)
  | .done .diverge => .done .diverge
  | .read a k => .read a fun c => (k c).bind f
  | .write a c k => .write a c (k.bind f)
  | .alloc c k => .alloc c fun a => (k a).bind f
  | .get want t k => .get want t fun o => (k o).bind f
  | .put t a k => .put t a (k.bind f)

instance : Monad Prog where
  pure := .ret
  bind := Prog.bind

/-- Code that does not touch memory.
Go semantics, as used by the code at `features/unmarshal/unmarshal.go:797-892`. -/
def lift {α : Type} (r : Res α) : Prog α := .done r

end Prog

/-- Reading an object.
Go semantics, as used by the code at `features/unmarshal/unmarshal.go:498,516,566`. -/
def hread (a : Addr) : Prog Cell := .read a .ret

/-- Writing to an object.
Go semantics, as used by the code at `features/unmarshal/unmarshal.go:507,517,570`. -/
def hwrite (a : Addr) (c : Cell) : Prog Unit := .write a c (.ret ())

/-- A new object.
Go semantics, as used by the code at `features/unmarshal/unmarshal.go:504,570`. -/
def halloc (c : Cell) : Prog Addr := .alloc (fun _ => c) .ret

/-- `make([]byte, len(b))` and `copy`. (`features/unmarshal/unmarshal.go:598-599`) -/
def hcopyBytes (b : Bytes) : Prog HV := do
  let a ← halloc (.bytes b)
  pure (.bytes a 0 b.length)

/-- A new array for a byte slice that grows.
Go semantics, as used by the code at `features/unmarshal/unmarshal.go:609,860`. -/
def hgrowBytes (extra : Growth) (b : Bytes) : Prog HV := do
  let a ← Prog.alloc (fun n => .bytes (b ++ List.replicate (extra n) 0)) .ret
  pure (.bytes a 0 b.length)

/-- A new array for a slice that grows: `xs`, of which `len` elements are in the slice, and what there is beyond.
Go semantics, as used by the code at `features/unmarshal/unmarshal.go:552,560`. -/
def hgrowArr (extra : Growth) (xs : List HV) (len : Nat) : Prog HV := do
  let a ← Prog.alloc (fun n => .arr (xs ++ List.replicate (extra n) .nil)) .ret
  pure (.slice a len)

/-- `append(s[:n], b...)`: in place if the capacity suffices.
(`features/unmarshal/unmarshal.go:609`) -/
def happendBytes (extra : Growth) (s : HV) (n : Nat) (b : Bytes) : Prog HV :=
  match s with
  | .nil => if b = [] then pure .nil else hgrowBytes extra b
  | .bytes a off _ => do
    match ← hread a with
    | .bytes c =>
      if off + n + b.length ≤ c.length then do
        hwrite a (.bytes (c.take (off + n) ++ b ++ c.drop (off + n + b.length)))
        pure (.bytes a off (n + b.length))
      else hgrowBytes extra ((c.drop off).take n ++ b)
    | _ => Prog.lift (.panic .typeConfusion)
  | _ => Prog.lift (.panic .typeConfusion)

/-- `append(s, x)` on a slice of anything but bytes, in the array `c` at `a`.
Go semantics, as used by the code at `features/unmarshal/unmarshal.go:552,560`. -/
def happendTo (extra : Growth) (a len : Nat) (x : HV) (c : Cell) : Prog HV :=
  match c with
  | .arr xs =>
    if len < xs.length then do
      hwrite a (.arr (xs.set len x))
      pure (.slice a (len + 1))
    else hgrowArr extra (xs ++ [x]) (len + 1)
  | _ => Prog.lift (.panic .typeConfusion)

/-- `append(s, x)` on a slice of anything but bytes.
Go semantics, as used by the code at `features/unmarshal/unmarshal.go:552,560`. -/
def happend (extra : Growth) (s x : HV) : Prog HV :=
  match s with
  | .nil => hgrowArr extra [x] 1
  | .slice a len => do
    let c ← hread a
    happendTo extra a len x c
  | _ => Prog.lift (.panic .typeConfusion)

/-- `make([]T, 0, n)`. (`features/unmarshal/unmarshal.go:742-768`) -/
def hmakeSlice (n : Nat) : Prog HV := do
  let a ← halloc (.arr (List.replicate n .nil))
  pure (.slice a 0)

/-- Reading the struct field in `slot` of a message.
Go semantics, as used by the code at `features/unmarshal/unmarshal.go:498,516,566`. -/
def hgetSlot (p : HV) (slot : Nat) : Prog HV :=
  match p with
  | .nil => Prog.lift (.panic .nilDeref)
  | .ptr a => do
    match ← hread a with
    | .msg s _ _ => pure (s.getD slot .nil)
    | _ => Prog.lift (.panic .typeConfusion)
  | _ => Prog.lift (.panic .typeConfusion)

/-- Assigning to the struct field in `slot` of a message.
Go semantics, as used by the code at `features/unmarshal/unmarshal.go:507,517,570`. -/
def hsetSlot (p : HV) (slot : Nat) (v : HV) : Prog Unit :=
  match p with
  | .nil => Prog.lift (.panic .nilDeref)
  | .ptr a => do
    match ← hread a with
    | .msg s u e => hwrite a (.msg (s.set slot v) u e)
    | _ => Prog.lift (.panic .typeConfusion)
  | _ => Prog.lift (.panic .typeConfusion)

/-- `&T{}`. (`features/unmarshal/unmarshal.go:504,570`) -/
def hnew (S : Schema) (t : Nat) : Prog HV := do
  let a ← halloc (hzeroCell S t)
  pure (.ptr a)

/-- `TFromVTPool()`, `features/pool/pool.go:104-106,41-45`. -/
def poolGet (S : Schema) (want : Option Addr) (t : Nat) : Prog HV := .get want t fun
  | some a => .ret (.ptr a)
  | none => hnew S t

/-- `vtprotoPool_T.Put(m)`, `features/pool/pool.go:100`. -/
def poolPut (t : Nat) (a : Addr) : Prog Unit := .put t a (.ret ())

/-- A sub-message decoder: offset of the bytes in the caller's buffer, type, bytes, receiver.
(`features/unmarshal/unmarshal.go:55-81`) -/
abbrev HSubDec := Nat → Nat → Bytes → HV → Prog Unit

/-- A decoded byte slice in new memory or as part of the buffer, `features/unmarshal/unmarshal.go:591-596,599-605,246-251`. -/
def hnewBytes (E : HEnv) (off : Nat) (b : Bytes) : Prog HV := if E.aliasing then pure (.bytes E.buf off b.length) else hcopyBytes b

/-- Storing a decoded number or string, e.g. `features/unmarshal/unmarshal.go:296-306,451-460`. `inPlace`: `proto3 && !nullable`. -/
def hstore (E : HEnv) (d : MsgDesc) (f : FieldDesc) (p : HV) (v : HV) : Prog Unit := do
  if f.oneof then do
    let a ← halloc (.wrap f.num v)
    hsetSlot p f.slot (.ptr a)
  else if f.card == .repeated then do
    let s ← hgetSlot p f.slot
    let s ← happend E.extra s v
    hsetSlot p f.slot s
  else if d.proto3 && !f.synthetic then hsetSlot p f.slot v
  else do
    let a ← halloc (.box v)
    hsetSlot p f.slot (.ptr a)

/-- `if m.F == nil { m.F = []byte{} }`, `features/unmarshal/unmarshal.go:611-613`. -/
def hnonNil (s : HV) : Prog HV := if s.isNil then hcopyBytes [] else pure s

/-- Storing decoded bytes, `features/unmarshal/unmarshal.go:590-614`. -/
def hstoreBytes (E : HEnv) (f : FieldDesc) (p : HV) (off : Nat) (b : Bytes) : Prog Unit := do
  if f.oneof then do
    let v ← hnewBytes E off b
    let a ← halloc (.wrap f.num v)
    hsetSlot p f.slot (.ptr a)
  else if f.card == .repeated then do
    let s ← hgetSlot p f.slot
    let v ← hnewBytes E off b
    let s ← happend E.extra s v
    hsetSlot p f.slot s
  else if E.aliasing then hsetSlot p f.slot (.bytes E.buf off b.length)
  else do
    let s ← hgetSlot p f.slot
    let s ← happendBytes E.extra s 0 b
    let s ← hnonNil s
    hsetSlot p f.slot s

/-- `m.unknownFields = append(m.unknownFields, b...)`, `features/unmarshal/unmarshal.go:860`. -/
def happendUnknown (E : HEnv) (p : HV) (b : Bytes) : Prog Unit :=
  match p with
  | .nil => Prog.lift (.panic .nilDeref)
  | .ptr a => do
    match ← hread a with
    | .msg _ u _ => do
      let u' ← happendBytes E.extra u (hunknownLen u) b
      match ← hread a with
      | .msg s _ e => hwrite a (.msg s u' e)
      | _ => Prog.lift (.panic .typeConfusion)
    | _ => Prog.lift (.panic .typeConfusion)
  | _ => Prog.lift (.panic .typeConfusion)

/-- `decodeMessage`, `features/unmarshal/unmarshal.go:56-81`. The runtime resets a message of a foreign type and decodes into the same object. -/
def hdecodeMessage (E : HEnv) (rec : HSubDec) (off t : Nat) (b : Bytes) (x : HV) : Prog Unit :=
  if (E.S.msg t).foreign then
    match x with
    | .nil => Prog.lift (.panic .nilDeref)
    | .ptr a => match E.R.unmarshal t b with
      | some v => hwrite a (.foreign v)
      | none => Prog.lift (.err .foreign)
    | _ => Prog.lift (.panic .typeConfusion)
  else rec off t b x

/-- `TFromVTPool()` if both types are pooled, `&T{}` otherwise: `features/unmarshal/unmarshal.go:501-505,567-571`. -/
def hnewSub (E : HEnv) (d : MsgDesc) (off t : Nat) : Prog HV :=
  if d.pooled && (E.S.msg t).pooled then poolGet E.S (E.pick off) t else hnew E.S t

/-- `mapField`, `features/unmarshal/unmarshal.go:160-273`; see `mapItem`. -/
def hmapItem (E : HEnv) (rec : HSubDec) (k : Kind) (t : Nat) (d : Bytes) (base i : Nat) (old : BitVec 64) : Prog (HV × Nat) :=
  match k with
  | .int64 => do
    let (v, i) ← Prog.lift (decodeVarintLoop 64 d 11 0 i old)
    pure (.num v, i)
  | .uint64 => do
    let (v, i) ← Prog.lift (decodeVarintLoop 64 d 11 0 i old)
    pure (.num v, i)
  | .int32 => do
    let (v, i) ← Prog.lift (decodeVarintLoop 32 d 11 0 i (old.setWidth 32))
    pure (.num (v.signExtend 64), i)
  | .enum => do
    let (v, i) ← Prog.lift (decodeVarintLoop 32 d 11 0 i (old.setWidth 32))
    pure (.num (v.signExtend 64), i)
  | .uint32 => do
    let (v, i) ← Prog.lift (decodeVarintLoop 32 d 11 0 i (old.setWidth 32))
    pure (.num (v.setWidth 64), i)
  | .string => do
    let (i, post) ← Prog.lift (readSpan E.A 64 d i)
    let b ← Prog.lift (slice d i post)
    pure (E.string (base + i) b, post)
  | .bytes => do
    let (n, _) ← Prog.lift (decodeVarint 64 d i)
    let (i, post) ← Prog.lift (readSpan E.A 64 d i)
    if !E.aliasing && decide (n.toNat ≥ 2 ^ (E.A.bits - 1)) then Prog.lift (.panic .makeLen)
    else do
      let b ← Prog.lift (slice d i post)
      let v ← hnewBytes E (base + i) b
      pure (v, post)
  | .message => do
    let (i, post) ← Prog.lift (readSpan E.A E.A.bits d i)
    let b ← Prog.lift (slice d i post)
    let v ← hnew E.S t
    hdecodeMessage E rec (base + i) t b v
    pure (v, post)
  | .group => Prog.lift (.panic .typeConfusion)
  | k => do
    let (v, i) ← Prog.lift (readNum E.A k d i)
    pure (.num v, i)

/-- The loop over a map entry, `features/unmarshal/unmarshal.go:522-547`: final `mapkey` and `mapvalue`. Keys do not have memory of their own
here, see `toKey`. -/
def hentryLoop (E : HEnv) (rec : HSubDec) (md : MapDesc) (d : Bytes) (base post : Nat) :
    Nat → Nat → Val → HV → Prog (Val × HV)
  | 0, _, _, _ => Prog.lift .diverge
  | n + 1, i, key, val =>
    if i < post then do
      let (wire, j) ← Prog.lift (decodeVarint 64 d i)
      let num : BitVec 32 := (wire >>> 3).setWidth 32
      if num = 1 then do
        let (key, j) ← Prog.lift (mapItem ⟨E.S, E.R, E.A, false, [], fun _ _ => .nil⟩ (fun _ _ _ => UM.lift (.panic .typeConfusion)) md.key 0 d base j key)
        hentryLoop E rec md d base post n j key val
      else if num = 2 then do
        let (val, j) ← hmapItem E rec md.val md.valMsg d base j val.bits
        hentryLoop E rec md d base post n j key val
      else do
        let j ← Prog.lift (skipAt E.A d i post)
        hentryLoop E rec md d base post n j key val
    else pure (key, val)

/-- `m.F[mapkey] = mapvalue`, `features/unmarshal/unmarshal.go:548`, on the map `s`. -/
def hmapPut (s : HV) (k : Key) (v : HV) : Prog Unit :=
  match s with
  | .ptr a => do
    match ← hread a with
    | .map es => hwrite a (.map (hmapInsert es k v))
    | _ => Prog.lift (.panic .typeConfusion)
  | _ => Prog.lift (.panic .typeConfusion)

/-- `if m.F == nil { m.F = make(map…) }`, `features/unmarshal/unmarshal.go:516-518`: the map. -/
def hmakeMap (p : HV) (slot : Nat) : Prog HV := do
  let s ← hgetSlot p slot
  if s.isNil then do
    let a ← halloc (.map [])
    hsetSlot p slot (.ptr a)
    pure (.ptr a)
  else pure s

/-- A map field, `features/unmarshal/unmarshal.go:509-548`, with the entry at `[i, post)`. -/
def hmapEntry (E : HEnv) (rec : HSubDec) (f : FieldDesc) (md : MapDesc) (d : Bytes) (base i post : Nat) (p : HV) : Prog Unit := do
  let s ← hmakeMap p f.slot
  let (k, v) ← hentryLoop E rec md d base post (d.length + 1) i (zeroScalar md.key) (hzeroScalar md.val)
  hmapPut s (toKey k) v

/-- The loop for a group field, `features/unmarshal/unmarshal.go:463-481`. -/
def hgroupLoop (E : HEnv) (rec : HSubDec) (f : FieldDesc) (wire : BitVec 64) (d : Bytes) (base start : Nat) (p : HV) :
    Nat → Nat → Prog Nat
  | 0, _ => Prog.lift .diverge
  | n + 1, i => do
    let (_, j) ← Prog.lift (decodeVarint 64 d i)
    if (wire &&& 7).toNat = 4 then do
      let b ← Prog.lift (slice d start i)
      let v ← hgetSlot p f.slot
      hdecodeMessage E rec (base + start) f.msg b v
      pure j
    else do
      let b ← Prog.lift (slice d j d.length)
      let k ← Prog.lift (skip E.A b)
      if E.A.wrap (j + k) < 0 then Prog.lift (.err .invalidLength)
      else hgroupLoop E rec f wire d base start p n (E.A.wrap (j + k)).toNat

/-- Dynamic type of a oneof's interface: is it the wrapper of the member with number `n`? Gives the pointer to the wrapper, nil for a nil one.
(`features/unmarshal/unmarshal.go:495-508`) -/
def hholds (s : HV) (n : Nat) : Prog (Option HV) :=
  match s with
  | .nil => pure none
  | .wrapNil n' => pure (if n' = n then some .nil else none)
  | .ptr a => do
    match ← hread a with
    | .wrap n' _ => pure (if n' = n then some (.ptr a) else none)
    | _ => Prog.lift (.panic .typeConfusion)
  | _ => Prog.lift (.panic .typeConfusion)

/-- `oneof.F` for a pointer to a wrapper. (`features/unmarshal/unmarshal.go:495-508`) -/
def hmember (w : HV) : Prog HV :=
  match w with
  | .nil => Prog.lift (.panic .nilDeref)
  | .ptr a => do
    match ← hread a with
    | .wrap _ x => pure x
    | _ => Prog.lift (.panic .typeConfusion)
  | _ => Prog.lift (.panic .typeConfusion)

/-- `len(s) == cap(s)`, `s[len(s)]`: the element beyond the length, if there is one.
(`features/unmarshal/unmarshal.go:549-564`) -/
def hspare (s : HV) : Prog (Option HV) :=
  match s with
  | .nil => pure none
  | .slice a len => do
    match ← hread a with
    | .arr xs => pure xs[len]?
    | _ => Prog.lift (.panic .typeConfusion)
  | _ => Prog.lift (.panic .typeConfusion)

/-- `len(s) == cap(s)` and `s[:len(s)+1]`, only in pooled messages: `features/unmarshal/unmarshal.go:550-557`. -/
def hreuse (d : MsgDesc) (s : HV) : Prog (Option HV) := if d.pooled then hspare s else pure none

/-- A message field that is not a map, with the sub-message bytes `b` at offset `off`: `features/unmarshal/unmarshal.go:495-508,549-574`. Lines 554-556, which
put a new message where the element beyond the length is nil, are the same as an `append` within the capacity. -/
def hmessageItem (E : HEnv) (rec : HSubDec) (d : MsgDesc) (f : FieldDesc) (off : Nat) (b : Bytes) (p : HV) : Prog Unit := do
  let s ← hgetSlot p f.slot
  if f.oneof then do
    match ← hholds s f.num with
    | some w => do
      let x ← hmember w
      hdecodeMessage E rec off f.msg b x
    | none => do
      let x ← hnewSub E d off f.msg
      hdecodeMessage E rec off f.msg b x
      let a ← halloc (.wrap f.num x)
      hsetSlot p f.slot (.ptr a)
  else if f.card == .repeated then do
    match ← hreuse d s with
    | some (.ptr x) => do
      hsetSlot p f.slot s.longer
      hdecodeMessage E rec off f.msg b (.ptr x)
    | _ => do
      let x ← hnew E.S f.msg
      let s ← happend E.extra s x
      hsetSlot p f.slot s
      hdecodeMessage E rec off f.msg b x
  else do
    if s.isNil then do
      let x ← hnewSub E d off f.msg
      hsetSlot p f.slot x
      hdecodeMessage E rec off f.msg b x
    else hdecodeMessage E rec off f.msg b s

/-- A map entry or message in `[i, post)`, `features/unmarshal/unmarshal.go:492-574`. -/
def hsubItem (E : HEnv) (rec : HSubDec) (d : MsgDesc) (f : FieldDesc) (b : Bytes) (base i post : Nat) (p : HV) : Prog Unit :=
  match f.map with
  | some md => hmapEntry E rec f md b base i post p
  | none => do
    let s ← Prog.lift (slice b i post)
    hmessageItem E rec d f (base + i) s p

/-- What is stored into the struct field before the value is complete, see `direct`.
(`features/unmarshal/unmarshal.go:568-574`) -/
def hdirect (E : HEnv) (f : FieldDesc) (proto3 : Bool) (b : Bytes) (i : Nat) (p : HV) : Prog Unit :=
  if !f.oneof && f.card != .repeated && proto3 && !f.synthetic then
    match direct E.A f.kind b i with
    | some v => hsetSlot p f.slot (.num v)
    | none => pure ()
  else pure ()

/-- `fieldItem`, `features/unmarshal/unmarshal.go:286-714`; see `fieldItem`. -/
def hfieldItem (E : HEnv) (rec : HSubDec) (d : MsgDesc) (f : FieldDesc) (proto3 : Bool) (wire : BitVec 64)
    (b : Bytes) (base i : Nat) (p : HV) : Prog Nat :=
  match f.kind with
  | .string => do
    let (i, post) ← Prog.lift (readSpan E.A 64 b i)
    let s ← Prog.lift (slice b i post)
    hstore E d f p (E.string (base + i) s)
    pure post
  | .bytes => do
    let (i, post) ← Prog.lift (readSpan E.A E.A.bits b i)
    let s ← Prog.lift (slice b i post)
    hstoreBytes E f p (base + i) s
    pure post
  | .group => hgroupLoop E rec f wire b base i p (b.length + 1) i
  | .message => do
    let (i, post) ← Prog.lift (readSpan E.A E.A.bits b i)
    hsubItem E rec d f b base i post p
    pure post
  | k => do
    hdirect E f proto3 b i p
    let (v, i) ← Prog.lift (readNum E.A k b i)
    hstore E d f p (.num v)
    pure i

/-- The loop over packed elements, `features/unmarshal/unmarshal.go:770-772`. -/
def hpackedLoop (E : HEnv) (rec : HSubDec) (d : MsgDesc) (f : FieldDesc) (wire : BitVec 64) (b : Bytes) (base post : Nat) (p : HV) :
    Nat → Nat → Prog Nat
  | 0, _ => Prog.lift .diverge
  | n + 1, i =>
    if i < post then do
      let j ← hfieldItem E rec d f false wire b base i p
      hpackedLoop E rec d f wire b base post p n j
    else pure i

/-- `len(s)` and `cap(s)`. (`features/unmarshal/unmarshal.go:549-564`) -/
def hlenCap (s : HV) : Prog (Nat × Nat) :=
  match s with
  | .nil => pure (0, 0)
  | .slice a len => do
    match ← hread a with
    | .arr xs => pure (len, xs.length)
    | _ => Prog.lift (.panic .typeConfusion)
  | _ => Prog.lift (.panic .typeConfusion)

/-- `len(s)` of a slice that is not of bytes. (`features/unmarshal/unmarshal.go:549-564`) -/
def hlen (s : HV) : Prog Nat :=
  match s with
  | .nil => pure 0
  | .slice a len => do
    match ← hread a with
    | .arr xs => pure (xs.take len).length
    | _ => Prog.lift (.panic .typeConfusion)
  | _ => Prog.lift (.panic .typeConfusion)

/-- `s[i]` (`features/unmarshal/unmarshal.go:549-564`) -/
def hindex (s : HV) (i : Nat) : Prog HV :=
  match s with
  | .slice a len => do
    match ← hread a with
    | .arr xs => match (xs.take len)[i]? with
      | some x => pure x
      | none => Prog.lift (.panic .indexOutOfRange)
    | _ => Prog.lift (.panic .typeConfusion)
  | _ => Prog.lift (.panic .typeConfusion)

/-- `m.F = make(T, 0, elementCount)` if the slice is empty and, for pooled messages, too small, `features/unmarshal/unmarshal.go:760-768`. -/
def hprealloc (d : MsgDesc) (f : FieldDesc) (count : Nat) (p : HV) : Prog Unit := do
  if count ≠ 0 then do
    let s ← hgetSlot p f.slot
    let (len, cap) ← hlenCap s
    if len = 0 ∧ (d.pooled = true → cap < count) then do
      let s ← hmakeSlice count
      hsetSlot p f.slot s
    else pure ()
  else pure ()

/-- One `case` of the field switch, `features/unmarshal/unmarshal.go:716-781`. -/
def hfieldCase (E : HEnv) (rec : HSubDec) (d : MsgDesc) (f : FieldDesc) (wire : BitVec 64) (b : Bytes) (base i : Nat) (p : HV) : Prog Nat :=
  let wt := (wire &&& 7).toNat
  if f.isList && protoWireType f.kind != 2 then
    if wt = protoWireType f.kind then hfieldItem E rec d f false wire b base i p
    else if wt = 2 then do
      let (i, post) ← Prog.lift (readSpan E.A E.A.bits b i)
      let s ← Prog.lift (slice b i post)
      hprealloc d f (elementCount f.kind s) p
      hpackedLoop E rec d f wire b base post p (b.length + 1) i
    else Prog.lift (.err (.wrongWireType f.num))
  else if wt ≠ protoWireType f.kind then Prog.lift (.err (.wrongWireType f.num))
  else hfieldItem E rec d f d.proto3 wire b base i p

/-- Unless unknown fields are to be ignored, `features/unmarshal/unmarshal.go:858-861`. -/
def hkeepUnknown (E : HEnv) (t : Nat) (p : HV) (s : Bytes) : Prog Unit := if (E.S.msg t).keepUnknown then happendUnknown E p s else pure ()

/-- `proto.UnmarshalOptions{AllowPartial: true}.Unmarshal(b, m)`, `features/unmarshal/unmarshal.go:852-855`, for the record `b` of an extension: the runtime empties
the message and decodes into it. There are no fields in the record, so it only sets the extensions, or, if it does not know the extension, `unknownFields`.
What it leaves on error is not modelled. -/
def hruntimePartial (E : HEnv) (t : Nat) (b : Bytes) (p : HV) : Prog Unit :=
  match p with
  | .nil => Prog.lift (.panic .nilDeref)
  | .ptr a => do
    match ← hread a with
    | .msg _ _ _ => match E.R.unmarshalPartial t b with
      | some (.msg _ u e) => do
        hwrite a (.msg ((List.range (E.S.msg t).nslots).map (hzeroSlot (E.S.msg t))) .nil e)
        happendUnknown E p u
      | some _ => Prog.lift (.panic .typeConfusion)
      | none => Prog.lift (.err .foreign)
    | _ => Prog.lift (.panic .typeConfusion)
  | _ => Prog.lift (.panic .typeConfusion)

/-- The `default` case, `features/unmarshal/unmarshal.go:832-866`, for the record at `i`. -/
def hunknownCase (E : HEnv) (t num : Nat) (b : Bytes) (i : Nat) (p : HV) : Prog Nat := do
  let j ← Prog.lift (skipAt E.A b i b.length)
  let s ← Prog.lift (slice b i j)
  if (E.S.msg t).extRanges.any (fun r => decide (r.1 ≤ num) && decide (num < r.2)) then hruntimePartial E t s p else hkeepUnknown E t p s
  pure j

/-- One record, `features/unmarshal/unmarshal.go:817-866`. -/
def hrecordStep (E : HEnv) (rec : HSubDec) (t : Nat) (b : Bytes) (base i : Nat) (has : List (BitVec 64)) (p : HV) :
    Prog (Nat × List (BitVec 64)) := do
  let (wire, j) ← Prog.lift (decodeVarint 64 b i)
  let num : BitVec 32 := (wire >>> 3).setWidth 32
  if (wire &&& 7).toNat = 4 then Prog.lift (.err .endGroupForNonGroup)
  else if num.toInt ≤ 0 then Prog.lift (.err .illegalTag)
  else match (E.S.msg t).fields.find? (fun f => f.num == num.toNat) with
    | some f => do
      let j ← hfieldCase E rec (E.S.msg t) f wire b base j p
      let has ← Prog.lift (markField (E.S.msg t) f has)
      pure (j, has)
    | none => do
      let j ← hunknownCase E t num.toNat b i p
      pure (j, has)

/-- The loop over the records, `features/unmarshal/unmarshal.go:816-867`. -/
def hrecordLoop (E : HEnv) (rec : HSubDec) (t : Nat) (b : Bytes) (base : Nat) (p : HV) :
    Nat → Nat → List (BitVec 64) → Prog (Nat × List (BitVec 64))
  | 0, _, _ => Prog.lift .diverge
  | n + 1, i, has =>
    if i < b.length then do
      let (j, has) ← hrecordStep E rec t b base i has p
      hrecordLoop E rec t b base p n j has
    else pure (i, has)

/-- The body of the method, `features/unmarshal/unmarshal.go:810-891`. -/
def hunmarshalBody (E : HEnv) (rec : HSubDec) : HSubDec := fun base t b p => do
  let (i, has) ← hrecordLoop E rec t b base p (b.length + 1) 0 (noFields (E.S.msg t))
  Prog.lift (checkRequired (E.S.msg t) has (E.S.msg t).fields)
  if i > b.length then Prog.lift (.err .unexpectedEOF) else pure ()

/-- The method with its recursion limited to a depth.
(`features/unmarshal/unmarshal.go:797-892`) -/
def hunmarshalN (E : HEnv) : Nat → HSubDec
  | 0 => fun _ _ _ _ => Prog.lift .diverge
  | n + 1 => hunmarshalBody E (hunmarshalN E n)

/-- `p.UnmarshalVT(b)` / `p.UnmarshalVTUnsafe(b)` for a message of type `t`.
(`features/unmarshal/unmarshal.go:797-892`) -/
def hunmarshalVT (E : HEnv) (t : Nat) (b : Bytes) (p : HV) : Prog Unit := hunmarshalN E (b.length + 1) 0 t b p

/-- A recursive call of `ResetVT` on a message. (`features/pool/pool.go:50-95`) -/
abbrev HSubReset := Nat → HV → Prog Unit

/-- `vtprotoPool_T.Put(m)`, `features/pool/pool.go:100`. -/
def hput (t : Nat) (p : HV) : Prog Unit :=
  match p with
  | .ptr a => poolPut t a
  | _ => Prog.lift (.panic .typeConfusion)

/-- `ReturnToVTPool`, `features/pool/pool.go:97-102`. -/
def hreturnWith (rec : HSubReset) (t : Nat) (p : HV) : Prog Unit :=
  if p.isNil then pure ()
  else do
    rec t p
    hput t p

/-- One message of a list, `features/pool/pool.go:60-64`. -/
def hresetElem (S : Schema) (rec : HSubReset) (t : Nat) (x : HV) : Prog Unit :=
  if (S.msg t).pooled then
    if x.isNil then pure () else rec t x
  else match x with
    | .nil => Prog.lift (.panic .nilDeref)
    | .ptr a => hwrite a (hzeroCell S t)
    | _ => Prog.lift (.panic .typeConfusion)

/-- The loop over the messages of a list `s`, `features/pool/pool.go:59-65`: so many, from an index on, each read when it is its turn. -/
def hresetElems (S : Schema) (rec : HSubReset) (t : Nat) (s : HV) : Nat → Nat → Prog Unit
  | _, 0 => pure ()
  | i, n + 1 => do
    let x ← hindex s i
    hresetElem S rec t x
    hresetElems S rec t s (i + 1) n

/-- `clear(s)`, `features/pool/pool.go:66-67`. -/
def hclear (k : Kind) (s : HV) : Prog Unit :=
  match s with
  | .nil => pure ()
  | .slice a len => do
    match ← hread a with
    | .arr xs => hwrite a (.arr (List.replicate (xs.take len).length (hzeroScalar k) ++ xs.drop len))
    | _ => Prog.lift (.panic .typeConfusion)
  | _ => Prog.lift (.panic .typeConfusion)

/-- `s[:0]` for a slice that is not of bytes. (`features/pool/pool.go:59-70`) -/
def hcutList (s : HV) : Prog HV :=
  match s with
  | .nil => pure .nil
  | .slice a _ => pure (.slice a 0)
  | _ => Prog.lift (.panic .typeConfusion)

/-- `s[:0]` for a byte slice. (`features/pool/pool.go:83-85`) -/
def hcutBytes (s : HV) : Prog HV :=
  match s with
  | .nil => pure .nil
  | .bytes a off _ => pure (.bytes a off 0)
  | _ => Prog.lift (.panic .typeConfusion)

/-- `features/pool/pool.go:57-68`: the elements of a list field of the message `p`. -/
def hresetList (S : Schema) (rec : HSubReset) (p : HV) (f : FieldDesc) : Prog Unit :=
  if f.hasMessage then do
    let s ← hgetSlot p f.slot
    let n ← hlen s
    hresetElems S rec f.msg s 0 n
  else if f.kind = .bytes ∨ f.kind = .string then do
    let s ← hgetSlot p f.slot
    hclear f.kind s
  else pure ()

/-- The code for one field of the message `p`, `features/pool/pool.go:53-88`: what is saved for the struct field, if anything. -/
def hresetField (S : Schema) (rec : HSubReset) (p : HV) (f : FieldDesc) : Prog (Option HV) :=
  if f.isList then do
    hresetList S rec p f
    let s ← hgetSlot p f.slot
    let s ← hcutList s
    pure (some s)
  else if f.oneof then
    if f.hasMessage && (S.msg f.msg).pooled then do
      let s ← hgetSlot p f.slot
      match ← hholds s f.num with
      | some w => do
        let x ← hmember w
        hreturnWith rec f.msg x
        pure none
      | none => pure none
    else pure none
  else if f.hasMessage then
    if f.map.isNone && (S.msg f.msg).pooled then do
      let s ← hgetSlot p f.slot
      hreturnWith rec f.msg s
      pure none
    else pure none
  else if f.kind = .bytes then do
    let s ← hgetSlot p f.slot
    let s ← hcutBytes s
    pure (some s)
  else pure none

/-- The loop over the fields, `features/pool/pool.go:53-88`. -/
def hresetFields (S : Schema) (rec : HSubReset) (p : HV) : List FieldDesc → Prog (List (Nat × HV))
  | [] => pure []
  | f :: fs => do
    let o ← hresetField S rec p f
    let saved ← hresetFields S rec p fs
    pure (match o with
      | some v => (f.slot, v) :: saved
      | none => saved)

/-- Assignments to struct fields, `features/pool/pool.go:91-93`. -/
def hrestore (p : HV) : List (Nat × HV) → Prog Unit
  | [] => pure ()
  | (i, v) :: saved => do
    hsetSlot p i v
    hrestore p saved

/-- `m.Reset()` of a generated message, protobuf-go's `*m = T{}`. (`features/pool/pool.go:90`) -/
def hzero (S : Schema) (t : Nat) (p : HV) : Prog Unit :=
  match p with
  | .ptr a => hwrite a (hzeroCell S t)
  | _ => Prog.lift (.panic .typeConfusion)

/-- `ResetVT` on a non-nil message with the recursion limited to a depth, `features/pool/pool.go:50-95`. -/
def hresetN (S : Schema) : Nat → HSubReset
  | 0 => fun _ _ => Prog.lift .diverge
  | n + 1 => fun t p => do
    let saved ← hresetFields S (hresetN S n) p (S.msg t).fields
    hzero S t p
    hrestore p saved

/-- A recursive call of `CloneVT`: position in the original, type, message.
(`features/clone/clone.go:154-232`) -/
abbrev HSubClone := List Nat → Nat → HV → Prog HV

/-- Contents of a byte slice. (`features/clone/clone.go:89-92,127-144,223-229`) -/
def hreadBytes (s : HV) : Prog Bytes :=
  match s with
  | .nil => pure []
  | .bytes a off len => do
    match ← hread a with
    | .bytes c => pure ((c.drop off).take len)
    | _ => Prog.lift (.panic .typeConfusion)
  | _ => Prog.lift (.panic .typeConfusion)

/-- `proto.Clone(v)`, `features/clone/clone.go:86`: new memory. -/
def hruntimeClone (E : HKEnv) (t : Nat) (v : HV) : Prog HV :=
  match v with
  | .nil => pure .nil
  | .ptr a => do
    match ← hread a with
    | .foreign x => do
      let b ← halloc (.foreign (E.R.clone t x))
      pure (.ptr b)
    | _ => Prog.lift (.panic .typeConfusion)
  | _ => Prog.lift (.panic .typeConfusion)

/-- `cloneFieldSingular`, `features/clone/clone.go:72-98`. -/
def hcloneSingular (E : HKEnv) (rec : HSubClone) (k : Kind) (t : Nat) (p : List Nat) (v : HV) : Prog HV :=
  if k = .message ∨ k = .group then if (E.S.msg t).foreign then hruntimeClone E t v else rec p t v
  else if k = .bytes then do
    let b ← hreadBytes v
    hcopyBytes b
  else pure v

/-- `s[i] = x` (`features/clone/clone.go:127-152`) -/
def hsetIndex (s : HV) (i : Nat) (x : HV) : Prog Unit :=
  match s with
  | .slice a len => do
    match ← hread a with
    | .arr xs => if i < (xs.take len).length then hwrite a (.arr (xs.set i x)) else Prog.lift (.panic .indexOutOfRange)
    | _ => Prog.lift (.panic .typeConfusion)
  | _ => Prog.lift (.panic .typeConfusion)

/-- `make([]T, n)` for elements of kind `k`. (`features/clone/clone.go:127-144`) -/
def hmakeList (k : Kind) (n : Nat) : Prog HV := do
  let a ← halloc (.arr (List.replicate n (hzeroScalar k)))
  pure (.slice a n)

/-- `for k, v := range rhs { tmpContainer[k] = … }` on a slice, `features/clone/clone.go:140-142`, from the index on, for so many elements. -/
def hcloneElems (E : HKEnv) (rec : HSubClone) (k : Kind) (t : Nat) (p : List Nat) (s d : HV) : Nat → Nat → Prog Unit
  | _, 0 => pure ()
  | i, n + 1 => do
    let v ← hindex s i
    let w ← hcloneSingular E rec k t (p ++ [i]) v
    hsetIndex d i w
    hcloneElems E rec k t p s d (i + 1) n

/-- The same on a map, `features/clone/clone.go:134-142`. The entries are those at the start; nothing in the loop changes the map that is iterated over. -/
def hcloneEntries (E : HKEnv) (rec : HSubClone) (k : Kind) (t : Nat) (p : List Nat) (d : HV) : Nat → List (Key × HV) → Prog Unit
  | _, [] => pure ()
  | i, (key, v) :: vs => do
    let w ← hcloneSingular E rec k t (p ++ [i]) v
    hmapPut d key w
    hcloneEntries E rec k t p d (i + 1) vs

/-- `cloneField` for a map, `features/clone/clone.go:130-144`. -/
def hcloneMap (E : HKEnv) (rec : HSubClone) (md : MapDesc) (p : List Nat) (v : HV) : Prog HV :=
  match v with
  | .ptr a => do
    match ← hread a with
    | .map es => do
      let b ← halloc (.map [])
      hcloneEntries E rec md.val md.valMsg p (.ptr b) 0 es
      pure (.ptr b)
    | _ => Prog.lift (.panic .typeConfusion)
  | _ => Prog.lift (.panic .typeConfusion)

/-- `cloneField` for a list, `features/clone/clone.go:125-144`. -/
def hcloneList (E : HKEnv) (rec : HSubClone) (f : FieldDesc) (p : List Nat) (v : HV) : Prog HV :=
  match v with
  | .slice a len => do
    match ← hread a with
    | .arr xs =>
      if isScalarKind f.kind then do
        let b ← halloc (.arr (xs.take len))
        pure (.slice b (xs.take len).length)
      else do
        let d ← hmakeList f.kind (xs.take len).length
        hcloneElems E rec f.kind f.msg p v d 0 (xs.take len).length
        pure d
    | _ => Prog.lift (.panic .typeConfusion)
  | _ => Prog.lift (.panic .typeConfusion)

/-- `cloneField` for a list or map, `features/clone/clone.go:125-144`. -/
def hcloneContainer (E : HKEnv) (rec : HSubClone) (f : FieldDesc) (p : List Nat) (v : HV) : Prog HV :=
  match f.map with
  | some md => hcloneMap E rec md p v
  | none => hcloneList E rec f p v

/-- `tmpVal := *rhs; lhs = &tmpVal`, `features/clone/clone.go:145-147`. -/
def hcloneBox (v : HV) : Prog HV :=
  match v with
  | .ptr a => do
    match ← hread a with
    | .box x => do
      let b ← halloc (.box x)
      pure (.ptr b)
    | _ => Prog.lift (.panic .typeConfusion)
  | _ => Prog.lift (.panic .typeConfusion)

/-- `cloneField` for a field outside of oneofs, `features/clone/clone.go:109-151`: the value assigned to the struct field, if any. -/
def hcloneField (E : HKEnv) (rec : HSubClone) (f : FieldDesc) (p : List Nat) (v : HV) : Prog (Option HV) :=
  if v.isNil then pure none
  else if f.card == .repeated then do
    let w ← hcloneContainer E rec f p v
    pure (some w)
  else if isScalarKind f.kind then do
    let w ← hcloneBox v
    pure (some w)
  else do
    let w ← hcloneSingular E rec f.kind f.msg p v
    pure (some w)

/-- `CloneVT` of the oneof wrapper type of field `f` on a wrapper holding `v`, `features/clone/clone.go:234-268,276-281`: what the new wrapper
holds. -/
def hcloneMember (E : HKEnv) (rec : HSubClone) (f : FieldDesc) (p : List Nat) (v : HV) : Prog HV :=
  if isScalarKind f.kind then pure v
  else if f.hasMessage && (E.direct f.msg && !(E.S.msg f.msg).foreign) then rec p f.msg v
  else if v.isNil then pure .nil
  else hcloneSingular E rec f.kind f.msg p v

/-- `r.F = x` for a pointer `r` to a wrapper of number `n`. (`features/clone/clone.go:234-268`) -/
def hsetMember (r : HV) (n : Nat) (x : HV) : Prog Unit :=
  match r with
  | .ptr a => do
    match ← hread a with
    | .wrap n' _ => if n' = n then hwrite a (.wrap n x) else Prog.lift (.panic .typeConfusion)
    | _ => Prog.lift (.panic .typeConfusion)
  | _ => Prog.lift (.panic .typeConfusion)

/-- `cloneOneofField`, `features/clone/clone.go:51-69`, with the dynamic dispatch on the wrapper's type, and the method of the wrapper, `:169-205`: the new wrapper
is allocated first. -/
def hcloneOneof (E : HKEnv) (rec : HSubClone) (d : MsgDesc) (slot : Nat) (p : List Nat) (v : HV) : Prog (Option HV) :=
  match v with
  | .nil => pure none
  | .ptr a => do
    match ← hread a with
    | .wrap n x => match d.member slot n with
      | some f => do
        let b ← halloc (.wrap n (hzeroScalar f.kind))
        let y ← hcloneMember E rec f p x
        hsetMember (.ptr b) n y
        pure (some (.ptr b))
      | none => Prog.lift (.panic .typeConfusion)
    | _ => Prog.lift (.panic .typeConfusion)
  | .wrapNil n => if (d.member slot n).isSome then pure (some (.wrapNil n)) else Prog.lift (.panic .typeConfusion)
  | _ => Prog.lift (.panic .typeConfusion)

/-- Assignments of the first pass, `features/clone/clone.go:199-214`, of the message at `m` to the one at `r`. -/
def hcloneFirst (E : HKEnv) (rec : HSubClone) (d : MsgDesc) (p : List Nat) (m r : HV) : List FieldDesc → Prog Unit
  | [] => pure ()
  | f :: fs =>
    if !isReference d.proto3 f then do
      let v ← hgetSlot m f.slot
      hsetSlot r f.slot v
      hcloneFirst E rec d p m r fs
    else do
      let v ← hgetSlot m f.slot
      let w ← rec (p ++ [f.slot]) f.msg v
      hsetSlot r f.slot w
      hcloneFirst E rec d p m r fs

/-- An assignment to a struct field under `if rhs != nil`, `features/clone/clone.go:57-68,119-151`. -/
def hassignTo (r : HV) (slot : Nat) : Option HV → Prog Unit
  | some w => hsetSlot r slot w
  | none => pure ()

/-- One field of the second pass, `features/clone/clone.go:219-220,51-69,100-151`: what is assigned, if anything. -/
def hcloneOut (E : HKEnv) (rec : HSubClone) (d : MsgDesc) (f : FieldDesc) (p : List Nat) (v : HV) : Prog (Option HV) :=
  if f.oneof then hcloneOneof E rec d f.slot p v else hcloneField E rec f p v

/-- Assignments of the second pass, `features/clone/clone.go:218-221`. -/
def hcloneSecond (E : HKEnv) (rec : HSubClone) (d : MsgDesc) (p : List Nat) (m r : HV) : List FieldDesc → Prog Unit
  | [] => pure ()
  | f :: fs => do
    let v ← hgetSlot m f.slot
    let o ← hcloneOut E rec d f (p ++ [f.slot]) v
    hassignTo r f.slot o
    hcloneSecond E rec d p m r fs

/-- `p.Alloc`, `features/clone/clone.go:184`, `generator/generatedfile.go:54-65`. -/
def hcloneAlloc (E : HKEnv) (p : List Nat) (t : Nat) : Prog HV := if (E.S.msg t).pooled then poolGet E.S (E.pick p) t else hnew E.S t

/-- `r.unknownFields = …`. (`features/clone/clone.go:223-229`) -/
def hsetUnknown (r u : HV) : Prog Unit :=
  match r with
  | .ptr a => do
    match ← hread a with
    | .msg s _ e => hwrite a (.msg s u e)
    | _ => Prog.lift (.panic .typeConfusion)
  | _ => Prog.lift (.panic .typeConfusion)

/-- `m.unknownFields` (`features/clone/clone.go:223-229`) -/
def hgetUnknown (m : HV) : Prog HV :=
  match m with
  | .nil => Prog.lift (.panic .nilDeref)
  | .ptr a => do
    match ← hread a with
    | .msg _ u _ => pure u
    | _ => Prog.lift (.panic .typeConfusion)
  | _ => Prog.lift (.panic .typeConfusion)

/-- `make([]byte, n)` (`features/clone/clone.go:89-92,223-229`) -/
def hmakeBytes (n : Nat) : Prog HV := do
  let a ← halloc (.bytes (List.replicate n 0))
  pure (.bytes a 0 n)

/-- `copy(d, b)` of bytes already read. (`features/clone/clone.go:89-92,127-144,223-229`) -/
def hcopyInto (d : HV) (b : Bytes) : Prog Unit :=
  match d with
  | .nil => pure ()
  | .bytes a off len => do
    match ← hread a with
    | .bytes c => hwrite a (.bytes (c.take off ++ b.take len ++ c.drop (off + min len b.length)))
    | _ => Prog.lift (.panic .typeConfusion)
  | _ => Prog.lift (.panic .typeConfusion)

/-- Cloning of the unknown fields, `features/clone/clone.go:223-229`: `make`, assignment, `copy`. -/
def hcloneUnknown (E : HKEnv) (t : Nat) (m r : HV) : Prog Unit :=
  if (E.S.msg t).keepUnknown then do
    let u ← hgetUnknown m
    let b ← hreadBytes u
    if b.length > 0 then do
      let d ← hmakeBytes b.length
      hsetUnknown r d
      let d ← hgetUnknown r
      let u ← hgetUnknown m
      let b ← hreadBytes u
      hcopyInto d b
    else pure ()
  else pure ()

/-- `body`, `features/clone/clone.go:169-232`. -/
def hcloneBody (E : HKEnv) (rec : HSubClone) : HSubClone := fun p t v =>
  if v.isNil then pure .nil
  else do
    let r ← hcloneAlloc E p t
    hcloneFirst E rec (E.S.msg t) p v r (cloneSplit E.S E.direct (E.S.msg t) [] (E.S.msg t).fields).1
    hcloneSecond E rec (E.S.msg t) p v r (cloneSplit E.S E.direct (E.S.msg t) [] (E.S.msg t).fields).2
    hcloneUnknown E t v r
    pure r

/-- The method with its recursion limited to a depth. (`features/clone/clone.go:154-232`) -/
def hcloneN (E : HKEnv) : Nat → HSubClone
  | 0 => fun _ _ _ => Prog.lift .diverge
  | n + 1 => hcloneBody E (hcloneN E n)

end Vtp.Conc
