import Verif.Spec.Typing
import Verif.Spec.Zigzag
/-!
# The encoding of a message

A forward, compositional description of the bytes a message should marshal to, following the
encoding document: a message is the concatenation of the records of its populated fields. `none`
means there is no encoding: a required field is not set (or the runtime refuses a foreign message).
-/

namespace Vtp.Spec

/-- Wire types of the encoding document. -/
def wireType (k : Kind) : Nat :=
  if k ∈ [.int32, .int64, .uint32, .uint64, .sint32, .sint64, .bool, .enum] then 0
  else if k ∈ [.fixed64, .sfixed64, .double] then 1
  else if k ∈ [.fixed32, .sfixed32, .float] then 5
  else if k = .group then 3
  else 2

/-- A tag. -/
def tag (num wt : Nat) : Bytes := varint (num * 8 + wt)

/-- `n` bytes of `v`, least significant first. -/
def littleEndian (n v : Nat) : Bytes := (List.range n).map fun k => UInt8.ofNat (v / 256 ^ k)

/-- A length prefix. Lengths are below 2^64. -/
def lenPrefix (n : Nat) : Bytes := varint (n % 2 ^ 64)

/-- A length-delimited payload. -/
def delimited (b : Bytes) : Bytes := lenPrefix b.length ++ b

/-- The payload of a scalar. -/
def scalar (k : Kind) (v : Val) : Bytes :=
  match wireType k with
  | 1 => littleEndian 8 v.bits.toNat
  | 5 => littleEndian 4 v.bits.toNat
  | 0 => match k with
    | .sint32 => varint (zigzag (v.bits.setWidth 32).toInt)
    | .sint64 => varint (zigzag v.bits.toInt)
    | .bool => varint (if v.bits = 0 then 0 else 1)
    | _ => varint v.bits.toNat
  | _ => delimited v.bytes

/-- Concatenation of encodings, all of which have to exist. -/
def concat : List (Option Bytes) → Option Bytes
  | [] => some []
  | x :: xs => do
    let a ← x
    let b ← concat xs
    some (a ++ b)

/-- Encoding of a sub-message's contents: by its own type or by the runtime. -/
def sub (E : Env) (rec : Nat → Val → Option Bytes) (t : Nat) (v : Val) : Option Bytes :=
  if (E.S.msg t).foreign then E.R.marshal t v else rec t v

/-- The record of one value of a field. -/
def record (E : Env) (rec : Nat → Val → Option Bytes) (num : Nat) (k : Kind) (t : Nat) (v : Val) : Option Bytes :=
  match k with
  | .message => do
    let b ← sub E rec t v
    some (tag num 2 ++ delimited b)
  | .group => do
    let b ← sub E rec t v
    some (tag num 3 ++ (b ++ tag num 4))
  | k => some (tag num (wireType k) ++ scalar k v)

/-- The record of a map entry. -/
def entry (E : Env) (rec : Nat → Val → Option Bytes) (num : Nat) (md : MapDesc) (e : Key × Val) : Option Bytes := do
  let k ← record E rec 1 md.key 0 e.1.toVal
  let v ← record E rec 2 md.val md.valMsg e.2
  some (tag num 2 ++ delimited (k ++ v))

/-- The records of a field that is not in a oneof. The entries of a map come out in the reverse of
the iteration order. -/
def field (E : Env) (rec : Nat → Val → Option Bytes) (f : FieldDesc) (v : Val) : Option Bytes :=
  match f.map with
  | some md => concat (v.entries.reverse.map (entry E rec f.num md))
  | none =>
    if f.card = .repeated then
      if f.packed then
        if v.elems = [] then some []
        else some (tag f.num 2 ++ delimited (v.elems.map (scalar f.kind)).flatten)
      else concat (v.elems.map (record E rec f.num f.kind f.msg))
    else if f.presence || f.hasMessage then
      if v = .nil then (if f.card = .required then none else some [])
      else record E rec f.num f.kind f.msg v
    else if isZeroVal f.kind v then some []
    else record E rec f.num f.kind f.msg v

/-- The record of the member a oneof holds. -/
def oneof (E : Env) (rec : Nat → Val → Option Bytes) (d : MsgDesc) (slot : Nat) (v : Val) : Option Bytes :=
  match v with
  | .wrap n x => match d.member slot n with
    | some f => record E rec f.num f.kind f.msg x
    | none => some []
  | _ => some []

/-- The fields in ascending order. -/
def ascending (fs : List FieldDesc) : List FieldDesc := fs.insertionSort (fun a b => a.num ≤ b.num)

/-- The last member of each oneof. -/
def oneofLast (fs : List FieldDesc) : List FieldDesc :=
  (ascending fs).filter fun f => f.oneof && fs.all fun g => !(g.oneof && g.slot == f.slot) || decide (g.num ≤ f.num)

/-- The order of the protobuf-go runtime: plain fields ascending, then the oneofs by their last member. -/
def bodyDefault (E : Env) (rec : Nat → Val → Option Bytes) (d : MsgDesc) (slots : List Val) : Option Bytes :=
  concat (((ascending d.fields).filter (fun f => !f.oneof)).map (fun f => field E rec f (slotOf slots f)) ++
    (oneofLast d.fields).map (fun f => oneof E rec d f.slot (slotOf slots f)))

/-- Strict order: everything ascending by field number; the member of a oneof at its own number. -/
def bodyStrict (E : Env) (rec : Nat → Val → Option Bytes) (d : MsgDesc) (slots : List Val) : Option Bytes :=
  concat ((ascending d.fields).map fun f =>
    if f.oneof then
      match slotOf slots f with
      | .wrap n x => if n = f.num then record E rec f.num f.kind f.msg x else some []
      | _ => some []
    else field E rec f (slotOf slots f))

/-- The encoding of a message, to a given depth. A nil message encodes to nothing. -/
def encodeN (E : Env) (strict : Bool) : Nat → Nat → Val → Option Bytes
  | 0, _, _ => some []
  | n + 1, t, v =>
    match v with
    | .msg slots unk _ => do
      let d := E.S.msg t
      let b ← if strict then bodyStrict E (encodeN E strict n) d slots else bodyDefault E (encodeN E strict n) d slots
      some (b ++ (if d.keepUnknown then unk else []))
    | _ => some []

/-- The encoding of a message of type `t`; `strict` selects the field order. -/
def encode (E : Env) (strict : Bool) (t : Nat) (v : Val) : Option Bytes := encodeN E strict v.depth t v

/-- What is assumed of the runtime for encoding: `proto.Size` is the length `proto.Marshal` produces,
and a nil message is empty. -/
structure RuntimeEnc (R : Runtime) : Prop where
  size : ∀ t v b, R.marshal t v = some b → R.size t v = b.length
  nil : ∀ t, R.marshal t .nil = some []

end Vtp.Spec
