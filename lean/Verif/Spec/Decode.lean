import Verif.Model.Unmarshal
import Verif.Spec.Encode
/-!
# What the wire format says an input means

`Decodes S R t b m m'`: the bytes `b` are a valid encoding of a message of type `t`, and merging it into `m`
gives `m'`. Written from the encoding document, record by record, independently of the decoder. Scalars of
64-bit targets; sub-messages are made afresh where there is none (`zeroMsg` is `&T{}`).

Not covered, so not claimed: records of known group fields, records in extension ranges, map entries with two
records for the key or for the value, map entries without a value for message values.
-/

namespace Vtp.Spec

/-- Number denoted by bytes, least significant first. -/
def fromLE : Bytes → Nat
  | [] => 0
  | b :: bs => b.toNat + 256 * fromLE bs

/-- The low 32 bits of `v` as a signed number. -/
def low32 (v : Nat) : Int := if v % 2 ^ 32 < 2 ^ 31 then (v % 2 ^ 32 : Nat) else (v % 2 ^ 32 : Nat) - 2 ^ 32

/-- The value a varint has in a field of the given kind (as 64-bit pattern): 32-bit kinds take the low bits. -/
def varintNum (k : Kind) (v : Nat) : BitVec 64 :=
  match k with
  | .bool => if v = 0 then 0 else 1
  | .int32 => BitVec.ofInt 64 (low32 v)
  | .enum => BitVec.ofInt 64 (low32 v)
  | .uint32 => BitVec.ofNat 64 (v % 2 ^ 32)
  | .sint32 => BitVec.ofInt 64 (unzigzag (v % 2 ^ 32))
  | .sint64 => BitVec.ofInt 64 (unzigzag v)
  | _ => BitVec.ofNat 64 v

/-- The scalar a payload denotes for a kind; none if the wire type is not the kind's. -/
def scalarValue (k : Kind) (p : Payload) : Option Val :=
  match p with
  | .varint v => if wireType k = 0 then some (.num (varintNum k v)) else none
  | .i64 bs => if wireType k = 1 then some (.num (BitVec.ofNat 64 (fromLE bs))) else none
  | .i32 bs => if wireType k = 5 then
      some (.num (if k = .sfixed32 then BitVec.ofInt 64 (low32 (fromLE bs)) else BitVec.ofNat 64 (fromLE bs))) else none
  | .len bs => if k = .string ∨ k = .bytes then some (.str bs) else none
  | .group _ => none

/-- An element of a packed field. -/
inductive PackedItem : Payload → Bytes → Prop
  | varint {v : Nat} {bs : Bytes} : IsVarint v bs → PackedItem (.varint v) bs
  | i64 {bs : Bytes} : bs.length = 8 → PackedItem (.i64 bs) bs
  | i32 {bs : Bytes} : bs.length = 4 → PackedItem (.i32 bs) bs

/-- The elements of a packed payload. -/
inductive Packed (k : Kind) : Bytes → List Val → Prop
  | nil : Packed k [] []
  | cons {p : Payload} {bs rest : Bytes} {v : Val} {vs : List Val} : PackedItem p bs → scalarValue k p = some v → Packed k rest vs →
      Packed k (bs ++ rest) (v :: vs)

/-- The bytes of one element of a kind in a packed field, if only the element's extent is looked at. -/
inductive Piece (k : Kind) : Bytes → Prop
  | varint {bs : Bytes} : wireType k = 0 → Leb bs → bs.length ≤ 10 → Piece k bs
  | i64 {bs : Bytes} : wireType k = 1 → bs.length = 8 → Piece k bs
  | i32 {bs : Bytes} : wireType k = 5 → bs.length = 4 → Piece k bs

/-- The bytes are a whole number of elements. -/
inductive Pieces (k : Kind) : Bytes → Prop
  | nil : Pieces k []
  | cons {bs rest : Bytes} : Piece k bs → Pieces k rest → Pieces k (bs ++ rest)

/-- One record: field number, payload and the bytes it consists of. -/
structure Rec where
  num : Nat
  payload : Payload
  raw : Bytes

/-- The bytes are the concatenation of these well-formed records. -/
inductive Records : List Rec → Bytes → Prop
  | nil : Records [] []
  | cons {r : Rec} {rs : List Rec} {rest : Bytes} : IsRecord r.num r.payload r.raw → Records rs rest → Records (r :: rs) (r.raw ++ rest)

/-- Value of a field's struct field. -/
def get (m : Val) (f : FieldDesc) : Val :=
  match m with
  | .msg s _ _ => s.getD f.slot .nil
  | _ => .nil

/-- The message with a struct field changed. -/
def put (m : Val) (f : FieldDesc) (v : Val) : Val :=
  match m with
  | .msg s u e => .msg (s.set f.slot v) u e
  | m => m

/-- The message with bytes added to the unknown fields. -/
def addUnknown (m : Val) (b : Bytes) : Val :=
  match m with
  | .msg s u e => .msg s (u ++ b) e
  | m => m

/-- The unknown fields of a message. -/
def unknownOf : Val → Bytes
  | .msg _ u _ => u
  | _ => []

/-- The message with other unknown fields. -/
def setUnknown (m : Val) (b : Bytes) : Val :=
  match m with
  | .msg s _ e => .msg s b e
  | m => m

/-- A slice with elements added; what was beyond its length is overwritten. -/
def extend (v : Val) (xs : List Val) : Val :=
  match v with
  | .list ys sp => .list (ys ++ xs) (sp.drop xs.length)
  | v => if xs = [] then v else .list xs []

/-- The map with the entry for a key changed or added. -/
def insertEntry (es : List (Key × Val)) (k : Key) (v : Val) : List (Key × Val) :=
  if es.any (fun e => e.1 == k) then es.map fun e => if e.1 = k then (k, v) else e else es ++ [(k, v)]

/-- Decoding of sub-messages: type, bytes, message before and after. -/
abbrev SubRel := Nat → Bytes → Val → Val → Prop

/-- Reading the records of a map entry: key and value so far, key and value at the end. -/
inductive EntrySteps (S : Schema) (sub : SubRel) (md : MapDesc) : List Rec → Option Val → Option Val → Option Val → Option Val → Prop
  | nil {k v : Option Val} : EntrySteps S sub md [] k v k v
  | key {p : Payload} {raw : Bytes} {rs : List Rec} {k : Val} {v k' v' : Option Val} : scalarValue md.key p = some k →
      EntrySteps S sub md rs (some k) v k' v' → EntrySteps S sub md (⟨1, p, raw⟩ :: rs) none v k' v'
  | value {p : Payload} {raw : Bytes} {rs : List Rec} {v : Val} {k k' v' : Option Val} : scalarValue md.val p = some v →
      EntrySteps S sub md rs k (some v) k' v' → EntrySteps S sub md (⟨2, p, raw⟩ :: rs) k none k' v'
  | message {b raw : Bytes} {rs : List Rec} {v : Val} {k k' v' : Option Val} : md.val = .message → sub md.valMsg b (zeroMsg S md.valMsg) v →
      EntrySteps S sub md rs k (some v) k' v' → EntrySteps S sub md (⟨2, .len b, raw⟩ :: rs) k none k' v'
  | other {r : Rec} {rs : List Rec} {k v k' v' : Option Val} : r.num ≠ 1 → r.num ≠ 2 →
      EntrySteps S sub md rs k v k' v' → EntrySteps S sub md (r :: rs) k v k' v'

/-- The key a scalar is as a map key. -/
def asKey : Val → Key
  | .num n => .num n
  | .str b => .str b
  | _ => .num 0

/-- The zero of a key kind. -/
def zeroKey (k : Kind) : Key := if k = .string then .str [] else .num 0

/-- The value of an entry without value record: zero; for bytes nil. -/
def zeroValue (k : Kind) : Val := if k = .string then .str [] else if k = .bytes then .nil else .num 0

/-- `b` is a map entry with key `k` and value `v`: records in any order, unknown ones ignored, missing ones
standing for zero. -/
def Entry (S : Schema) (sub : SubRel) (md : MapDesc) (b : Bytes) (k : Key) (v : Val) : Prop :=
  ∃ rs k' v', Records rs b ∧ EntrySteps S sub md rs none none k' v' ∧ k = (k'.map asKey).getD (zeroKey md.key) ∧
    (v' = none → md.val ≠ .message) ∧ v = v'.getD (zeroValue md.val)

/-- The message a record of a oneof member is merged into: the one held, or a new one. -/
def heldOrNew (S : Schema) (f : FieldDesc) (v : Val) : Val :=
  match v with
  | .wrap n x => if n = f.num then x else zeroMsg S f.msg
  | _ => zeroMsg S f.msg

/-- The record belongs to a field of the message. -/
def known (d : MsgDesc) (r : Rec) : Bool := d.fields.any fun f => f.num == r.num

/-- What one record does to a message of a type with descriptor `d`. -/
inductive Step (S : Schema) (sub : SubRel) (d : MsgDesc) : Rec → Val → Val → Prop
  /-- a singular scalar: replaced -/
  | scalar {f : FieldDesc} {p : Payload} {raw : Bytes} {m v : Val} : f ∈ d.fields → f.oneof = false → f.card ≠ .repeated →
      scalarValue f.kind p = some v → Step S sub d ⟨f.num, p, raw⟩ m (put m f v)
  /-- a scalar member of a oneof: replaces whatever the oneof held -/
  | member {f : FieldDesc} {p : Payload} {raw : Bytes} {m v : Val} : f ∈ d.fields → f.oneof = true →
      scalarValue f.kind p = some v → Step S sub d ⟨f.num, p, raw⟩ m (put m f (.wrap f.num v))
  /-- an element of a repeated scalar: appended -/
  | element {f : FieldDesc} {p : Payload} {raw : Bytes} {m v : Val} : f ∈ d.fields → f.card = .repeated → f.map = none →
      scalarValue f.kind p = some v → Step S sub d ⟨f.num, p, raw⟩ m (put m f (extend (get m f) [v]))
  /-- packed elements: appended, whether or not the field is declared packed -/
  | packed {f : FieldDesc} {b raw : Bytes} {m : Val} {vs : List Val} : f ∈ d.fields → f.card = .repeated → f.map = none →
      numeric f.kind = true → Packed f.kind b vs → Step S sub d ⟨f.num, .len b, raw⟩ m (put m f (extend (get m f) vs))
  /-- a singular message: merged into the one there -/
  | message {f : FieldDesc} {b raw : Bytes} {m x : Val} : f ∈ d.fields → f.oneof = false → f.card ≠ .repeated → f.kind = .message →
      sub f.msg b (if get m f = .nil then zeroMsg S f.msg else get m f) x → Step S sub d ⟨f.num, .len b, raw⟩ m (put m f x)
  /-- a message member of a oneof: merged if the oneof holds that member -/
  | memberMessage {f : FieldDesc} {b raw : Bytes} {m x : Val} : f ∈ d.fields → f.oneof = true → f.kind = .message →
      sub f.msg b (heldOrNew S f (get m f)) x → Step S sub d ⟨f.num, .len b, raw⟩ m (put m f (.wrap f.num x))
  /-- an element of a repeated message: appended -/
  | elementMessage {f : FieldDesc} {b raw : Bytes} {m x : Val} : f ∈ d.fields → f.card = .repeated → f.map = none → f.kind = .message →
      sub f.msg b (zeroMsg S f.msg) x → Step S sub d ⟨f.num, .len b, raw⟩ m (put m f (extend (get m f) [x]))
  /-- a map entry: inserted -/
  | entry {f : FieldDesc} {md : MapDesc} {b raw : Bytes} {m v : Val} {k : Key} : f ∈ d.fields → f.map = some md →
      Entry S sub md b k v → Step S sub d ⟨f.num, .len b, raw⟩ m (put m f (.map (insertEntry (get m f).entries k v)))
  /-- an unknown field: kept unless that is switched off -/
  | unknown {r : Rec} {m : Val} : (∀ f ∈ d.fields, f.num ≠ r.num) → (∀ e ∈ d.extRanges, ¬(e.1 ≤ r.num ∧ r.num < e.2)) →
      Step S sub d r m (if d.keepUnknown then addUnknown m r.raw else m)

/-- What a sequence of records does. -/
inductive Steps (S : Schema) (sub : SubRel) (d : MsgDesc) : List Rec → Val → Val → Prop
  | nil {m : Val} : Steps S sub d [] m m
  | cons {r : Rec} {rs : List Rec} {m m1 m2 : Val} : Step S sub d r m m1 → Steps S sub d rs m1 m2 → Steps S sub d (r :: rs) m m2

/-- The elements that the records of a repeated field denote, in order; other records are passed over. -/
inductive Elements (S : Schema) (sub : SubRel) (f : FieldDesc) : List Rec → List Val → Prop
  | nil : Elements S sub f [] []
  | other {r : Rec} {rs : List Rec} {xs : List Val} : r.num ≠ f.num → Elements S sub f rs xs → Elements S sub f (r :: rs) xs
  | element {p : Payload} {raw : Bytes} {rs : List Rec} {x : Val} {xs : List Val} : scalarValue f.kind p = some x → Elements S sub f rs xs →
      Elements S sub f (⟨f.num, p, raw⟩ :: rs) (x :: xs)
  | packed {b raw : Bytes} {rs : List Rec} {ys xs : List Val} : numeric f.kind = true → Packed f.kind b ys → Elements S sub f rs xs →
      Elements S sub f (⟨f.num, .len b, raw⟩ :: rs) (ys ++ xs)
  | message {b raw : Bytes} {rs : List Rec} {x : Val} {xs : List Val} : f.kind = .message → sub f.msg b (zeroMsg S f.msg) x → Elements S sub f rs xs →
      Elements S sub f (⟨f.num, .len b, raw⟩ :: rs) (x :: xs)

/-- The entries that the records of a map field denote, in order. -/
inductive MapEntries (S : Schema) (sub : SubRel) (f : FieldDesc) (md : MapDesc) : List Rec → List (Key × Val) → Prop
  | nil : MapEntries S sub f md [] []
  | other {r : Rec} {rs : List Rec} {es : List (Key × Val)} : r.num ≠ f.num → MapEntries S sub f md rs es → MapEntries S sub f md (r :: rs) es
  | entry {b raw : Bytes} {rs : List Rec} {k : Key} {v : Val} {es : List (Key × Val)} : Entry S sub md b k v → MapEntries S sub f md rs es →
      MapEntries S sub f md (⟨f.num, .len b, raw⟩ :: rs) ((k, v) :: es)

/-- The payloads of the records of a field, in order. -/
def payloads (f : FieldDesc) (rs : List Rec) : List Payload := (rs.filter fun r => r.num == f.num).map (·.payload)

/-- The value a map holds for a key. -/
def lookup (es : List (Key × Val)) (k : Key) : Option Val := (es.find? fun e => e.1 == k).map (·.2)

/-- Every required field has a record. -/
def Complete (d : MsgDesc) (rs : List Rec) : Prop := ∀ f ∈ d.fields, f.card = .required → ∃ r ∈ rs, r.num = f.num

/-- Foreign messages are decoded by the runtime, which resets them first. -/
def subRel (S : Schema) (R : Runtime) (rec : SubRel) : SubRel := fun t b m m' =>
  if (S.msg t).foreign then R.unmarshal t b = some m' else rec t b m m'

/-- Valid encodings with sub-messages nested at most `n - 1` deep. -/
def DecodesN (S : Schema) (R : Runtime) : Nat → SubRel
  | 0 => fun _ _ _ _ => False
  | n + 1 => fun t b m m' => ∃ rs, Records rs b ∧ Steps S (subRel S R (DecodesN S R n)) (S.msg t) rs m m' ∧ Complete (S.msg t) rs

/-- `b` is a valid encoding of a message of type `t`; merging it into `m` gives `m'`. -/
def Decodes (S : Schema) (R : Runtime) (t : Nat) (b : Bytes) (m m' : Val) : Prop := ∃ n, DecodesN S R n t b m m'

/-- What a sequence of records does to a message of type `t`, whether or not required fields are among them. -/
def Merges (S : Schema) (R : Runtime) (t : Nat) (rs : List Rec) (m m' : Val) : Prop :=
  ∃ n, Steps S (subRel S R (DecodesN S R n)) (S.msg t) rs m m'

end Vtp.Spec
