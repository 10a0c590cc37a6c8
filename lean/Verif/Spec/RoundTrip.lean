import Verif.Spec.Same
/-!
# What is left of a message that is written and read back

`back S R t v` is the message one expects from decoding the encoding of `v`: the encoding does not show nil from empty lists, maps and
bytes without presence, nil from empty messages in lists, maps and oneofs, negative from positive zero without presence; the order of
map entries, elements beyond the length of a slice and extensions are not written either. Everything else is there bit by bit.
-/

namespace Vtp.Spec

/-- A message of a foreign type, written and read back by the runtime. -/
def reparse (R : Runtime) (t : Nat) (v : Val) : Val := ((R.marshal t v).bind (R.unmarshal t)).getD .nil

/-- A present element, map value, oneof member or field. -/
def backElem (S : Schema) (R : Runtime) (rec : Nat → Val → Val) (k : Kind) (t : Nat) (v : Val) : Val :=
  if k = .message then if (S.msg t).foreign then reparse R t v else if v = .nil then zeroMsg S t else rec t v
  else if k = .bytes then .str v.bytes
  else v

/-- A field that is not in a oneof. -/
def backField (S : Schema) (R : Runtime) (rec : Nat → Val → Val) (f : FieldDesc) (v : Val) : Val :=
  match f.map with
  | some md => if v.entries = [] then .nil else .map (v.entries.reverse.map fun e => (e.1, backElem S R rec md.val md.valMsg e.2))
  | none =>
    if f.card = .repeated then if v.elems = [] then .nil else .list (v.elems.map (backElem S R rec f.kind f.msg)) []
    else if f.presence then if v = .nil then .nil else backElem S R rec f.kind f.msg v
    else if isZeroVal f.kind v then zeroField f
    else backElem S R rec f.kind f.msg v

/-- A oneof. -/
def backOneof (S : Schema) (R : Runtime) (rec : Nat → Val → Val) (d : MsgDesc) (slot : Nat) (v : Val) : Val :=
  match v with
  | .wrap n x => match d.member slot n with
    | some f => .wrap n (backElem S R rec f.kind f.msg x)
    | none => .nil
  | _ => .nil

/-- A struct field. -/
def backSlot (S : Schema) (R : Runtime) (rec : Nat → Val → Val) (d : MsgDesc) (slots : List Val) (s : Nat) : Val :=
  match d.fields.find? (fun f => f.slot == s) with
  | some f => if f.oneof then backOneof S R rec d s (slotOf slots f) else backField S R rec f (slotOf slots f)
  | none => .nil

/-- A message, to a given depth. -/
def backN (S : Schema) (R : Runtime) : Nat → Nat → Val → Val
  | 0, _, v => v
  | n + 1, t, v =>
    match v with
    | .msg slots u _ => .msg ((List.range (S.msg t).nslots).map (backSlot S R (backN S R n) (S.msg t) slots)) (if (S.msg t).keepUnknown then u else []) []
    | v => v

/-- What is left of a message. -/
def back (S : Schema) (R : Runtime) (t : Nat) (v : Val) : Val := backN S R v.depth t v

/-- The runtime can write the message and reads back an equal one, which it writes the same way up to map order. Nil messages come
back empty. -/
def Restored (S : Schema) (R : Runtime) (t : Nat) (v : Val) : Prop :=
  ∃ b w v', R.marshal t v = some b ∧ R.unmarshal t b = some w ∧ R.equal t (orEmpty S t v) w = true ∧ Shuffle v v' ∧ R.marshal t w = R.marshal t v'

/-- An element that survives: no group, no nil message of a type with required fields. -/
def RestorableElem (S : Schema) (R : Runtime) (sub : Nat → Val → Prop) (k : Kind) (t : Nat) (v : Val) : Prop :=
  if k = .group then False
  else if k = .message then
    if (S.msg t).foreign then Restored S R t v
    else if v = .nil then ∀ f ∈ (S.msg t).fields, f.card ≠ .required
    else sub t v
  else True

/-- `u` consists of records of fields that the type does not have. -/
def UnknownTo (d : MsgDesc) (u : Bytes) : Prop :=
  ∃ rs, Records rs u ∧ ∀ r ∈ rs, (∀ f ∈ d.fields, f.num ≠ r.num) ∧ ∀ e ∈ d.extRanges, ¬ (e.1 ≤ r.num ∧ r.num < e.2)

/-- Nothing in the message stands in the way of reading it back, down to depth `n`; the unknown fields that are kept have the property `U`. -/
def RestorableG (U : MsgDesc → Bytes → Prop) (S : Schema) (R : Runtime) : Nat → Nat → Val → Prop
  | 0 => fun _ _ => True
  | n + 1 => fun t v =>
    match v with
    | .msg s u _ => ((S.msg t).keepUnknown = true → U (S.msg t) u) ∧ ∀ f ∈ (S.msg t).fields,
      match slotOf s f with
      | .nil => True
      | .wrap n' x => f.num = n' → RestorableElem S R (RestorableG U S R n) f.kind f.msg x
      | .list xs _ => ∀ x ∈ xs, RestorableElem S R (RestorableG U S R n) f.kind f.msg x
      | .map es => ∀ md, f.map = some md → ∀ e ∈ es, RestorableElem S R (RestorableG U S R n) md.val md.valMsg e.2
      | v => RestorableElem S R (RestorableG U S R n) f.kind f.msg v
    | _ => True

/-- The unknown fields are well-formed records of fields the type does not have. -/
abbrev RestorableN (S : Schema) (R : Runtime) : Nat → Nat → Val → Prop := RestorableG UnknownTo S R

/-- The unknown fields are well-formed and unknown; no group is set; nil messages in lists, maps and oneofs have no required fields; the
runtime reads back the foreign messages. -/
def Restorable (S : Schema) (R : Runtime) (t : Nat) (v : Val) : Prop := ∀ n, RestorableN S R n t v

end Vtp.Spec
