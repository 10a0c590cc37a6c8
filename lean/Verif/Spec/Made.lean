import Verif.Spec.RoundTrip
import Verif.Spec.Chunks
/-!
# Messages made by decoding

`MadeN w S R n t v`: down to depth `n`, the message `v` of type `t` has its required fields, and what its fields hold is of the shape that
decoding gives: no group, no nil message other than as a map value, messages of foreign types as the runtime gave them; its unknown fields
are records in the liberal sense of `Skip`, not always well-formed ones. `w` is the size of `int`.
-/

namespace Vtp.Spec

/-- An element of a list, a member of a oneof or a field that is there. -/
def MadeElem (S : Schema) (R : Runtime) (sub : Nat → Val → Prop) (k : Kind) (t : Nat) (v : Val) : Prop :=
  k ≠ .group ∧ (k = .message → (∃ s u e, v = .msg s u e) ∧ ((S.msg t).foreign = true → ∃ b, R.unmarshal t b = some v) ∧ ((S.msg t).foreign = false → sub t v))

/-- A value of a map: an entry without a value gives a nil message. -/
def MadeVal (S : Schema) (R : Runtime) (sub : Nat → Val → Prop) (md : MapDesc) (v : Val) : Prop :=
  (md.val = .message ∧ v = .nil) ∨ MadeElem S R sub md.val md.valMsg v

/-- What a field holds. -/
def SlotMade (S : Schema) (R : Runtime) (sub : Nat → Val → Prop) (f : FieldDesc) (v : Val) : Prop :=
  if f.oneof then v = .nil ∨ ∃ n x, v = .wrap n x ∧ (n = f.num → MadeElem S R sub f.kind f.msg x)
  else match f.map with
    | some md => v = .nil ∨ ∃ es, v = .map es ∧ ∀ e ∈ es, MadeVal S R sub md e.2
    | none =>
      if f.card = .repeated then v = .nil ∨ ∃ xs sp, v = .list xs sp ∧ ∀ x ∈ xs, MadeElem S R sub f.kind f.msg x
      else v = .nil ∨ MadeElem S R sub f.kind f.msg v

/-- `u` consists of what `Skip` regards as records, with tags of fields that the type does not have. -/
def LooseUnknown (w : Nat) (d : MsgDesc) (u : Bytes) : Prop :=
  ∃ ps : List Chunk, (ps.map (·.raw)).flatten = u ∧ ∀ p ∈ ps, p.Headed ∧ LooseRecord w p.raw ∧ fieldOf d p.num = none

/-- All fields, required or not. -/
def PartMade (w : Nat) (S : Schema) (R : Runtime) (sub : Nat → Val → Prop) (t : Nat) (v : Val) : Prop :=
  ∃ s u e, v = .msg s u e ∧ s.length = (S.msg t).nslots ∧ ((S.msg t).keepUnknown = true → LooseUnknown w (S.msg t) u) ∧ ∀ f ∈ (S.msg t).fields, SlotMade S R sub f (slotOf s f)

/-- A message, down to depth `n`. -/
def MadeN (w : Nat) (S : Schema) (R : Runtime) : Nat → Nat → Val → Prop
  | 0 => fun _ _ => True
  | n + 1 => fun t v => PartMade w S R (MadeN w S R n) t v ∧ ∀ s u e, v = .msg s u e → ∀ f ∈ (S.msg t).fields, f.card = .required → slotOf s f ≠ .nil

/-- A map entry without a value reads back: the messages in maps have no required fields. -/
def MapsOK (S : Schema) : Prop :=
  ∀ t, ∀ f ∈ (S.msg t).fields, ∀ md, f.map = some md → md.val = .message → ∀ g ∈ (S.msg md.valMsg).fields, g.card ≠ .required

/-- What is asked of the runtime: it writes and reads back the messages it decoded, and the nil messages in maps. -/
structure RuntimeBack (S : Schema) (R : Runtime) : Prop where
  decoded : ∀ t b v, (S.msg t).foreign = true → R.unmarshal t b = some v → Restored S R t v
  nil : ∀ t, ∀ f ∈ (S.msg t).fields, ∀ md, f.map = some md → md.val = .message → (S.msg md.valMsg).foreign = true → Restored S R md.valMsg .nil

/-- Messages that decoding gives: a message, with one accepted input or more decoded into it one after the other. -/
inductive Decoded (E : UEnv) (t : Nat) (start : Val) : Val → Prop where
  | one {b : Bytes} {m : Val} : unmarshalVT E t b start = (m, .ok ()) → E.A.Fits b.length → Decoded E t start m
  | more {b : Bytes} {m m' : Val} : Decoded E t start m → unmarshalVT E t b m = (m', .ok ()) → E.A.Fits b.length → Decoded E t start m'

end Vtp.Spec
