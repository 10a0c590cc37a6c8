import Verif.Spec.Content
import Verif.Spec.Decode
/-!
# When two messages have the same content

Written from the rules of message equality, field by field with "for all", independently of the order and the short
cuts of the generated code. Numbers are compared by the value they denote.
-/

namespace Vtp.Spec

/-- The value of an IEEE 754 number with `e` exponent and `f` fraction bits, in units of its smallest positive number; infinities get
the next value of the scale, NaN none. `x` is the bit pattern. -/
def ieee (e f : Nat) (x : Nat) : Option Int :=
  let exp := x / 2 ^ f % 2 ^ e
  let frac := x % 2 ^ f
  let mag : Nat := if exp = 0 then frac else (2 ^ f + frac) * 2 ^ (exp - 1)
  if exp = 2 ^ e - 1 ∧ frac ≠ 0 then none
  else some (if x / 2 ^ (e + f) % 2 = 1 then -(mag : Int) else mag)

/-- The number a value of a kind denotes; none for NaN. -/
def numValue (k : Kind) (v : Val) : Option Int :=
  match k with
  | .double => ieee 11 52 v.bits.toNat
  | .float => ieee 8 23 (v.bits.toNat % 2 ^ 32)
  | _ => some v.bits.toInt

/-- Same scalar: equal numbers (NaN is not equal to itself), equal strings, equal bytes. -/
def SameScalar (k : Kind) (v w : Val) : Prop :=
  if k = .string ∨ k = .bytes then v.bytes = w.bytes
  else numValue k v = numValue k w ∧ numValue k v ≠ none

/-- Same messages where there may be none. -/
abbrev SubSame := Nat → Val → Val → Prop

/-- A missing message among list elements, map values and oneof members counts as empty. -/
def orEmpty (S : Schema) (t : Nat) (v : Val) : Val := if v = .nil then zeroMsg S t else v

/-- Same elements, map values or oneof members. -/
def SameElem (S : Schema) (sub : SubSame) (k : Kind) (t : Nat) (v w : Val) : Prop :=
  if k = .message ∨ k = .group then sub t (orEmpty S t v) (orEmpty S t w) else SameScalar k v w

/-- Same keys, with related values. -/
def SameMap (r : Val → Val → Prop) (es fs : List (Key × Val)) : Prop :=
  ∀ k, match lookup es k, lookup fs k with
    | none, none => True
    | some x, some y => r x y
    | _, _ => False

/-- Same value of a field that is not in a oneof. -/
def SameField (S : Schema) (sub : SubSame) (f : FieldDesc) (v w : Val) : Prop :=
  match f.map with
  | some md => SameMap (SameElem S sub md.val md.valMsg) v.entries w.entries
  | none =>
    if f.card = .repeated then List.Forall₂ (SameElem S sub f.kind f.msg) v.elems w.elems
    else if f.presence then
      (v = .nil ↔ w = .nil) ∧ (v ≠ .nil → if f.kind = .message ∨ f.kind = .group then sub f.msg v w else SameScalar f.kind v w)
    else SameScalar f.kind v w

/-- Same value of a oneof: no member set, or the same member with the same value. Typed nil wrappers are only equal to each other. -/
def SameOneof (S : Schema) (sub : SubSame) (d : MsgDesc) (slot : Nat) (v w : Val) : Prop :=
  match v, w with
  | .nil, .nil => True
  | .wrap n x, .wrap n' y => n = n' ∧ ∃ f, d.member slot n = some f ∧ SameElem S sub f.kind f.msg x y
  | .wrapNil n, .wrapNil n' => n = n'
  | _, _ => False

/-- Same messages of a type with descriptor `d`. -/
def SameMsg (S : Schema) (sub : SubSame) (d : MsgDesc) : Val → Val → Prop
  | .msg s u _, .msg s' u' _ =>
    (∀ f ∈ d.fields, if f.oneof then SameOneof S sub d f.slot (slotOf s f) (slotOf s' f) else SameField S sub f (slotOf s f) (slotOf s' f)) ∧
    (d.keepUnknown = true → u = u')
  | .nil, .nil => True
  | _, _ => False

/-- Same sub-messages: by the type's own rules, or the runtime's. -/
def subSame (S : Schema) (R : Runtime) (rec : SubSame) : SubSame := fun t v w =>
  if (S.msg t).foreign then R.equal t v w = true else rec t v w

/-- No difference between the messages is found down to depth `n`. -/
def SameN (S : Schema) (R : Runtime) : Nat → SubSame
  | 0 => fun _ _ _ => True
  | n + 1 => fun t v w => SameMsg S (subSame S R (SameN S R n)) (S.msg t) v w

/-- The messages have the same content: there is no difference at any depth. -/
def Same (S : Schema) (R : Runtime) (t : Nat) (v w : Val) : Prop := ∀ n, SameN S R n t v w

/-- What is assumed of `proto.Equal`: an equivalence that tells nil from non-nil messages. -/
structure RuntimeEqual (R : Runtime) : Prop where
  refl : ∀ t v, R.equal t v v = true
  symm : ∀ t v w, R.equal t v w = true → R.equal t w v = true
  trans : ∀ t u v w, R.equal t u v = true → R.equal t v w = true → R.equal t u w = true
  isNil : ∀ t v w, R.equal t v w = true → (v = .nil ↔ w = .nil)

/-- No NaN in an element. -/
def NoNaNElem (sub : Nat → Val → Prop) (k : Kind) (t : Nat) (v : Val) : Prop :=
  if k = .message ∨ k = .group then v ≠ .nil → sub t v else numeric k = true → numValue k v ≠ none

/-- No float in the message is NaN, down to depth `n`. -/
def NoNaNN (S : Schema) : Nat → Nat → Val → Prop
  | 0 => fun _ _ => True
  | n + 1 => fun t v =>
    match v with
    | .msg s _ _ => (S.msg t).foreign = false → ∀ f ∈ (S.msg t).fields,
      match slotOf s f with
      | .nil => True
      | .wrap n' x => f.num = n' → NoNaNElem (NoNaNN S n) f.kind f.msg x
      | .list xs _ => ∀ x ∈ xs, NoNaNElem (NoNaNN S n) f.kind f.msg x
      | .map es => ∀ md, f.map = some md → ∀ e ∈ es, NoNaNElem (NoNaNN S n) md.val md.valMsg e.2
      | v => NoNaNElem (NoNaNN S n) f.kind f.msg v
    | _ => True

/-- The value is the negative zero of a float kind: equal to zero but with other bits. -/
def negZero (k : Kind) (v : Val) : Prop :=
  (k = .double ∧ v.bits = 0x8000000000000000#64) ∨ (k = .float ∧ v.bits.setWidth 32 = 0x80000000#32)

/-- An element whose encoding is determined by its content: not a negative zero, not a nil message which counts as an empty
message but, if that has required fields or is left to the runtime, does not encode like one. -/
def TidyElem (S : Schema) (sub : Nat → Val → Prop) (k : Kind) (t : Nat) (v : Val) : Prop :=
  if k = .message ∨ k = .group then
    if v = .nil then (S.msg t).foreign = false ∧ ∀ f ∈ (S.msg t).fields, f.card ≠ .required else sub t v
  else ¬ negZero k v

/-- Every element, map value, oneof member and present field in the message is tidy, down to depth `n`. -/
def TidyN (S : Schema) : Nat → Nat → Val → Prop
  | 0 => fun _ _ => True
  | n + 1 => fun t v =>
    match v with
    | .msg s _ _ => (S.msg t).foreign = false → ∀ f ∈ (S.msg t).fields,
      match slotOf s f with
      | .nil => True
      | .wrap n' x => f.num = n' → TidyElem S (TidyN S n) f.kind f.msg x
      | .list xs _ => ∀ x ∈ xs, TidyElem S (TidyN S n) f.kind f.msg x
      | .map es => ∀ md, f.map = some md → ∀ e ∈ es, TidyElem S (TidyN S n) md.val md.valMsg e.2
      | v => f.presence = true → TidyElem S (TidyN S n) f.kind f.msg v
    | _ => True

/-- See `TidyN`. -/
def Tidy (S : Schema) (t : Nat) (v : Val) : Prop := ∀ n, TidyN S n t v

/-- What is assumed of `proto.Equal` and `proto.Marshal` together: messages equal for the runtime marshal alike up to map order. -/
def RuntimeSame (S : Schema) (R : Runtime) : Prop := ∀ t v w, (S.msg t).foreign = true → R.equal t v w = true →
  ∃ w', Shuffle w w' ∧ R.marshal t v = R.marshal t w'

/-- No float in the message is NaN. -/
def NoNaN (S : Schema) (t : Nat) (v : Val) : Prop := ∀ n, NoNaNN S n t v

end Vtp.Spec
