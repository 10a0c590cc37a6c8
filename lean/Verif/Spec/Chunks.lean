import Verif.Spec.Decode
import Verif.Spec.Loose
/-!
# What any input that is accepted is made of

`UnmarshalVT` accepts more than valid encodings: varints that do not fit, groups whose tags do not match, field numbers that are cut to 32 bits, packed
records whose last element runs over their end. Here an accepted input is cut into pieces without saying what the values in them are.
-/

namespace Vtp.Spec

/-- A chunk of an input, with the field number the decoder sees in its tag. -/
structure Chunk where
  num : Nat
  raw : Bytes

/-- The chunk begins with a tag of that number, taken as a positive int32. -/
def Chunk.Headed (p : Chunk) : Prop :=
  ∃ tag rest, p.raw = tag ++ rest ∧ AnyVarint tag ∧ p.num = varintValue tag / 8 % 2 ^ 32 ∧ 0 < p.num ∧ p.num < 2 ^ 31

/-- The bytes of one element of a packed list. -/
def ElementBytes (k : Kind) (e : Bytes) : Prop :=
  (wireType k = 0 ∧ AnyVarint e) ∨ (wireType k = 1 ∧ e.length = 8) ∨ (wireType k = 5 ∧ e.length = 4)

/-- A packed record with its elements; they reach the declared length, and only the last may run over it (see C31). -/
def PackedBytes (w : Nat) (k : Kind) (raw : Bytes) : Prop :=
  ∃ tag lb es, raw = tag ++ (lb ++ es.flatten) ∧ AnyVarint tag ∧ varintValue tag % 8 = 2 ∧ AnyVarint lb ∧ (∀ e ∈ es, ElementBytes k e) ∧
    0 ≤ seenInt w lb ∧ seenInt w lb ≤ es.flatten.length ∧ (es ≠ [] → es.dropLast.flatten.length < seenInt w lb)

/-- The field with that number. -/
def fieldOf (d : MsgDesc) (n : Nat) : Option FieldDesc := d.fields.find? fun f => f.num == n

/-- `b` is cut into chunks, each of which begins with a tag and is one record, or the packed elements of a list field. -/
def Cut (w : Nat) (d : MsgDesc) (ps : List Chunk) (b : Bytes) : Prop :=
  (ps.map (·.raw)).flatten = b ∧ ∀ p ∈ ps, p.Headed ∧ (LooseRecord w p.raw ∨
    ∃ f, fieldOf d p.num = some f ∧ f.card = .repeated ∧ numeric f.kind = true ∧ PackedBytes w f.kind p.raw)

/-- The chunk is for the struct field of `f`: the field itself or another member of its oneof. -/
def Hits (d : MsgDesc) (p : Chunk) (f : FieldDesc) : Prop := ∃ g ∈ d.fields, g.num = p.num ∧ g.slot = f.slot

end Vtp.Spec
