import Verif.Spec.Wire
/-!
# What `Skip` regards as a record

A liberal reading of "record": field numbers are not looked at, an end-group tag
need not carry the number of its start-group tag, and varints are taken modulo the
width of the destination. Every well-formed record is one.
-/

namespace Vtp.Spec

/-- Any varint of at most ten bytes, whatever its value. -/
def AnyVarint (bs : Bytes) : Prop := Leb bs ∧ bs.length ≤ 10

/-- The signed `w`-bit integer a decoder with a `w`-bit destination sees. -/
def seenInt (w : Nat) (bs : Bytes) : Int := (BitVec.ofNat w (varintValue bs)).toInt

mutual
inductive LooseRecord (w : Nat) : Bytes → Prop where
  | varint (tag bs : Bytes) : AnyVarint tag → varintValue tag % 8 = 0 → AnyVarint bs → LooseRecord w (tag ++ bs)
  | i64 (tag bs : Bytes) : AnyVarint tag → varintValue tag % 8 = 1 → bs.length = 8 → LooseRecord w (tag ++ bs)
  | len (tag lb bs : Bytes) : AnyVarint tag → varintValue tag % 8 = 2 → AnyVarint lb → seenInt w lb = bs.length →
      LooseRecord w (tag ++ (lb ++ bs))
  | group (tag body etag : Bytes) : AnyVarint tag → varintValue tag % 8 = 3 → LooseRecords w body →
      AnyVarint etag → varintValue etag % 8 = 4 → LooseRecord w (tag ++ (body ++ etag))
  | i32 (tag bs : Bytes) : AnyVarint tag → varintValue tag % 8 = 5 → bs.length = 4 → LooseRecord w (tag ++ bs)
inductive LooseRecords (w : Nat) : Bytes → Prop where
  | nil : LooseRecords w []
  | cons (bs rest : Bytes) : LooseRecord w bs → LooseRecords w rest → LooseRecords w (bs ++ rest)
end

end Vtp.Spec
