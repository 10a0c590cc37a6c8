import Verif.Model.Base
/-!
# The protobuf wire format

Written from the encoding document (https://protobuf.dev/programming-guides/encoding/),
independently of the model: base-128 varints, tags, records.
-/

namespace Vtp.Spec

/-- Base-128 digits of `n`, least significant first, continuation bit set on all
but the last; at most `k` of them. -/
def leb : Nat → Nat → Bytes
  | 0, _ => []
  | k + 1, n => if n < 128 then [UInt8.ofNat n] else UInt8.ofNat (n % 128 + 128) :: leb k (n / 128)

/-- The minimal varint encoding of a 64-bit number (at most ten bytes). -/
def varint (n : Nat) : Bytes := leb 10 n

/-- Number denoted by base-128 digits. -/
def varintValue : Bytes → Nat
  | [] => 0
  | b :: bs => b.toNat % 128 + 128 * varintValue bs

/-- Shape of a varint: every byte but the last has the continuation bit. -/
inductive Leb : Bytes → Prop where
  | last (b : UInt8) : b < 128 → Leb [b]
  | more (b : UInt8) (bs : Bytes) : 128 ≤ b → Leb bs → Leb (b :: bs)

/-- `bs` is a valid varint encoding of `v`, not necessarily minimal. -/
structure IsVarint (v : Nat) (bs : Bytes) : Prop where
  shape : Leb bs
  short : bs.length ≤ 10
  value : varintValue bs = v
  small : v < 2 ^ 64

/-- Legal field numbers. -/
def ValidNum (n : Nat) : Prop := 1 ≤ n ∧ n < 2 ^ 29

instance (n : Nat) : Decidable (ValidNum n) := inferInstanceAs (Decidable (1 ≤ n ∧ n < 2 ^ 29))

/-- What follows the tag of a record. -/
inductive Payload where
  | varint (v : Nat)
  | i64 (bs : Bytes)
  | len (bs : Bytes)
  | group (body : Bytes)
  | i32 (bs : Bytes)
  deriving DecidableEq, Repr

mutual
/-- `bs` is one well-formed record with the given field number and payload. -/
inductive IsRecord : Nat → Payload → Bytes → Prop where
  | varint (num v : Nat) (tag bs : Bytes) : ValidNum num → IsVarint (num * 8 + 0) tag → IsVarint v bs →
      IsRecord num (.varint v) (tag ++ bs)
  | i64 (num : Nat) (tag bs : Bytes) : ValidNum num → IsVarint (num * 8 + 1) tag → bs.length = 8 →
      IsRecord num (.i64 bs) (tag ++ bs)
  | len (num : Nat) (tag lb bs : Bytes) : ValidNum num → IsVarint (num * 8 + 2) tag → IsVarint bs.length lb →
      IsRecord num (.len bs) (tag ++ (lb ++ bs))
  | group (num : Nat) (tag body etag : Bytes) : ValidNum num → IsVarint (num * 8 + 3) tag → IsRecords body →
      IsVarint (num * 8 + 4) etag → IsRecord num (.group body) (tag ++ (body ++ etag))
  | i32 (num : Nat) (tag bs : Bytes) : ValidNum num → IsVarint (num * 8 + 5) tag → bs.length = 4 →
      IsRecord num (.i32 bs) (tag ++ bs)
/-- `bs` is a concatenation of well-formed records. -/
inductive IsRecords : Bytes → Prop where
  | nil : IsRecords []
  | cons (num : Nat) (p : Payload) (bs rest : Bytes) : IsRecord num p bs → IsRecords rest → IsRecords (bs ++ rest)
end

end Vtp.Spec
