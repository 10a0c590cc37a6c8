import Verif.Spec.Encode
/-! Messages within messages, as bytes. -/

namespace Vtp.Spec

/-- The fields lead from a message of type `t` through messages within messages. -/
inductive Chain (S : Schema) : Nat → List FieldDesc → Prop
  | nil (t) : Chain S t []
  | cons {t f fs} : f ∈ (S.msg t).fields → f.kind = .message → f.map = none → (S.msg f.msg).foreign = false → Chain S f.msg fs → Chain S t (f :: fs)

/-- The encoding of a message with nothing but a message with nothing but a message and so on, in these fields. -/
def nested : List FieldDesc → Bytes
  | [] => []
  | f :: fs => tag f.num 2 ++ delimited (nested fs)

mutual
/-- How many messages are within one another, memory kept for reuse included. -/
def levels : Val → Nat
  | .nil => 0
  | .num _ => 0
  | .str _ => 0
  | .msg s _ _ => 1 + mostLevels s
  | .list xs sp => max (mostLevels xs) (mostLevels sp)
  | .map es => entriesLevels es
  | .wrap _ v => levels v
  | .wrapNil _ => 0
/-- The most of any element of a list. -/
def mostLevels : List Val → Nat
  | [] => 0
  | v :: vs => max (levels v) (mostLevels vs)
/-- The most of any value of a map. -/
def entriesLevels : List (Key × Val) → Nat
  | [] => 0
  | (_, v) :: es => max (levels v) (entriesLevels es)
end

end Vtp.Spec
