import Verif.Spec.Decode
/-!
# Records in another order
-/

namespace Vtp.Spec

/-- The struct field a record goes to; none for unknown fields. The members of a oneof share theirs. -/
def destination (d : MsgDesc) (r : Rec) : Option Nat := (d.fields.find? fun f => f.num == r.num).map (·.slot)

/-- The same records, and those that go to the same place are in the same order. -/
def SameOrder (d : MsgDesc) (rs rs' : List Rec) : Prop :=
  ∀ c : Option Nat, rs.filter (fun r => destination d r == c) = rs'.filter (fun r => destination d r == c)

end Vtp.Spec
