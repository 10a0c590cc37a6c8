import Verif.Model.Size
import Verif.Spec.Wire
/-!
# Which schemas and Go values exist

`Schema.ok`: what protoc guarantees of descriptors, restricted to schemas for which the
generated code compiles (repeated groups and groups in oneofs do not compile).
`wt`: the values the Go types can hold.
-/

namespace Vtp.Spec

/-- Kinds with a varint or fixed-width encoding. -/
def numeric : Kind → Bool
  | .string => false
  | .bytes => false
  | .message => false
  | .group => false
  | _ => true

/-- Legal map key kinds: integers, bool and string. -/
def mapKeyKind : Kind → Bool
  | .double => false
  | .float => false
  | .bytes => false
  | .enum => false
  | .message => false
  | .group => false
  | _ => true

/-- Descriptor coherence of one field. -/
def fieldDescOK (d : MsgDesc) (f : FieldDesc) : Bool :=
  decide (ValidNum f.num) && decide (f.slot < d.nslots) &&
  -- packed: repeated numeric fields only
  (!f.packed || (f.card == .repeated && f.map.isNone && numeric f.kind)) &&
  -- oneof members are plain singular fields
  (!f.oneof || (f.card == .optional && f.presence && !f.synthetic && f.kind != .group)) &&
  -- maps are repeated messages
  (match f.map with
   | some md => f.card == .repeated && f.kind == .message && mapKeyKind md.key && md.val != .group
   | none => true) &&
  (!(f.card == .repeated) || (!f.presence && f.kind != .group && !f.synthetic)) &&
  (!(f.card == .required) || (f.presence && !d.proto3)) &&
  (!(f.card != .repeated && f.hasMessage) || f.presence) &&
  (!f.synthetic || (d.proto3 && f.presence)) &&
  (!(f.card != .repeated && d.proto3 && !f.oneof && !f.synthetic && !f.hasMessage) || !f.presence) &&
  (!(f.card != .repeated && !d.proto3) || f.presence)

/-- Field numbers are distinct; only members of a oneof share a struct field; every struct field
belongs to some proto field. -/
def msgDescOK (d : MsgDesc) : Bool :=
  d.fields.all (fieldDescOK d) && decide ((d.fields.map (·.num)).Nodup) &&
  d.fields.all (fun f => d.fields.all fun g => f.num == g.num || !(f.slot == g.slot) || (f.oneof && g.oneof)) &&
  (List.range d.nslots).all (fun s => d.fields.any fun f => f.slot == s)

/-- A coherent schema. -/
def schemaOK (S : Schema) : Bool := S.all msgDescOK

/-- The 64-bit patterns that represent values of the Go type of a numeric kind. -/
def inRange (k : Kind) (n : BitVec 64) : Bool :=
  match k with
  | .int32 => (n.setWidth 32).signExtend 64 == n
  | .enum => (n.setWidth 32).signExtend 64 == n
  | .sint32 => (n.setWidth 32).signExtend 64 == n
  | .sfixed32 => (n.setWidth 32).signExtend 64 == n
  | .uint32 => decide (n.toNat < 2 ^ 32)
  | .fixed32 => decide (n.toNat < 2 ^ 32)
  | .float => decide (n.toNat < 2 ^ 32)
  | .bool => decide (n.toNat < 2)
  | _ => true

/-- A value of the Go type of a scalar kind. -/
def scalarOK (k : Kind) (v : Val) : Bool :=
  match k with
  | .string => match v with
    | .str _ => true
    | _ => false
  | .bytes => match v with
    | .str _ => true
    | .nil => true
    | _ => false
  | .message => false
  | .group => false
  | k => match v with
    | .num n => inRange k n
    | _ => false

/-- A value of the Go type of one element, map value or oneof member: messages may be nil pointers. -/
def elemOK (rec : Nat → Val → Bool) (k : Kind) (t : Nat) (v : Val) : Bool :=
  match k with
  | .message => v.isNil || rec t v
  | .group => v.isNil || rec t v
  | k => scalarOK k v

/-- A value of the struct field of a field that is not in a oneof. -/
def fieldOK (rec : Nat → Val → Bool) (f : FieldDesc) (v : Val) : Bool :=
  match f.map with
  | some md => match v with
    | .nil => true
    | .map es => decide ((es.map (·.1)).Nodup) &&
        es.all fun e => scalarOK md.key e.1.toVal && elemOK rec md.val md.valMsg e.2
    | _ => false
  | none =>
    if f.card == .repeated then
      match v with
      | .nil => true
      | .list xs sp => xs.all (elemOK rec f.kind f.msg) &&
          (if f.hasMessage then sp.all (elemOK rec f.kind f.msg) else sp.isEmpty)
      | _ => false
    else if f.presence then v.isNil || elemOK rec f.kind f.msg v
    else scalarOK f.kind v

/-- What a oneof's interface field may hold. -/
inductive Members where
  /-- anything of the right Go type, including typed nil pointers to wrappers -/
  | typedNil
  /-- wrappers are not nil; a wrapper may hold a nil message -/
  | plain
  /-- wrappers and the messages in them are not nil -/
  | solid
  deriving DecidableEq, Repr

/-- A value of the interface field of a oneof. -/
def oneofOK (tn : Members) (rec : Nat → Val → Bool) (d : MsgDesc) (slot : Nat) (v : Val) : Bool :=
  match v with
  | .nil => true
  | .wrap n x => match d.member slot n with
    | some f => elemOK rec f.kind f.msg x && !(tn == .solid && f.kind == .message && x.isNil)
    | none => false
  | .wrapNil n => tn == .typedNil && (d.member slot n).isSome
  | _ => false

/-- A non-nil message of type `t`, to a given depth; values of foreign types are not looked into. -/
def wtN (S : Schema) (tn : Members) : Nat → Nat → Val → Bool
  | 0, _, _ => false
  | n + 1, t, v =>
    match v with
    | .msg slots _ _ =>
      let d := S.msg t
      d.foreign || (decide (slots.length = d.nslots) &&
        d.fields.all fun f =>
          if f.oneof then oneofOK tn (wtN S tn n) d f.slot (slotOf slots f)
          else fieldOK (wtN S tn n) f (slotOf slots f))
    | _ => false

/-- `v` is a non-nil message of type `t`. -/
def wtM (S : Schema) (tn : Members) (t : Nat) (v : Val) : Bool := wtN S tn v.depth t v

/-- `v` is a non-nil message of type `t` without typed nil oneof wrappers. -/
abbrev wt (S : Schema) (t : Nat) (v : Val) : Bool := wtM S .plain t v

end Vtp.Spec
