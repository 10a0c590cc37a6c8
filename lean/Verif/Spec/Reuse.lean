import Verif.Model.Unmarshal
/-!
# What a pooled message may keep for reuse

`Reuse S t v w`: the message `v` is `w`, except that lists of `v` may have elements beyond their length, which are empty
messages if the type of `v` is pooled, and that lists and byte fields of pooled messages may be empty instead of nil.
-/

namespace Vtp.Spec

/-- Relation between messages of a type. -/
abbrev SubReuse := Nat → Val → Val → Prop

/-- Elements, map values, oneof members and singular messages. -/
def ReuseElem (sub : SubReuse) (k : Kind) (t : Nat) (v w : Val) : Prop :=
  if k = .message ∨ k = .group then (v = .nil ∧ w = .nil) ∨ (v ≠ .nil ∧ w ≠ .nil ∧ sub t v w) else v = w

/-- The elements beyond the length of a slice. -/
def spareOf : Val → List Val
  | .list _ sp => sp
  | _ => []

/-- Nil or a slice. -/
def isSlice : Val → Prop
  | .nil => True
  | .list _ _ => True
  | _ => False

/-- A field that is not in a oneof, of a message with descriptor `d`. -/
def ReuseField (S : Schema) (sub : SubReuse) (d : MsgDesc) (f : FieldDesc) (v w : Val) : Prop :=
  match f.map with
  | some md => (v = .nil ∧ w = .nil) ∨ ∃ es es', v = .map es ∧ w = .map es' ∧
      List.Forall₂ (fun e e' => e.1 = e'.1 ∧ ReuseElem sub md.val md.valMsg e.2 e'.2) es es'
  | none =>
    if f.card = .repeated then
      isSlice v ∧ isSlice w ∧ List.Forall₂ (ReuseElem sub f.kind f.msg) v.elems w.elems ∧
      (w = .nil → v = .nil ∨ d.pooled = true) ∧ (v = .nil → w = .nil) ∧
      (d.pooled = true → f.hasMessage = true → ∀ y ∈ spareOf v, y = .nil ∨ y ≠ .nil ∧ sub f.msg y (zeroMsg S f.msg)) ∧
      (f.hasMessage = false → spareOf v = [])
    else if f.kind = .bytes then v = w ∨ (d.pooled = true ∧ v = .str [] ∧ w = .nil)
    else ReuseElem sub f.kind f.msg v w

/-- A oneof. -/
def ReuseOneof (sub : SubReuse) (d : MsgDesc) (slot : Nat) (v w : Val) : Prop :=
  match v, w with
  | .wrap n x, .wrap n' y => n = n' ∧ ∃ f, d.member slot n = some f ∧ ReuseElem sub f.kind f.msg x y
  | v, w => v = w

/-- Messages of a type with descriptor `d`; foreign ones are not looked into. -/
def ReuseMsg (S : Schema) (sub : SubReuse) (d : MsgDesc) (v w : Val) : Prop :=
  if d.foreign then v = w
  else match v, w with
    | .msg s u e, .msg s' u' e' => u = u' ∧ e = e' ∧ s.length = d.nslots ∧ s'.length = d.nslots ∧ ∀ f ∈ d.fields,
      if f.oneof then ReuseOneof sub d f.slot (slotOf s f) (slotOf s' f) else ReuseField S sub d f (slotOf s f) (slotOf s' f)
    | v, w => v = w

/-- The messages are alike down to depth `n`. -/
def ReuseN (S : Schema) : Nat → SubReuse
  | 0 => fun _ _ _ => True
  | n + 1 => fun t v w => ReuseMsg S (ReuseN S n) (S.msg t) v w

/-- `v` is `w` with memory kept for reuse. -/
def Reuse (S : Schema) (t : Nat) (v w : Val) : Prop := ∀ n, ReuseN S n t v w

/-- `v` is an empty message, perhaps with memory kept for reuse. -/
def Blank (S : Schema) (t : Nat) (v : Val) : Prop := Reuse S t v (zeroMsg S t)

/-- The elements kept beyond the lengths of the lists of pooled messages in `v` are empty. -/
def Clean (S : Schema) (t : Nat) (v : Val) : Prop := Reuse S t v v

mutual
/-- No slice in the value has messages beyond its length. -/
def noSpare : Val → Bool
  | .nil => true
  | .num _ => true
  | .str _ => true
  | .msg s _ _ => noSpareList s
  | .list xs sp => noSpareList xs && sp.isEmpty
  | .map es => noSpareEntries es
  | .wrap _ v => noSpare v
  | .wrapNil _ => true
/-- Of several values. -/
def noSpareList : List Val → Bool
  | [] => true
  | v :: vs => noSpare v && noSpareList vs
/-- Of map entries. -/
def noSpareEntries : List (Key × Val) → Bool
  | [] => true
  | (_, v) :: vs => noSpare v && noSpareEntries vs
end

/-- The schema with pooling switched off. -/
def unpool (S : Schema) : Schema := S.map fun d => { d with pooled := false }

/-- No pooled message has a singular bytes field with presence outside of a oneof. -/
def noKeptBytes (S : Schema) : Prop := ∀ t, (S.msg t).pooled = true → ∀ f ∈ (S.msg t).fields, f.kind = .bytes → f.card ≠ .repeated → f.oneof = false →
  f.presence = false

/-- `ResetVT` meets no nil pointer it calls a method through: in a field of a message. -/
def ResettableField (S : Schema) (sub : Nat → Val → Prop) (f : FieldDesc) (v : Val) : Prop :=
  if f.hasMessage && f.map.isNone then
    if f.oneof then (S.msg f.msg).pooled = true → v ≠ .wrapNil f.num ∧ ∀ x, v = .wrap f.num x → x = .nil ∨ sub f.msg x
    else if f.card = .repeated then ∀ x ∈ v.elems, if (S.msg f.msg).pooled then x = .nil ∨ sub f.msg x else x ≠ .nil
    else (S.msg f.msg).pooled = true → v = .nil ∨ sub f.msg v
  else True

/-- To a given depth. -/
def ResettableN (S : Schema) : Nat → Nat → Val → Prop
  | 0 => fun _ _ => True
  | n + 1 => fun t v => match v with
    | .msg s _ _ => ∀ f ∈ (S.msg t).fields, ResettableField S (ResettableN S n) f (slotOf s f)
    | _ => True

/-- In the message of pooled type `t`, and the messages of pooled types below that are reached through messages of pooled types, no
oneof with a pooled member holds a typed nil pointer for it, and no list of messages of unpooled types has a nil element. -/
def Resettable (S : Schema) (t : Nat) (v : Val) : Prop := ∀ n, ResettableN S n t v

/-- Message types with pools belong to the generated package. -/
def poolsLocal (S : Schema) : Prop := ∀ t, (S.msg t).pooled = true → (S.msg t).foreign = false

end Vtp.Spec
