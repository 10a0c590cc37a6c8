import Verif.Spec.Same
/-!
# When two messages are the same bit by bit

`Alike` is stronger than `Same` (`Spec/Same.lean`): numbers have the same bits, map entries come in the same order, and a nil
message is only like a nil message. Left open is what no method of the message shows: nil or empty for lists, maps and bytes
without presence, elements beyond the length of a slice, extensions, and unknown fields if the type ignores them.
-/

namespace Vtp.Spec

/-- Alike elements, map values, oneof members and present fields. -/
def AlikeElem (sub : SubSame) (k : Kind) (t : Nat) (v w : Val) : Prop :=
  if k = .message ∨ k = .group then (v = .nil ∧ w = .nil) ∨ (v ≠ .nil ∧ w ≠ .nil ∧ sub t v w)
  else if k = .bytes then v.bytes = w.bytes
  else v = w

/-- Alike values of a field that is not in a oneof. -/
def AlikeField (sub : SubSame) (f : FieldDesc) (v w : Val) : Prop :=
  match f.map with
  | some md => List.Forall₂ (fun e e' => e.1 = e'.1 ∧ AlikeElem sub md.val md.valMsg e.2 e'.2) v.entries w.entries
  | none =>
    if f.card = .repeated then List.Forall₂ (AlikeElem sub f.kind f.msg) v.elems w.elems
    else (f.presence = true → (v = .nil ↔ w = .nil)) ∧ AlikeElem sub f.kind f.msg v w

/-- Alike values of a oneof. -/
def AlikeOneof (sub : SubSame) (d : MsgDesc) (slot : Nat) (v w : Val) : Prop :=
  match v, w with
  | .wrap n x, .wrap n' y => n = n' ∧ ∃ f, d.member slot n = some f ∧ AlikeElem sub f.kind f.msg x y
  | v, w => v = w

/-- Alike messages of a type with descriptor `d`. -/
def AlikeMsg (sub : SubSame) (d : MsgDesc) (v w : Val) : Prop :=
  match v, w with
  | .msg s u _, .msg s' u' _ =>
    (∀ f ∈ d.fields, if f.oneof then AlikeOneof sub d f.slot (slotOf s f) (slotOf s' f) else AlikeField sub f (slotOf s f) (slotOf s' f)) ∧
    (d.keepUnknown = true → u = u')
  | v, w => v = w

/-- Messages of foreign types: the runtime makes no difference between them. -/
def subAlike (S : Schema) (R : Runtime) (rec : SubSame) : SubSame := fun t v w =>
  if (S.msg t).foreign then R.equal t v w = true ∧ R.marshal t v = R.marshal t w ∧ R.size t v = R.size t w else rec t v w

/-- Alike down to depth `n`. -/
def AlikeN (S : Schema) (R : Runtime) : Nat → SubSame
  | 0 => fun _ _ _ => True
  | n + 1 => fun t v w => AlikeMsg (subAlike S R (AlikeN S R n)) (S.msg t) v w

/-- The messages are alike at every depth. -/
def Alike (S : Schema) (R : Runtime) (t : Nat) (v w : Val) : Prop := ∀ n, AlikeN S R n t v w

end Vtp.Spec
