import Verif.Spec.Encode
/-!
# Relations between messages used in the statements
-/

namespace Vtp.Spec

/-- `Shuffle v w`: `w` is `v` with the iteration order of any maps in it, at any depth, changed. -/
inductive Shuffle : Val → Val → Prop
  | refl (v : Val) : Shuffle v v
  | trans {u v w : Val} : Shuffle u v → Shuffle v w → Shuffle u w
  | perm {es es' : List (Key × Val)} : es.Perm es' → Shuffle (.map es) (.map es')
  | entry {a b : List (Key × Val)} {k : Key} {v w : Val} : Shuffle v w →
      Shuffle (.map (a ++ (k, v) :: b)) (.map (a ++ (k, w) :: b))
  | elem {a b sp : List Val} {v w : Val} : Shuffle v w → Shuffle (.list (a ++ v :: b) sp) (.list (a ++ w :: b) sp)
  | slot {a b : List Val} {v w : Val} {u e : Bytes} : Shuffle v w → Shuffle (.msg (a ++ v :: b) u e) (.msg (a ++ w :: b) u e)
  | wrap {n : Nat} {v w : Val} : Shuffle v w → Shuffle (.wrap n v) (.wrap n w)

/-- The runtime's size does not depend on iteration order. -/
def RuntimeShuffle (R : Runtime) : Prop := ∀ t v w, Shuffle v w → R.size t v = R.size t w

/-- Some element of a field lacks a required field. -/
def elemMissing (S : Schema) (rec : Nat → Val → Bool) (k : Kind) (t : Nat) (v : Val) : Bool :=
  (k == .message || k == .group) && !(S.msg t).foreign && rec t v

/-- A required field is unset in the field's value (or the field is required and unset). -/
def fieldMissing (S : Schema) (rec : Nat → Val → Bool) (f : FieldDesc) (v : Val) : Bool :=
  match v with
  | .nil => f.card == .required
  | .list xs _ => xs.any (elemMissing S rec f.kind f.msg)
  | .map es => match f.map with
    | some md => es.any fun e => elemMissing S rec md.val md.valMsg e.2
    | none => false
  | .wrap _ x => elemMissing S rec f.kind f.msg x
  | v => elemMissing S rec f.kind f.msg v

/-- Does a message of type `t`, or a message it contains, have an unset required field? For a oneof
only the member held counts. -/
def missingN (S : Schema) : Nat → Nat → Val → Bool
  | 0, _, _ => false
  | n + 1, t, v =>
    match v with
    | .msg slots _ _ => (S.msg t).fields.any fun f =>
        if f.oneof then
          match slotOf slots f with
          | .wrap n' x => n' == f.num && elemMissing S (missingN S n) f.kind f.msg x
          | _ => false
        else fieldMissing S (missingN S n) f (slotOf slots f)
    | _ => false

/-- See `missingN`. -/
def missing (S : Schema) (t : Nat) (v : Val) : Bool := missingN S v.depth t v

/-- The record of one field in strict order. -/
def chunkStrict (E : Env) (rE : Nat → Val → Option Bytes) (slots : List Val) (f : FieldDesc) : Option Bytes :=
  if f.oneof then
      match slotOf slots f with
      | .wrap n x => if n = f.num then record E rE f.num f.kind f.msg x else some []
      | _ => some []
    else field E rE f (slotOf slots f)

end Vtp.Spec
