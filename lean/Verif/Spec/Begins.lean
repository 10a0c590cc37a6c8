import Verif.Spec.Decode
import Verif.Spec.DecodeEnv
/-!
# Beginnings of inputs
-/

namespace Vtp.Spec

/-- Decoding gets past `a` and has `m1` then: `a` is empty, or an input that is accepted, or valid records that need not
include the required fields. -/
inductive Begins (E : UEnv) (t : Nat) (m : Val) : Bytes → Val → Prop
  | empty : Begins E t m [] m
  | accepted {a : Bytes} {m1 : Val} : unmarshalVT E t a m = (m1, .ok ()) → Begins E t m a m1
  | records {a : Bytes} {rs : List Rec} {m1 : Val} : PlainEnv E → wtM E.S .solid t m = true → Records rs a → Merges E.S E.R t rs m m1 → Begins E t m a m1

end Vtp.Spec
