import Verif.Spec.Reuse
import Verif.Model.Pool
/-!
# Histories of use of pooled messages

Messages are values here: who holds which pointer is not represented (see the heap layer).
-/

namespace Vtp.Spec

/-- What is in the pools, and the messages held by the program. -/
structure Hist where
  pool : List (Nat × Val)
  held : List (Nat × Val)

/-- What a `FromVTPool` call may return: a message in the pool or a new one. -/
def Hist.offers (S : Schema) (h : Hist) (t : Nat) (v : Val) : Prop := (t, v) ∈ h.pool ∨ v = zeroMsg S t

/-- One event. `E` supplies the schema, the runtime and the target. -/
inductive Event (E : UEnv) : Hist → Hist → Prop
  /-- `FromVTPool` -/
  | get {h : Hist} {t : Nat} {v : Val} {keep : List (Nat × Val)} (hp : (E.S.msg t).pooled = true) (ho : h.offers E.S t v)
      (hk : keep.Sublist h.pool) : Event E h ⟨keep, (t, v) :: h.held⟩
  /-- the garbage collector empties pools -/
  | collect {h : Hist} (keep : List (Nat × Val)) (hk : keep.Sublist h.pool) : Event E h ⟨keep, h.held⟩
  /-- `&T{}` or a message the program builds -/
  | build {h : Hist} {t : Nat} {v : Val} (hv : Clean E.S t v) : Event E h ⟨h.pool, (t, v) :: h.held⟩
  /-- the program changes a message it holds -/
  | change {h : Hist} {t : Nat} {v w : Val} (l l' : List (Nat × Val)) (hh : h.held = l ++ (t, v) :: l') (hw : Clean E.S t w) :
      Event E h ⟨h.pool, l ++ (t, w) :: l'⟩
  /-- `UnmarshalVT` or `UnmarshalVTUnsafe` on a message held, with any outcome, taking messages from the pools -/
  | decode {h : Hist} {t : Nat} {v : Val} {b : Bytes} {alloc : Nat → Nat → Val} {aliasing : Bool} {later : Bytes} {keep : List (Nat × Val)}
      (l l' : List (Nat × Val)) (hh : h.held = l ++ (t, v) :: l') (hf : (E.S.msg t).foreign = false) (hF : E.A.Fits b.length)
      (ha : ∀ off t, h.offers E.S t (alloc off t)) (hk : keep.Sublist h.pool) :
      Event E h ⟨keep, l ++ (t, (unmarshalVT { E with alloc := alloc, aliasing := aliasing, later := later } t b v).1) :: l'⟩
  /-- `ResetVT` on a message held -/
  | reset {h : Hist} {t : Nat} {v v' : Val} {ps : Puts} (hp : (E.S.msg t).pooled = true) (l l' : List (Nat × Val)) (hh : h.held = l ++ (t, v) :: l')
      (hr : resetVT E.S t v = .ok (v', ps)) : Event E h ⟨ps ++ h.pool, l ++ (t, v') :: l'⟩
  /-- `ReturnToVTPool` on a message held -/
  | put {h : Hist} {t : Nat} {v : Val} {ps : Puts} (hp : (E.S.msg t).pooled = true) (l l' : List (Nat × Val)) (hh : h.held = l ++ (t, v) :: l')
      (hr : returnToVTPool E.S t v = .ok ps) : Event E h ⟨ps ++ h.pool, l ++ l'⟩

/-- What can have happened, starting from empty pools. -/
inductive Reachable (E : UEnv) : Hist → Prop
  | start : Reachable E ⟨[], []⟩
  | step {h h' : Hist} : Reachable E h → Event E h h' → Reachable E h'

end Vtp.Spec
