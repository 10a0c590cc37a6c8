import Verif.Spec.Conc
import Verif.Spec.HeapProgram
/-!
# Calls of goroutines, on values

What a call does on values, without memory, pools and other goroutines; and programs whose goroutines call the library as they may: with recursion limits that are
enough, on messages for which the methods do not panic, and with code of their own that leaves messages in the state in which the library expects them.
-/

namespace Vtp.Spec

/-- The message stands for the value, up to memory kept for reuse. -/
def ShowsAt (S : Schema) (h : Heap) (q : Nat × Addr) (v : Val) : Prop := ∃ x F, RepL S .none h [(.msg q.1, .ptr q.2, x)] F ∧ x ≠ .nil ∧ Reuse S q.1 x v

/-- The message that a method is called on. -/
def Op.arg : Op → Option (Nat × Addr)
  | .new _ => none
  | .get _ _ => none
  | .put t a => some (t, a)
  | .reset t a => some (t, a)
  | .decode _ t _ a => some (t, a)
  | .clone _ t a => some (t, a)

/-- The message has the type, and stands for the value. -/
def ShowsAs (S : Schema) (h : Heap) (q : Nat × Addr) (w : Nat × Val) : Prop := q.1 = w.1 ∧ ShowsAt S h q w.2

/-- The outcome of a call on the value `v`, and the types and values of the messages that the caller has afterwards in place of those the call `takes`. A message from a pool is
a new one, a message returned is gone, decoding and cloning are those of code generated without pools. -/
def Op.alone (L : Lib) (v : Val) : Op → Res Unit × List (Nat × Val)
  | .new t => (.ok (), [(t, zeroMsg L.S t)])
  | .get _ t => (.ok (), [(t, zeroMsg L.S t)])
  | .put t _ => ((resetVT L.S t v).outcome, [])
  | .reset t _ => ((resetVT L.S t v).outcome, [(t, zeroMsg L.S t)])
  | .decode _ t b _ => ((unmarshalVT L.uenv t b v).2, [(t, (unmarshalVT L.uenv t b v).1)])
  | .clone _ t _ => ((cloneVT L.kenv t v).outcome, match cloneVT L.kenv t v with
    | .ok w => if w.isNil then [] else [(t, w)]
    | _ => [])

/-- Messages that the caller has before and after a call. -/
def Op.same : Op → List (Nat × Addr)
  | .reset t a => [(t, a)]
  | .decode _ t _ a => [(t, a)]
  | _ => []

/-- The messages that the caller has after a call with the given result. -/
def Op.has (op : Op) : Res (List (Nat × Addr)) → List (Nat × Addr)
  | .ok l => l
  | _ => op.left

/-- Calls as they should be: in the surroundings that the library has, and on messages that stand for values for which they do not panic. -/
def Op.fits (L : Lib) (h : Heap) (op : Op) : Prop :=
  (∀ q, op.arg = some q → ∃ v, ShowsAt L.S h q v ∧ (op.alone L v).1.settled = true) ∧
  match op with
  | .put t _ => (L.S.msg t).pooled = true
  | .reset t _ => (L.S.msg t).pooled = true
  | .decode E _ _ _ => E.R = L.R ∧ E.A = L.A
  | .clone E _ _ => E.R = L.R ∧ E.direct = L.direct
  | _ => True

/-- A limit for the recursion of methods that is enough; the code has none. -/
def Op.limit (σ : HState) : Op → Nat
  | .decode _ _ b _ => b.length + 1
  | _ => σ.fuel

/-- What may happen next in programs that call the library as they should and whose own code leaves messages that the library can reuse. -/
structure CStep (L : Lib) (m : Mach) (who : Option Nat) (m' : Mach) : Prop where
  step : GStep L.S m who m'
  call : ∀ i held held' op p, who = some i → m.gors[i]? = some ⟨held, none⟩ → m'.gors[i]? = some ⟨held', some (op, p)⟩ →
    p = op.prog L.S (op.limit m.st) ∧ op.fits L m.st.heap
  own : ∀ i held held', who = some i → m.gors[i]? = some ⟨held, none⟩ → m'.gors[i]? = some ⟨held', none⟩ → ∀ q ∈ held', ∃ v, ShowsAt L.S m'.st.heap q v

/-- Machines that such programs get to. -/
inductive CReach (L : Lib) : Mach → Prop
  | start : CReach L .start
  | step {m m' : Mach} {who : Option Nat} (h : CReach L m) (hs : CStep L m who m') : CReach L m'

/-- What happens while the goroutine `i` is in a call. -/
inductive During (L : Lib) (i : Nat) (m : Mach) : Mach → Prop
  | refl : During L i m m
  | tail {m1 m2 : Mach} {who : Option Nat} (h : During L i m m1) (hs : CStep L m1 who m2) (hin : ∃ held c, m2.gors[i]? = some ⟨held, some c⟩) : During L i m m2

end Vtp.Spec
