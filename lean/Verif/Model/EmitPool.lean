import Verif.Model.EmitClone
/-!
# What `features/pool/pool.go` prints

Each function returns the statements the function of the generator prints, one for one. Line numbers are those of
`features/pool/pool.go`. The variable `vtprotoPool_T`, lines 41-45, is the set of pooled messages of type `T` in memory.
-/

namespace Vtp.GoH

open Go (GenCfg GTy Sel)

/-- The message types as `features/pool` finds them: `message.Fields` may have been sorted by features that ran before, in place
(`features/marshal/marshalto.go:609`, `features/equal/equal.go:65`). -/
def arranged (G : GenCfg) (S : Schema) : Schema := S.map fun d => { d with fields := Go.Emit.messageFields G d }

namespace Emit

open Stmt Expr

/-- One iteration of the loop over the fields, lines 53-88; `n` is `len(saved)`. Also: is the field appended to `saved`?
(`features/pool/pool.go:53-88`) -/
def resetField (S : Schema) (t n : Nat) (f : FieldDesc) : Stmt × Bool :=
  let field := sel (id .m) (.slot t f.slot)
  if f.isList then
    ((if f.hasMessage then
        range none .mm field (if (S.msg f.msg).pooled then resetVT (id .mm) else reset (id .mm))
      else if f.kind = .bytes ∨ f.kind = .string then clear field
      else .skip) ;;
     define (.f n) (cut field), true)
  else if f.oneof then
    if f.hasMessage && (S.msg f.msg).pooled then
      (ifHolds .oneof field t f.num (returnToPool (sel (id .oneof) (.member t f.num))), false)
    else (.skip, false)
  else if f.hasMessage then
    if f.map.isNone && (S.msg f.msg).pooled then (returnToPool field, false) else (.skip, false)
  else if f.kind = .bytes then (define (.f n) (cut field), true)
  else (.skip, false)

/-- The loop over the fields, lines 53-88: what is printed, and the struct fields saved.
(`features/pool/pool.go:53-88`) -/
def resetFields (S : Schema) (t : Nat) : Nat → List FieldDesc → Stmt × List Nat
  | _, [] => (.skip, [])
  | n, f :: fs =>
    let (a, save) := resetField S t n f
    if save then
      let (b, saved) := resetFields S t (n + 1) fs
      (a ;; b, f.slot :: saved)
    else
      let (b, saved) := resetFields S t n fs
      (a ;; b, saved)

/-- The loop over `saved`, lines 91-93. (`features/pool/pool.go:91-93`) -/
def restore (t : Nat) : Nat → List Nat → Stmt
  | _, [] => .skip
  | n, i :: saved => setField (id .m) (.slot t i) (id (.f n)) ;; restore t (n + 1) saved

/-- `ResetVT`, lines 50-95; for the order of the fields see `arranged`.
(`features/pool/pool.go:50-95`) -/
def resetMethod (G : GenCfg) (S : Schema) (t : Nat) : Stmt :=
  let (a, saved) := resetFields S t 0 (Go.Emit.messageFields G (S.msg t))
  when (ne (id .m) nil)
    (a ;;
     reset (id .m) ;;
     restore t 0 saved)

/-- `ReturnToVTPool`, lines 97-102. (`features/pool/pool.go:97-102`) -/
def returnMethod (t : Nat) : Stmt :=
  when (ne (id .m) nil)
    (resetVT (id .m) ;;
     put t (id .m))

/-- `TFromVTPool`, lines 104-106. (`features/pool/pool.go:104-106`) -/
def fromPoolFunc (t : Nat) : Stmt := ret (Expr.poolGet t)

end Emit

/-- What the printed methods find around them, given the `ResetVT` and `ReturnToVTPool` of messages; `want` is the choice of `sync.Pool`.
(`features/pool/pool.go:44-106`) -/
def poolCtx (S : Schema) (want : Option Addr) (reset back : Nat → HV → HM Unit) : Ctx where
  S := S
  R := Runtime.none
  pick := fun _ => want
  here := []
  clone := fun _ _ _ => confused
  reset := reset
  back := back
  fresh := fun _ _ => confused

/-- The printed `ReturnToVTPool`, given the `ResetVT` methods. (`features/pool/pool.go:97-102`) -/
def runReturn (S : Schema) (reset : Nat → HV → HM Unit) (t : Nat) (v : HV) : HM Unit :=
  exec (poolCtx S none reset fun _ _ => confused) (Emit.returnMethod t) [(.m, .val (.msg t) [] v)] >>= finish

/-- The printed `ResetVT` and `ReturnToVTPool` called on each other; the first argument bounds the number of `ResetVT` methods of messages (not of nil)
active at a time. (`features/pool/pool.go:50-102`) -/
def runResetN (G : GenCfg) (S : Schema) : Nat → Nat → HV → HM Unit
  | 0 => fun _ v => if v.isNil then pure () else HM.lift .diverge
  | n + 1 => fun t v =>
    exec (poolCtx S none (runResetN G S n) (runReturn S (runResetN G S n))) (Emit.resetMethod G S t) [(.m, .val (.msg t) [] v)] >>= finish

/-- The printed `TFromVTPool`. (`features/pool/pool.go:104-106`) -/
def runFromPool (S : Schema) (want : Option Addr) (t : Nat) : HM HV :=
  exec (poolCtx S want (fun _ _ => confused) fun _ _ => confused) (Emit.fromPoolFunc t) [] >>= result

end Vtp.GoH
