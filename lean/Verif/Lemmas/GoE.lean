import Verif.Model.EmitEqual
import Verif.Lemmas.Equal
import Verif.Lemmas.EmitSize
/-!
# The code printed for `EqualVT`: statements that return false or go on
-/

namespace Vtp.GoE
open Spec
open Go (GTy GenCfg elemTy fieldTy slotTy memberTy numTy)

/-- The statement does a comparison with outcome `r`: it returns false, or goes on with the variables `ws`. -/
def Cmp (C : Ctx) (s : Stmt) (vs ws : Vars) (r : Res Bool) : Prop :=
  exec C s vs = r >>= fun b => .ok (if b then .next ws else .ret false)

variable {C : Ctx} {vs ws us : Vars} {r r' : Res Bool} {a b s : Stmt} {c e lhs rhs : Expr}

theorem Cmp.skip : Cmp C .skip vs vs (.ok true) := rfl

theorem Cmp.cast (h : Cmp C s vs ws r) (he : r = r') : Cmp C s vs ws r' := he ▸ h

theorem Cmp.seq (ha : Cmp C a vs ws r) (hb : r = .ok true → Cmp C b ws us r') :
    Cmp C (a ;; b) vs us (r >>= fun b => if b then r' else .ok false) := by
  unfold Cmp at *
  rw [exec, ha]
  rcases r with x | x | x | _
  · cases x
    · rfl
    · simp only [Res.bind_ok, if_true]
      rw [hb rfl]
  · rfl
  · rfl
  · rfl

theorem Cmp.next (ha : exec C a vs = .ok (.next ws)) (hb : Cmp C b ws us r) : Cmp C (a ;; b) vs us r := by
  unfold Cmp at *
  rw [exec, ha]
  exact hb

theorem block_of {bind bind' : Vars} {f : Vars → Res Flow} (hl : bind'.length = bind.length)
    (h : f (bind ++ vs) = r >>= fun b => .ok (if b then .next (bind' ++ vs) else .ret false)) :
    block bind f vs = r >>= fun b => .ok (if b then .next vs else .ret false) := by
  unfold block
  rw [h]
  rcases r with x | x | x | _
  · cases x
    · rfl
    · simp
  · rfl
  · rfl
  · rfl

/-- A block declaring variables. -/
theorem Cmp.block {bind bind' : Vars} (hl : bind'.length = bind.length) (h : Cmp C s (bind ++ vs) (bind' ++ vs) r) :
    GoE.block bind (exec C s) vs = r >>= fun b => .ok (if b then .next vs else .ret false) := block_of hl h

theorem Cmp.ite {t : Bool} (hc : (eval C vs c >>= truth) = .ok t) (ha : t = true → Cmp C a vs vs r) (hb : t = false → Cmp C b vs vs r) :
    Cmp C (.ite c a b) vs vs r := by
  unfold Cmp
  rw [exec, hc]
  simp only [Res.bind_ok]
  cases t
  · exact Cmp.block (bind := []) (bind' := []) rfl (hb rfl)
  · exact Cmp.block (bind := []) (bind' := []) rfl (ha rfl)

theorem exec_retFalse : exec C (.ret .ff) vs = .ok (.ret false) := rfl

theorem Cmp.retFalse : Cmp C (.ret .ff) vs ws (.ok false) := rfl

/-- `if c { return false }` for a condition with outcome `r`. -/
theorem Cmp.ifRet (hc : (eval C vs c >>= truth) = r >>= fun b => .ok !b) : Cmp C (.ite c (.ret .ff) .skip) vs vs r := by
  unfold Cmp
  rw [exec, hc]
  rcases r with x | x | x | _
  · cases x <;> simp [GoE.block, exec, eval, truth]
  · rfl
  · rfl
  · rfl

/-- `if !e { return false }`. -/
theorem Cmp.ifNot (he : (eval C vs e >>= truth) = r) : Cmp C (.ite (.not e) (.ret .ff) .skip) vs vs r := by
  refine Cmp.ifRet ?_
  rw [eval, he]
  rcases r with x | x | x | _ <;> rfl

/-- `if x, y := a, b; c { return false }`. -/
theorem Cmp.ifWithRet {x y : Id} {a b : Expr} {v w : V} (ha : eval C vs a = .ok v) (hb : eval C vs b = .ok w)
    (hc : (eval C ((y, w) :: (x, v) :: vs) c >>= truth) = r >>= fun b => .ok !b) : Cmp C (.ifWith x y a b c (.ret .ff)) vs vs r := by
  unfold Cmp
  rw [exec, ha, hb]
  simp only [Res.bind_ok]
  refine block_of (bind' := [(y, w), (x, v)]) rfl ?_
  simp only [List.cons_append, List.nil_append]
  rw [hc]
  rcases r with x | x | x | _
  · cases x <;> simp [GoE.block, exec, eval, truth]
  · rfl
  · rfl
  · rfl

/-- `if x, y := a, b; c { s }`. -/
theorem Cmp.ifWith {x y : Id} {a b : Expr} {v w v' w' : V} {t : Bool} (ha : eval C vs a = .ok v) (hb : eval C vs b = .ok w)
    (hc : (eval C ((y, w) :: (x, v) :: vs) c >>= truth) = .ok t)
    (hs : t = true → Cmp C s ((y, w) :: (x, v) :: vs) ((y, w') :: (x, v') :: vs) r) (hr : t = false → r = .ok true) :
    Cmp C (.ifWith x y a b c s) vs vs r := by
  unfold Cmp
  rw [exec, ha, hb]
  simp only [Res.bind_ok]
  cases t
  · rw [hr rfl]
    refine block_of (bind' := [(y, w), (x, v)]) rfl ?_
    simp only [List.cons_append, List.nil_append]
    rw [hc]
    rfl
  · refine block_of (bind' := [(y, w'), (x, v')]) rfl ?_
    simp only [List.cons_append, List.nil_append]
    rw [hc]
    simp only [Res.bind_ok, if_true]
    have h := hs rfl
    unfold Cmp at h
    unfold GoE.block
    simp only [List.nil_append]
    rw [h]
    rcases r with z | z | z | _
    · cases z <;> simp
    · rfl
    · rfl
    · rfl

/-! ## Conditions -/

theorem eval_eqNil {T : GTy} {x : Option (List Nat)} {v : Val} (h : eval C vs e = .ok (.val T x v)) (hT : nilable T = true) :
    eval C vs (.eq e .nil) = .ok (.bool (Go.isNilG T v)) := by
  simp [eval, h, eqV, hT]

theorem eval_neNil {T : GTy} {x : Option (List Nat)} {v : Val} (h : eval C vs e = .ok (.val T x v)) (hT : nilable T = true) :
    eval C vs (.ne e .nil) = .ok (.bool !(Go.isNilG T v)) := by
  simp [eval, h, eqV, hT]

theorem eval_ne {v w : V} {b : Res Bool} (h : eval C vs lhs = .ok v) (h' : eval C vs rhs = .ok w) (he : eqV C v w = b) :
    (eval C vs (.ne lhs rhs) >>= truth) = b >>= fun b => .ok !b := by
  rw [eval, h, h']
  simp only [Res.bind_ok]
  rw [he]
  rcases b with x | x | x | _ <;> rfl

theorem eval_eq {v w : V} {b : Res Bool} (h : eval C vs lhs = .ok v) (h' : eval C vs rhs = .ok w) (he : eqV C v w = b) :
    (eval C vs (.eq lhs rhs) >>= truth) = b := by
  rw [eval, h, h']
  simp only [Res.bind_ok]
  rw [he]
  rcases b with x | x | x | _ <;> rfl

end Vtp.GoE
