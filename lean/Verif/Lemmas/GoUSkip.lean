import Verif.Lemmas.GoUMap
/-! Running the printed calls of `Skip`. -/

namespace Vtp.GoU

section
variable {C : Ctx} {self : Nat}

theorem exec_addIndex_var {y : Id} {vs : List (Id × V)} {i n : Int} {m : Val} (hy : y ≠ .iNdEx) (h : find vs y = .ok (.int n)) :
    exec C self (.addAssign .iNdEx (Emit.var y)) ⟨vs, i⟩ m = (m, .ok (⟨vs, C.A.wrap (i + n)⟩, .next)) := by
  rw [exec, UM.bind_def, evalU, eval_var hy, h]
  rfl

theorem eval_next {vs : List (Id × V)} {i n : Int} {m : Val} (h : find vs .skippy = .ok (.int n)) :
    eval C ⟨vs, i⟩ m (.bin .add Emit.iNdEx (Emit.var .skippy)) = .ok (.int (C.A.wrap (i + n))) := by
  rw [eval_bin eval_index ((eval_var (by decide)).trans h)]
  rfl

theorem eval_lor {a b : Expr} {st : St} {m : Val} {x y : Bool} (ha : eval C st m a = .ok (.bool x)) (hb : eval C st m b = .ok (.bool y)) :
    eval C st m (.lor a b) = .ok (.bool (x || y)) := by
  rw [eval, ha]
  cases x
  · simpa using hb
  · rfl

theorem eval_land {a b : Expr} {st : St} {m : Val} {x y : Bool} (ha : eval C st m a = .ok (.bool x)) (hb : eval C st m b = .ok (.bool y)) :
    eval C st m (.land a b) = .ok (.bool (x && y)) := by
  rw [eval, ha]
  cases x
  · rfl
  · simpa using hb

theorem eval_nil {st : St} {m : Val} : eval C st m .nil = .ok (.val .nil) := by rw [eval]

theorem cond_err {vs : List (Id × V)} {i : Int} {m : Val} {e : Option Err} (h : find vs .err = .ok (.err e)) :
    evalCond C ⟨vs, i⟩ m (.bin .ne (Emit.var .err) .nil) = .ok e.isSome := by
  refine evalCond_of ?_
  rw [eval_bin ((eval_var (by decide)).trans h) eval_nil]
  cases e <;> rfl

theorem exec_retErr {vs : List (Id × V)} {i : Int} {m : Val} {e : Err} (h : find vs .err = .ok (.err (some e))) :
    exec C self .retErr ⟨vs, i⟩ m = (m, .err e) := by
  rw [exec, UM.bind_def, UM.lift, St.look, if_neg (by decide), h]
  rfl

/-- The check of the error of a call. -/
theorem exec_checkErr {vs : List (Id × V)} {i : Int} {m : Val} {e : Option Err} (h : find vs .err = .ok (.err e)) :
    exec C self (Emit.when (.bin .ne (Emit.var .err) .nil) .retErr) ⟨vs, i⟩ m = match e with
      | some e => (m, .err e)
      | none => (m, .ok (⟨vs, i⟩, .next)) := by
  cases e with
  | none => exact exec_when_false (cond_err h)
  | some e => rw [exec_when_true (cond_err h), inScope_def, exec_retErr h]

/-- `Skip` and the checks after it. -/
theorem run_skipHead {vs : List (Id × V)} (h : Std C vs) {i : Nat} (hi : i ≤ C.dAtA.length) (m : Val) :
    exec C self Emit.skipHead ⟨vs, i⟩ m =
    (m, slice C.dAtA i C.dAtA.length >>= fun b => skip C.A b >>= fun n =>
      if C.A.wrap (i + n) < 0 then .err .invalidLength
      else .ok (⟨(.err, .err none) :: (.skippy, .int n) :: vs, i⟩, .next)) := by
  have hsp : span C (.int (i : Int)) (.int (C.dAtA.length : Int)) = .ok (i, C.dAtA.length - i) := by
    rw [span, if_pos ⟨by omega, by omega, by omega⟩]
    simp
  have hlen : ((C.dAtA.drop i).take (C.dAtA.length - i)).length ≤ C.dAtA.length := by simp
  have hlt := skip_lt h.arch ((C.dAtA.drop i).take (C.dAtA.length - i)) (by have := h.fits; unfold Arch.Fits at this ⊢; omega)
  have hcall : exec C self .skipCall ⟨vs, i⟩ m = match skip C.A ((C.dAtA.drop i).take (C.dAtA.length - i)) with
      | .ok k => (m, .ok (⟨(.err, .err none) :: (.skippy, .int k) :: vs, i⟩, .next))
      | .err e => (m, .ok (⟨(.err, .err (some e)) :: (.skippy, .int 0) :: vs, i⟩, .next))
      | .panic p => (m, .panic p)
      | .diverge => (m, .diverge) := by
    rw [exec, UM.bind_def, UM.lift, St.look, if_pos rfl]
    simp only
    rw [UM.bind_def, UM.lift, hsp]
    simp only
    have : C.now i (C.dAtA.length - i) = (C.dAtA.drop i).take (C.dAtA.length - i) := rfl
    rw [this]
    cases skip C.A ((C.dAtA.drop i).take (C.dAtA.length - i)) <;> rfl
  rw [Emit.skipHead, exec_seq, hcall, slice_all hi (Nat.le_refl _), Res.bind_ok]
  cases hs : skip C.A ((C.dAtA.drop i).take (C.dAtA.length - i)) with
  | err e =>
    simp only [andThen_next]
    rw [exec_seq, exec_checkErr (e := some e) (by simp [find])]
    rfl
  | panic p => rw [hs] at hlt; exact hlt.elim
  | diverge => rw [hs] at hlt; exact hlt.elim
  | ok n =>
    rw [hs] at hlt
    simp only [Res.All] at hlt
    simp only [andThen_next]
    rw [exec_seq, exec_checkErr (e := none) (by simp [find])]
    simp only [andThen_next]
    have h1 : eval C ⟨(.err, .err none) :: (.skippy, .int (n : Int)) :: vs, i⟩ m (.bin .lt (Emit.var .skippy) (.lit 0)) = .ok (.bool false) := by
      rw [eval_bin (v := .int (n : Int)) ((eval_var (x := .skippy) (by decide)).trans (by simp [find])) eval_lit]
      simp [binV, asInt]
    have h2 : eval C ⟨(.err, .err none) :: (.skippy, .int (n : Int)) :: vs, i⟩ m (.bin .lt (.bin .add Emit.iNdEx (Emit.var .skippy)) (.lit 0)) =
        .ok (.bool (decide (C.A.wrap (i + n) < 0))) := by
      rw [eval_bin (eval_next (n := n) (by simp [find])) eval_lit]
      simp [binV, asInt]
    rw [exec_check (evalCond_of (eval_lor h1 h2)), Res.bind_ok]
    by_cases hc : C.A.wrap (i + n) < 0 <;> simp [hc]

/-- `Skip`, the checks, and the check of the end. -/
theorem run_skipAt {vs : List (Id × V)} (h : Std C vs) {i : Nat} (hi : i ≤ C.dAtA.length) {lim : Expr} {limit : Nat} (m : Val)
    (hl : ∀ n : Nat, eval C ⟨(.err, .err none) :: (.skippy, .int n) :: vs, i⟩ m lim = .ok (.int limit)) :
    exec C self (Emit.skipHead ;; Emit.when (.bin .gt (.bin .add Emit.iNdEx (Emit.var .skippy)) lim) (.ret .unexpectedEOF)) ⟨vs, i⟩ m =
    (m, skipAt C.A C.dAtA i limit >>= fun j => .ok (⟨(.err, .err none) :: (.skippy, .int ((j - i : Nat) : Int)) :: vs, i⟩, .next)) := by
  have hlen : ((C.dAtA.drop i).take (C.dAtA.length - i)).length ≤ C.dAtA.length := by simp
  have hlt := skip_lt h.arch ((C.dAtA.drop i).take (C.dAtA.length - i)) (by have := h.fits; unfold Arch.Fits at this ⊢; omega)
  rw [exec_seq, run_skipHead h hi, skipAt, slice_all hi (Nat.le_refl _)]
  simp only [Res.bind_ok]
  cases hs : skip C.A ((C.dAtA.drop i).take (C.dAtA.length - i)) with
  | err e => rfl
  | panic p => rfl
  | diverge => rfl
  | ok n =>
    rw [hs] at hlt
    simp only [Res.All] at hlt
    simp only [Res.bind_ok]
    by_cases hc : C.A.wrap (i + n) < 0
    · simp only [hc, if_true]; rfl
    simp only [hc, if_false, andThen_next]
    have hcond : evalCond C ⟨(.err, .err none) :: (.skippy, .int (n : Int)) :: vs, i⟩ m (.bin .gt (.bin .add Emit.iNdEx (Emit.var .skippy)) lim) =
        .ok (decide (C.A.wrap (i + n) > limit)) := by
      refine evalCond_of ?_
      rw [eval_bin (eval_next (n := n) (by simp [find])) (hl n)]
      simp [binV, asInt]
    rw [exec_check hcond]
    by_cases hg : C.A.wrap (i + n) > limit
    · simp [hg]
    · simp only [hg, decide_false, Bool.false_eq_true, if_false, Res.bind_ok]
      have hF := h.fits
      unfold Arch.Fits at hF
      have hpos := h.arch.pos
      have h2p := two_pow_pred (n := C.A.bits) (by omega)
      have : ((C.A.wrap (i + n)).toNat - i : Nat) = n := by
        rcases Arch.wrap_cases h.arch (i + n) (by omega) (by omega) with h | h <;> omega
      rw [this]

theorem add_back {A : Arch} (hA : A.Valid) {d : Bytes} (hF : A.Fits d.length) {i j : Nat} (h1 : i ≤ j) (h2 : j ≤ d.length) :
    A.wrap ((i : Int) + ((j - i : Nat) : Int)) = j := by
  unfold Arch.Fits at hF
  have e : ((i : Int) + ((j - i : Nat) : Int)) = ((j : Nat) : Int) := by omega
  rw [e, Arch.wrap_small hA _ (by omega) (by omega)]

/-- One round of a loop without a third clause. -/
theorem iter_body {α : Type} {cond : St → UM Bool} {body : St → UM (St × Ctrl)} {n : Nat} {st : St} {m : Val} {X : UM α} (F : α → St)
    (hc : cond st m = (m, .ok true)) (hb : body st m = ((X m).1, (X m).2 >>= fun a => .ok (F a, .next))) :
    iter cond body (exec C self .skip) (n + 1) st m = (X >>= fun a => iter cond body (exec C self .skip) n (F a)) m := by
  rw [iter_succ _ _ _ _ _ _ hc, hb, UM.bind_def]
  rcases X m with ⟨m', _ | _ | _ | _⟩
  · simp only [Res.bind_ok]
    rw [exec_skip]
  all_goals rfl

theorem iter_done {cond : St → UM Bool} {body post : St → UM (St × Ctrl)} {n : Nat} {st : St} {m : Val} (hc : cond st m = (m, .ok false)) :
    iter cond body post (n + 1) st m = (m, .ok (st, .next)) := by
  rw [iter, UM.bind_def, hc]
  rfl

/-- The condition `iNdEx < postIndex`. -/
theorem cond_before {p : Id} (hp : p ≠ .iNdEx) {vs : List (Id × V)} {i post : Nat} {m : Val} (h : find vs p = .ok (.int post)) :
    condU C ⟨vs, i⟩ (.bin .lt Emit.iNdEx (Emit.var p)) m = (m, .ok (decide (i < post))) := by
  rw [condU]
  congr 1
  refine evalCond_of ?_
  rw [eval_bin eval_index ((eval_var hp).trans h)]
  simp [binV, asInt]

theorem eval_num32 {vs : List (Id × V)} {i : Int} {m : Val} {w : BitVec 64} (h : find vs .wire = .ok (.num .uint64 w)) :
    eval C ⟨vs, i⟩ m (.conv (.num .int32) (.bin .shr (Emit.var .wire) (.lit 3))) = .ok (.num .int32 ((w >>> 3).setWidth 32)) := by
  have : eval C ⟨vs, i⟩ m (.bin .shr (Emit.var .wire) (.lit 3)) = .ok (.num .uint64 (w >>> 3)) := by
    rw [eval_bin ((eval_var (by decide)).trans h) eval_lit]
    rfl
  rw [eval_conv this]
  exact congrArg (fun w => Res.ok (V.num .int32 w)) (congrArg _ (BitVec.setWidth_eq _))

theorem eval_wireType {vs : List (Id × V)} {i : Int} {m : Val} {w : BitVec 64} (hA : C.A.Valid) (hF : C.A.Fits C.dAtA.length) (h : find vs .wire = .ok (.num .uint64 w)) :
    eval C ⟨vs, i⟩ m (.conv .int (.bin .and (Emit.var .wire) (.lit 7))) = .ok (.int ((w &&& 7).toNat : Int)) := by
  have : eval C ⟨vs, i⟩ m (.bin .and (Emit.var .wire) (.lit 7)) = .ok (.num .uint64 (w &&& 7#64)) := by
    rw [eval_bin ((eval_var (by decide)).trans h) eval_lit]
    rfl
  rw [eval_conv this]
  have hlt : (w &&& 7).toNat < 8 := by
    have : (w &&& 7).toNat ≤ 7 := by
      rw [BitVec.toNat_and]; exact Nat.and_le_right
    omega
  have e : convV C .int (.num .uint64 (w &&& 7#64)) = .ok (.int (C.A.wrap ((w &&& 7).toNat : Int))) := rfl
  unfold Arch.Fits at hF
  rw [e, Arch.wrap_small hA _ (by omega) (by omega)]

end

end Vtp.GoU
