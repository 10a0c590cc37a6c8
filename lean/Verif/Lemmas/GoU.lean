import Verif.Model.EmitUnmarshal
import Verif.Lemmas.Safe
import Verif.Lemmas.Ext
/-! Running the printed statements: variables, blocks, the varint loop, fixed-width reads and lengths. -/

namespace Vtp.GoU
open Spec

/-! ## Variables -/

theorem find_put_self : ∀ (vs : List (Id × V)) (x : Id) (v w : V), find vs x = .ok w → find (put vs x v) x = .ok v
  | [], _, _, _, h => by simp [find, confused] at h
  | (y, u) :: vs, x, v, w, h => by
    unfold put
    by_cases hy : y = x
    · simp [hy, find]
    · simp only [hy, if_false, find] at h ⊢
      exact find_put_self vs x v w h

theorem find_put_ne : ∀ (vs : List (Id × V)) (x y : Id) (v : V), x ≠ y → find (put vs x v) y = find vs y
  | [], _, _, _, _ => rfl
  | (z, u) :: vs, x, y, v, h => by
    unfold put
    by_cases hz : z = x
    · subst hz; simp [find, h]
    · simp only [hz, if_false, find]
      rw [find_put_ne vs x y v h]

theorem put_put : ∀ (vs : List (Id × V)) (x : Id) (v w : V), put (put vs x v) x w = put vs x w
  | [], _, _, _ => rfl
  | (z, u) :: vs, x, v, w => by
    by_cases hz : z = x
    · simp [put, hz]
    · simp [put, hz, put_put vs x v w]

theorem put_same : ∀ (vs : List (Id × V)) (x : Id) (v : V), find vs x = .ok v → put vs x v = vs
  | [], _, _, h => rfl
  | (z, u) :: vs, x, v, h => by
    by_cases hz : z = x
    · subst hz; simp [find] at h; simp [put, h]
    · simp only [find, hz, if_false] at h
      simp [put, hz, put_same vs x v h]

theorem length_put : ∀ (vs : List (Id × V)) (x : Id) (v : V), (put vs x v).length = vs.length
  | [], _, _ => rfl
  | (z, u) :: vs, x, v => by
    by_cases hz : z = x
    · simp [put, hz]
    · simp [put, hz, length_put vs x v]

theorem find_append (ext vs : List (Id × V)) (x : Id) (h : ∀ p ∈ ext, p.1 ≠ x) : find (ext ++ vs) x = find vs x := by
  induction ext with
  | nil => rfl
  | cons p ext ih =>
    obtain ⟨y, v⟩ := p
    have := h (y, v) (by simp)
    simp only [List.cons_append, find, this, if_false]
    exact ih fun q hq => h q (by simp [hq])

theorem put_append (ext vs : List (Id × V)) (x : Id) (v : V) (h : ∀ p ∈ ext, p.1 ≠ x) : put (ext ++ vs) x v = ext ++ put vs x v := by
  induction ext with
  | nil => rfl
  | cons p ext ih =>
    obtain ⟨y, w⟩ := p
    have := h (y, w) (by simp)
    simp only [List.cons_append, put, this, if_false]
    rw [ih fun q hq => h q (by simp [hq])]

@[simp] theorem leave_self (st : St) : st.leave st = st := by simp [St.leave]

theorem leave_append (ext vs : List (Id × V)) (i : Int) (o : St) (h : o.vars.length = vs.length) :
    (⟨ext ++ vs, i⟩ : St).leave o = ⟨vs, i⟩ := by
  simp [St.leave, h, List.drop_left]

theorem leave_cons (p : Id × V) (vs : List (Id × V)) (i : Int) (o : St) (h : o.vars.length = vs.length) :
    (⟨p :: vs, i⟩ : St).leave o = ⟨vs, i⟩ := leave_append [p] vs i o h

theorem leave_eq (vs : List (Id × V)) (i : Int) (o : St) (h : o.vars.length = vs.length) :
    (⟨vs, i⟩ : St).leave o = ⟨vs, i⟩ := leave_append [] vs i o h

/-! ## Statements -/

/-- What follows a statement. -/
def andThen (x : Val × Res (St × Ctrl)) (k : St → UM (St × Ctrl)) : Val × Res (St × Ctrl) :=
  match x with
  | (m, .ok (st, .next)) => k st m
  | (m, .ok (st, c)) => (m, .ok (st, c))
  | (m, .err e) => (m, .err e)
  | (m, .panic p) => (m, .panic p)
  | (m, .diverge) => (m, .diverge)

@[simp] theorem andThen_next (m : Val) (st : St) (k : St → UM (St × Ctrl)) : andThen (m, .ok (st, .next)) k = k st m := rfl
@[simp] theorem andThen_err (m : Val) (e : Err) (k : St → UM (St × Ctrl)) : andThen (m, .err e) k = (m, .err e) := rfl
@[simp] theorem andThen_panic (m : Val) (e : Panic) (k : St → UM (St × Ctrl)) : andThen (m, .panic e) k = (m, .panic e) := rfl
@[simp] theorem andThen_diverge (m : Val) (k : St → UM (St × Ctrl)) : andThen (m, .diverge) k = (m, .diverge) := rfl

section
variable {C : Ctx} {self : Nat}

theorem exec_seq (a b : Stmt) (st : St) (m : Val) :
    exec C self (a ;; b) st m = andThen (exec C self a st m) (exec C self b) := by
  rw [exec, UM.bind_def]
  rcases exec C self a st m with ⟨m', ⟨st', c⟩ | e | p | _⟩ <;> try rfl
  cases c <;> rfl

theorem exec_skip (st : St) (m : Val) : exec C self .skip st m = (m, .ok (st, .next)) := by rw [exec]; rfl

theorem inScope_def (st : St) (x : UM (St × Ctrl)) (m : Val) : inScope st x m = match x m with
    | (m', .ok (st', c)) => (m', .ok (st'.leave st, c))
    | (m', .err e) => (m', .err e)
    | (m', .panic p) => (m', .panic p)
    | (m', .diverge) => (m', .diverge) := by
  unfold inScope
  rw [UM.bind_def]
  rcases x m with ⟨m', ⟨st', c⟩ | e | p | _⟩ <;> rfl

theorem exec_ite {c : Expr} {a b : Stmt} {st : St} {m : Val} {x : Bool} (h : evalCond C st m c = .ok x) :
    exec C self (.ite c a b) st m = inScope st (exec C self (if x then a else b) st) m := by
  rw [exec, UM.bind_def]
  simp only [condU, h]
  cases x <;> rfl

/-- `if c { return e }`. -/
theorem exec_check {c : Expr} {e : Err} {st : St} {m : Val} {x : Bool} (h : evalCond C st m c = .ok x) :
    exec C self (Emit.when c (.ret e)) st m = if x then (m, .err e) else (m, .ok (st, .next)) := by
  rw [Emit.when, exec_ite h, inScope_def]
  cases x <;> simp [exec]

/-- `if c { s }` with a false condition. -/
theorem exec_when_false {c : Expr} {s : Stmt} {st : St} {m : Val} (h : evalCond C st m c = .ok false) :
    exec C self (Emit.when c s) st m = (m, .ok (st, .next)) := by
  rw [Emit.when, exec_ite h, inScope_def]
  simp [exec]

/-- `if c { s }` with a true condition. -/
theorem exec_when_true {c : Expr} {s : Stmt} {st : St} {m : Val} (h : evalCond C st m c = .ok true) :
    exec C self (Emit.when c s) st m = inScope st (exec C self s st) m := by
  rw [Emit.when, exec_ite h]; rfl

theorem exec_decl {x : Id} {T : Ty} {vs : List (Id × V)} {i : Int} {m : Val} (hx : x ≠ .iNdEx) :
    exec C self (.decl x T) ⟨vs, i⟩ m = (m, .ok (⟨(x, zero T) :: vs, i⟩, .next)) := by
  rw [exec]; simp [St.decl, hx, UM.bind_def]

theorem exec_define {x : Id} {e : Expr} {vs : List (Id × V)} {i : Int} {m : Val} {v : V} (hx : x ≠ .iNdEx)
    (h : eval C ⟨vs, i⟩ m e = .ok v) :
    exec C self (.define x e) ⟨vs, i⟩ m = (m, .ok (⟨(x, v) :: vs, i⟩, .next)) := by
  rw [exec]; simp [St.decl, hx, UM.bind_def, evalU, h]

/-- `x = e` for a variable. -/
theorem exec_assign_id {x : Id} {e : Expr} {vs : List (Id × V)} {i : Int} {m : Val} {v : V} (hx : x ≠ .iNdEx)
    (h : eval C ⟨vs, i⟩ m e = .ok v) :
    exec C self (.assign (.id x) e) ⟨vs, i⟩ m = (m, .ok (⟨put vs x v, i⟩, .next)) := by
  rw [exec]; simp [writePlace, St.set, hx, UM.bind_def, evalU, h]

/-- `iNdEx = e`. -/
theorem exec_assign_index {e : Expr} {vs : List (Id × V)} {i j : Int} {m : Val} (h : eval C ⟨vs, i⟩ m e = .ok (.int j)) :
    exec C self (.assign (.id .iNdEx) e) ⟨vs, i⟩ m = (m, .ok (⟨vs, j⟩, .next)) := by
  rw [exec]; simp [writePlace, St.set, UM.bind_def, evalU, h]

/-- `m.F = e`. -/
theorem exec_assign_field {s : Nat} {e : Expr} {st : St} {sl : List Val} {u x : Bytes} {v : V} {w : Val}
    (h : eval C st (.msg sl u x) e = .ok v) (hw : stored C v = .ok w) :
    exec C self (.assign (.field s) e) st (.msg sl u x) = (.msg (sl.set s w) u x, .ok (st, .next)) := by
  rw [exec]; simp [writePlace, UM.bind_def, evalU, h, hw, setSlot]

theorem eval_var {x : Id} {vs : List (Id × V)} {i : Int} {m : Val} (hx : x ≠ .iNdEx) : eval C ⟨vs, i⟩ m (Emit.var x) = find vs x := by
  simp [eval, readPlace, St.look, hx]

@[simp] theorem eval_index {vs : List (Id × V)} {i : Int} {m : Val} : eval C ⟨vs, i⟩ m Emit.iNdEx = .ok (.int i) := by
  simp [eval, readPlace, St.look]

end

/-! ## The varint loop -/

/-- A place for a number of width `w`, as seen by the loop: the variables and the receiver for every number in it. -/
structure Acc (C : Ctx) (me : Nat) (p : Place) (T : Ty) (w : Nat) where
  vars : BitVec w → List (Id × V)
  m : BitVec w → Val
  or : ∀ (acc : BitVec w) (i : Int) (b : UInt8) (s : Nat),
    exec C me (.orAssign p (.bin .shl (.conv T (.bin .and (Emit.var .b) (.lit 0x7F))) (Emit.var .shift)))
      ⟨(.b, .byte b) :: (.shift, .uint s) :: vars acc, i⟩ (m acc) =
    (m (acc ||| (BitVec.ofNat w (b &&& 0x7f).toNat <<< s)),
      .ok (⟨(.b, .byte b) :: (.shift, .uint s) :: vars (acc ||| (BitVec.ofNat w (b &&& 0x7f).toNat <<< s)), i⟩, .next))
  l : ∀ acc, find (vars acc) .l = .ok (.int C.dAtA.length)
  length : ∀ a b, (vars a).length = (vars b).length

section
variable {C : Ctx} {self : Nat} {p : Place} {T : Ty} {w : Nat}

theorem iter_succ (cond : St → UM Bool) (body post : St → UM (St × Ctrl)) (n : Nat) (st : St) (m : Val) (h : cond st m = (m, .ok true)) :
    iter cond body post (n + 1) st m = match body st m with
      | (m', .ok (st', .next)) => match post st' m' with
        | (m'', .ok (st'', _)) => iter cond body post n st'' m''
        | (m'', .err e) => (m'', .err e)
        | (m'', .panic p) => (m'', .panic p)
        | (m'', .diverge) => (m'', .diverge)
      | (m', .ok (st', .brk)) => (m', .ok (st', .next))
      | (m', .ok (st', .ret)) => (m', .ok (st', .ret))
      | (m', .err e) => (m', .err e)
      | (m', .panic p) => (m', .panic p)
      | (m', .diverge) => (m', .diverge) := by
  rw [iter, UM.bind_def, h]
  simp only [if_true]
  rw [UM.bind_def]
  rcases body st m with ⟨m', ⟨st', c⟩ | e | p | _⟩ <;> try rfl
  cases c <;> try rfl
  simp only
  rw [UM.bind_def]
  rcases post st' m' with ⟨m'', ⟨st'', c'⟩ | e | p | _⟩ <;> rfl

/-- One iteration of the loop. -/
theorem varintBody_run (K : Acc C self p T w) (hF : C.A.Fits C.dAtA.length) (hA : C.A.Valid) (acc : BitVec w) (i s : Nat) :
    inScope ⟨(.shift, .uint s) :: K.vars acc, i⟩ (exec C self (Emit.varintBody p T) ⟨(.shift, .uint s) :: K.vars acc, i⟩) (K.m acc) =
    if s ≥ 64 then (K.m acc, .err .intOverflow)
    else if i ≥ C.dAtA.length then (K.m acc, .err .unexpectedEOF)
    else match C.dAtA[i]? with
      | none => (K.m acc, .panic .indexOutOfRange)
      | some b =>
        let acc' := acc ||| (BitVec.ofNat w (b &&& 0x7f).toNat <<< s)
        (K.m acc', .ok (⟨(.shift, .uint s) :: K.vars acc', (i + 1 : Nat)⟩, if b < 0x80 then .brk else .next)) := by
  have h1 : evalCond C ⟨(.shift, .uint s) :: K.vars acc, i⟩ (K.m acc) (.bin .ge (Emit.var .shift) (.lit 64)) = .ok (decide (s ≥ 64)) := by
    simp [evalCond, eval, readPlace, St.look, find, binV, asInt]
  have h2 : evalCond C ⟨(.shift, .uint s) :: K.vars acc, i⟩ (K.m acc) (.bin .ge Emit.iNdEx (Emit.var .l)) = .ok (decide (i ≥ C.dAtA.length)) := by
    simp [evalCond, eval, readPlace, St.look, find, binV, asInt, K.l]
  rw [inScope_def, Emit.varintBody, exec_seq, exec_check h1]
  by_cases hs : s ≥ 64
  · simp [hs]
  rw [if_neg (by simp; omega), if_neg hs, andThen_next, exec_seq, exec_check h2]
  by_cases hi : i ≥ C.dAtA.length
  · simp [hi]
  rw [if_neg (by simp; omega), if_neg hi, andThen_next, exec_seq]
  have hi' : i < C.dAtA.length := by omega
  rw [List.getElem?_eq_getElem hi']
  generalize hb : C.dAtA[i] = b
  rw [exec_define (v := .byte b) (by decide) (by simp [eval, readPlace, St.look, hi', hb])]
  rw [andThen_next, exec_seq]
  have hw : C.A.wrap ((i : Int) + 1) = ((i + 1 : Nat) : Int) := by
    unfold Arch.Fits at hF
    rw [Arch.wrap_small hA _ (by omega) (by omega)]; rfl
  have h3 : ∀ vs m, exec C self (.inc .iNdEx) ⟨vs, i⟩ m = (m, .ok (⟨vs, ((i + 1 : Nat) : Int)⟩, .next)) := by
    intro vs m
    rw [exec]
    simp [UM.bind_def, St.look, binV, hw, St.set]
  rw [h3, andThen_next, exec_seq, K.or]
  simp only [andThen_next]
  set acc' := acc ||| (BitVec.ofNat w (b &&& 0x7f).toNat <<< s) with hacc
  have h4 : evalCond C ⟨(.b, .byte b) :: (.shift, .uint s) :: K.vars acc', ((i + 1 : Nat) : Int)⟩ (K.m acc') (.bin .lt (Emit.var .b) (.lit 0x80)) =
      .ok (decide (b < 0x80)) := by
    simp [evalCond, eval, readPlace, St.look, find, binV, asInt, UInt8.lt_iff_toNat_lt]
  by_cases hb8 : b < 0x80
  · rw [exec_when_true (by rw [h4]; simp [hb8]), inScope_def]
    simp only [exec, UM.pure_def, leave_self, hb8, if_true]
    rw [leave_cons _ _ _ _ (by simp [K.length acc acc'])]
  · rw [exec_when_false (by rw [h4]; simp [hb8])]
    simp only [hb8, if_false]
    rw [leave_cons _ _ _ _ (by simp [K.length acc acc'])]

/-- The loop is `decodeVarintLoop`. -/
theorem varint_iter (K : Acc C self p T w) (hF : C.A.Fits C.dAtA.length) (hA : C.A.Valid) : ∀ (n k s i : Nat) (acc : BitVec w),
    64 ≤ s + 7 * (n - 1) → 1 ≤ n → n ≤ k → s + 7 * n ≤ 200 →
    ∃ s', iter (fun _ => pure true) (fun st => inScope st (exec C self (Emit.varintBody p T) st)) (exec C self (.addAssign .shift (.lit 7))) k
      ⟨(.shift, .uint s) :: K.vars acc, i⟩ (K.m acc) =
    (K.m (varintAcc w C.dAtA n s i acc),
      decodeVarintLoop w C.dAtA n s i acc >>= fun r => .ok (⟨(.shift, .uint s') :: K.vars r.1, (r.2 : Int)⟩, .next)) := by
  intro n
  induction n with
  | zero => intro k s i acc h h1; omega
  | succ n ih =>
    intro k s i acc h h1 hk h2
    obtain ⟨k, rfl⟩ : ∃ k', k = k' + 1 := ⟨k - 1, by omega⟩
    rw [iter_succ _ _ _ _ _ _ (by rfl), varintBody_run K hF hA, decodeVarintLoop, varintAcc]
    by_cases hs : s ≥ 64
    · exact ⟨0, by simp [hs]⟩
    simp only [hs, if_false]
    by_cases hi : i ≥ C.dAtA.length
    · exact ⟨0, by simp [hi]⟩
    simp only [hi, if_false]
    have hi' : i < C.dAtA.length := by omega
    rw [List.getElem?_eq_getElem hi']
    generalize C.dAtA[i] = b
    simp only
    by_cases hb : b < 0x80
    · exact ⟨s, by simp [hb]⟩
    · simp only [hb, if_false]
      have hadd : ∀ vs i m, exec C self (.addAssign .shift (.lit 7)) ⟨(.shift, .uint s) :: vs, i⟩ m = (m, .ok (⟨(.shift, .uint (s + 7)) :: vs, i⟩, .next)) := by
        intro vs i m
        have : (s + 7) % 2 ^ C.A.bits = s + 7 := by
          refine Nat.mod_eq_of_lt ?_
          have : 2 ^ 32 ≤ 2 ^ C.A.bits := Nat.pow_le_pow_right (by omega) (by rcases hA with h | h <;> omega)
          omega
        rw [exec]
        simp [UM.bind_def, evalU, eval, St.look, find, binV, St.set, put, this]
      rw [hadd]
      simp only
      obtain ⟨s', h'⟩ := ih k (s + 7) (i + 1) (acc ||| (BitVec.ofNat w (b &&& 0x7f).toNat <<< s)) (by omega) (by omega) (by omega) (by omega)
      exact ⟨s', h'⟩

/-- `decodeVarint` on a place holding `acc`. -/
theorem exec_decodeVarint (K : Acc C self p T w) (hF : C.A.Fits C.dAtA.length) (hA : C.A.Valid) (hfuel : 11 ≤ C.fuel) (i : Nat) (acc : BitVec w) :
    exec C self (Emit.decodeVarint p T) ⟨K.vars acc, i⟩ (K.m acc) =
    (K.m (varintAcc w C.dAtA 11 0 i acc),
      decodeVarintLoop w C.dAtA 11 0 i acc >>= fun r => .ok (⟨K.vars r.1, (r.2 : Int)⟩, .next)) := by
  rw [Emit.decodeVarint, exec, inScope_def, UM.bind_def]
  rw [exec_define (v := .uint 0) (by decide) (by simp [eval, convV])]
  simp only
  obtain ⟨s', h⟩ := varint_iter K hF hA 11 C.fuel 0 i acc (by omega) (by omega) hfuel (by omega)
  rw [h]
  cases decodeVarintLoop w C.dAtA 11 0 i acc with
  | ok r => simp only [Res.bind_ok]; rw [leave_cons _ _ _ _ (by simp [K.length acc r.1])]
  | err e => rfl
  | panic p => rfl
  | diverge => rfl

/-- Where the loop finds a number of type `T` in a variable. -/
def varAcc (C : Ctx) (self : Nat) (m : Val) (T : NTy) (vs : List (Id × V)) (x : Id) (h1 : x ≠ .b) (h2 : x ≠ .shift) (h3 : x ≠ .l) (h4 : x ≠ .iNdEx)
    (v0 : V) (hx : find vs x = .ok v0) (hl : find vs .l = .ok (.int C.dAtA.length)) : Acc C self (.id x) (.num T) T.width where
  vars acc := put vs x (.num T acc)
  m _ := m
  or acc i b s := by
    have e := find_put_self vs x (.num T acc) v0 hx
    rw [exec]
    simp [UM.bind_def, evalU, readU, eval, readPlace, St.look, find, h1.symm, h2.symm, h4, binV, convV, asCount, orV, e, writePlace, St.set, put, put_put]
  l acc := by rw [find_put_ne _ _ _ _ h3, hl]
  length a b := by simp [length_put]

/-- Where the loop finds an `int` in a variable. -/
def intAcc (C : Ctx) (self : Nat) (m : Val) (vs : List (Id × V)) (x : Id) (h1 : x ≠ .b) (h2 : x ≠ .shift) (h3 : x ≠ .l) (h4 : x ≠ .iNdEx)
    (v0 : V) (hx : find vs x = .ok v0) (hl : find vs .l = .ok (.int C.dAtA.length)) : Acc C self (.id x) .int C.A.bits where
  vars acc := put vs x (.int acc.toInt)
  m _ := m
  or acc i b s := by
    have e := find_put_self vs x (.int acc.toInt) v0 hx
    have e2 : ∀ n : Nat, BitVec.ofInt C.A.bits (n : Int) = BitVec.ofNat C.A.bits n := fun n => BitVec.ofInt_natCast _ _
    have e3 : binV C.A .and (.byte b) (.const 127) = .ok (.byte (b &&& 0x7f)) := rfl
    have e4 : convV C .int (.byte (b &&& 0x7f)) = .ok (.int ((b &&& 0x7f).toNat : Nat)) := rfl
    have e5 : binV C.A .shl (.int ((b &&& 0x7f).toNat : Nat)) (.uint s) = .ok (.int (BitVec.ofNat C.A.bits (b &&& 0x7f).toNat <<< s).toInt) := by
      rw [← e2]; rfl
    have e6 : ∀ a b : BitVec C.A.bits, orV C.A (.int a.toInt) (.int b.toInt) = .ok (.int (a ||| b).toInt) := by
      intro a b; simp only [orV, BitVec.ofInt_toInt]
    rw [exec]
    simp only [UM.bind_def, evalU, readU, eval, readPlace, St.look, find, h1.symm, h2.symm, h4, e, e3, e4, e5, e6, Res.bind_ok, writePlace, St.set, put, put_put,
      if_true, if_false, UM.lift_def, UM.pure_def, reduceCtorEq]
  l acc := by rw [find_put_ne _ _ _ _ h3, hl]
  length a b := by simp [length_put]

theorem setWidth_signExtend32 (v : BitVec 32) : (v.signExtend 64).setWidth 32 = v := by
  refine BitVec.eq_of_getElem_eq fun i hi => ?_
  rw [BitVec.getElem_setWidth, BitVec.getLsbD_signExtend]
  have : i < 64 := by omega
  simp [hi, this]

theorem ext_setWidth (T : NTy) (v : BitVec T.width) : (T.ext v).setWidth T.width = v := by
  cases T <;> simp only [NTy.ext, NTy.signed, NTy.width] at v ⊢
  · exact setWidth_signExtend32 v
  · simp only [Bool.false_eq_true, if_false]; exact BitVec.setWidth_setWidth_of_le v (by decide) |>.trans (BitVec.setWidth_eq v)
  · simp
  · simp
  · exact setWidth_signExtend32 v

/-- Where the loop finds a number of type `T` in a struct field. -/
def slotAcc (C : Ctx) (self : Nat) (T : NTy) (vs : List (Id × V)) (hl : find vs .l = .ok (.int C.dAtA.length))
    (sl : List Val) (u x : Bytes) (s : Nat) (hs : s < sl.length) : Acc C self (.field s) (.num T) T.width where
  vars _ := vs
  m acc := .msg (sl.set s (.num (T.ext acc))) u x
  or acc i b k := by
    have e3 : binV C.A .and (.byte b) (.const 127) = .ok (.byte (b &&& 0x7f)) := rfl
    have e4 : convV C (.num T) (.byte (b &&& 0x7f)) = .ok (.num T (BitVec.ofNat T.width (b &&& 0x7f).toNat)) := rfl
    have e5 : binV C.A .shl (.num T (BitVec.ofNat T.width (b &&& 0x7f).toNat)) (.uint k) = .ok (.num T (BitVec.ofNat T.width (b &&& 0x7f).toNat <<< k)) := rfl
    have e6 : ∀ a b : BitVec T.width, orV C.A (.val (.num (T.ext a))) (.num T b) = .ok (.num T (a ||| b)) := by
      intro a b; simp only [orV, ext_setWidth]
    have e7 : Vtp.GoU.slotOf (.msg (sl.set s (.num (T.ext acc))) u x) s = .ok (.num (T.ext acc)) := by
      simp [Vtp.GoU.slotOf, getSlot, hs]
    rw [exec]
    simp only [UM.bind_def, evalU, readU, eval, readPlace, St.look, find, e3, e4, e5, e6, e7, Res.bind_ok, writePlace, stored, setSlot,
      if_true, if_false, UM.lift_def, UM.pure_def, reduceCtorEq, List.set_set]
  l _ := hl
  length _ _ := rfl

/-- What stays on the way: the checks of the length of the input. -/
structure Std (C : Ctx) (vs : List (Id × V)) : Prop where
  fits : C.A.Fits C.dAtA.length
  arch : C.A.Valid
  fuel : 11 ≤ C.fuel
  l : find vs .l = .ok (.int C.dAtA.length)

theorem Std.cons {vs : List (Id × V)} (h : Std C vs) {x : Id} (hx : x ≠ .l) (v : V) : Std C ((x, v) :: vs) :=
  ⟨h.fits, h.arch, h.fuel, by simp [find, hx, h.l]⟩

theorem Std.put {vs : List (Id × V)} (h : Std C vs) {x : Id} (hx : x ≠ .l) (v : V) : Std C (put vs x v) :=
  ⟨h.fits, h.arch, h.fuel, by rw [find_put_ne _ _ _ _ hx, h.l]⟩

/-- `decodeVarint` on a variable that was just declared. -/
theorem run_varint {vs : List (Id × V)} (h : Std C vs) {x : Id} (h1 : x ≠ .b) (h2 : x ≠ .shift) (h3 : x ≠ .l) (h4 : x ≠ .iNdEx) (T : NTy)
    (acc : BitVec T.width) (i : Nat) (m : Val) :
    exec C self (Emit.decodeVarint (.id x) (.num T)) ⟨(x, .num T acc) :: vs, i⟩ m =
    (m, decodeVarintLoop T.width C.dAtA 11 0 i acc >>= fun r => .ok (⟨(x, .num T r.1) :: vs, (r.2 : Int)⟩, .next)) := by
  have := exec_decodeVarint (varAcc C self m T ((x, .num T acc) :: vs) x h1 h2 h3 h4 (.num T acc) (by simp [find]) (by simp [find, h3, h.l]))
    h.fits h.arch h.fuel i acc
  simpa [varAcc, put] using this

/-- `decodeVarint` on a variable further out. -/
theorem run_varint_put {vs : List (Id × V)} (h : Std C vs) {x : Id} (h1 : x ≠ .b) (h2 : x ≠ .shift) (h3 : x ≠ .l) (h4 : x ≠ .iNdEx) (T : NTy)
    (acc : BitVec T.width) (hx : find vs x = .ok (.num T acc)) (i : Nat) (m : Val) :
    exec C self (Emit.decodeVarint (.id x) (.num T)) ⟨vs, i⟩ m =
    (m, decodeVarintLoop T.width C.dAtA 11 0 i acc >>= fun r => .ok (⟨put vs x (.num T r.1), (r.2 : Int)⟩, .next)) := by
  have := exec_decodeVarint (varAcc C self m T vs x h1 h2 h3 h4 (.num T acc) hx h.l) h.fits h.arch h.fuel i acc
  simpa [varAcc, put_same _ _ _ hx] using this

/-- `decodeVarint` on an `int` that was just declared. -/
theorem run_int {vs : List (Id × V)} (h : Std C vs) {x : Id} (h1 : x ≠ .b) (h2 : x ≠ .shift) (h3 : x ≠ .l) (h4 : x ≠ .iNdEx) (i : Nat) (m : Val) :
    exec C self (Emit.decodeVarint (.id x) .int) ⟨(x, .int 0) :: vs, i⟩ m =
    (m, Vtp.decodeVarint C.A.bits C.dAtA i >>= fun r => .ok (⟨(x, .int r.1.toInt) :: vs, (r.2 : Int)⟩, .next)) := by
  have := exec_decodeVarint (intAcc C self m ((x, .int 0) :: vs) x h1 h2 h3 h4 (.int 0) (by simp [find]) (by simp [find, h3, h.l]))
    h.fits h.arch h.fuel i 0
  simpa [intAcc, put, Vtp.decodeVarint] using this

/-- `decodeVarint` on a struct field. -/
theorem run_slot {vs : List (Id × V)} (h : Std C vs) (T : NTy) (sl : List Val) (u x : Bytes) (s : Nat) (hs : s < sl.length)
    (acc : BitVec T.width) (i : Nat) :
    exec C self (Emit.decodeVarint (.field s) (.num T)) ⟨vs, i⟩ (.msg (sl.set s (.num (T.ext acc))) u x) =
    (.msg (sl.set s (.num (T.ext (varintAcc T.width C.dAtA 11 0 i acc)))) u x,
      decodeVarintLoop T.width C.dAtA 11 0 i acc >>= fun r => .ok (⟨vs, (r.2 : Int)⟩, .next)) := by
  have := exec_decodeVarint (slotAcc C self T vs h.l sl u x s hs) h.fits h.arch h.fuel i acc
  simpa [slotAcc] using this

end

end Vtp.GoU
