import Verif.Lemmas.GoULen
/-! Running the printed statements for one number. -/

namespace Vtp.GoU
open Spec

/-- A printed statement does what the model does: the same receiver; the index the model gives, with some variables
declared in between, none of them in `K`; the same error. -/
def Ends (K : List Id) (vs : List (Id × V)) (r : Val × Res Nat) (e : Val × Res (St × Ctrl)) : Prop :=
  ∃ ext : List (Id × V), (∀ p ∈ ext, p.1 ∉ K) ∧ e = (r.1, r.2 >>= fun j => .ok (⟨ext ++ vs, (j : Int)⟩, .next))

variable {K : List Id}

theorem Ends.drop {vs : List (Id × V)} {r : Val × Res Nat} {e : Val × Res (St × Ctrl)} {q : Id × V} (hq : q.1 ∉ K)
    (h : Ends K (q :: vs) r e) : Ends K vs r e := by
  obtain ⟨ext, h1, h2⟩ := h
  refine ⟨ext ++ [q], ?_, ?_⟩
  · intro p hp
    rcases List.mem_append.1 hp with hp | hp
    · exact h1 p hp
    · simp only [List.mem_singleton] at hp; rw [hp]; exact hq
  · rw [h2]; simp

theorem Ends.dropN {vs : List (Id × V)} {r : Val × Res Nat} {e : Val × Res (St × Ctrl)} : ∀ qs : List (Id × V), (∀ p ∈ qs, p.1 ∉ K) →
    Ends K (qs ++ vs) r e → Ends K vs r e
  | [], _, h => h
  | q :: qs, hq, h => Ends.dropN qs (fun p hp => hq p (by simp [hp])) (Ends.drop (hq q (by simp)) h)

/-- At the end of a block. -/
theorem Ends.scope {vs : List (Id × V)} {i : Int} {r : Val × Res Nat} {x : UM (St × Ctrl)} {m : Val} (h : Ends K vs r (x m)) :
    inScope ⟨vs, i⟩ x m = (r.1, r.2 >>= fun j => .ok (⟨vs, (j : Int)⟩, .next)) := by
  obtain ⟨ext, _, h⟩ := h
  rw [inScope_def, h]
  rcases r with ⟨m', j | e | p | _⟩ <;> try rfl
  simp only [Res.bind_ok]
  rw [leave_append ext vs _ _ rfl]

theorem Ends.of_eq {vs : List (Id × V)} {r : Val × Res Nat} {e : Val × Res (St × Ctrl)} (h : e = (r.1, r.2 >>= fun j => .ok (⟨vs, (j : Int)⟩, .next))) :
    Ends K vs r e := ⟨[], by simp, h⟩

theorem Ends.err {vs : List (Id × V)} {m : Val} {x : Err} : Ends K vs (m, .err x) (m, .err x) := .of_eq rfl
theorem Ends.panic {vs : List (Id × V)} {m : Val} {x : Panic} : Ends K vs (m, .panic x) (m, .panic x) := .of_eq rfl
theorem Ends.diverge {vs : List (Id × V)} {m : Val} : Ends K vs (m, .diverge) (m, .diverge) := .of_eq rfl

section
variable {C : Ctx} {self : Nat}

/-- A statement, then another. -/
theorem Ends.seq {α : Type} {vs : List (Id × V)} {x : Val × Res α} {y : Val × Res Nat} {a b : Stmt} {st : St} {m : Val} (F : α → St)
    (ha : exec C self a st m = (x.1, x.2 >>= fun q => .ok (F q, .next)))
    (hok : ∀ q, x.2 = .ok q → Ends K vs y (exec C self b (F q) x.1))
    (herr : ∀ e, x.2 = .err e → y = (x.1, .err e))
    (hpanic : ∀ e, x.2 = .panic e → y = (x.1, .panic e))
    (hdiv : x.2 = .diverge → y = (x.1, .diverge)) : Ends K vs y (exec C self (a ;; b) st m) := by
  rw [exec_seq, ha]
  rcases x with ⟨m', q | e | p | _⟩
  · exact hok q rfl
  · rw [herr e rfl]; exact .err
  · rw [hpanic p rfl]; exact .panic
  · rw [hdiv rfl]; exact .diverge

/-- The same with the model as a bind. -/
theorem Ends.bind {α : Type} {vs : List (Id × V)} {X : UM α} {g : α → UM Nat} {a b : Stmt} {st : St} {m : Val} (F : α → St)
    (ha : exec C self a st m = ((X m).1, (X m).2 >>= fun q => .ok (F q, .next)))
    (hok : ∀ q, (X m).2 = .ok q → Ends K vs (g q (X m).1) (exec C self b (F q) (X m).1)) : Ends K vs ((X >>= g) m) (exec C self (a ;; b) st m) := by
  refine Ends.seq F ha ?_ ?_ ?_ ?_
  · intro q hq
    rw [UM.bind_def, show X m = ((X m).1, .ok q) from by rw [← hq]]
    exact hok q hq
  · intro e hq; rw [UM.bind_def, show X m = ((X m).1, .err e) from by rw [← hq]]
  · intro e hq; rw [UM.bind_def, show X m = ((X m).1, .panic e) from by rw [← hq]]
  · intro hq; rw [UM.bind_def, show X m = ((X m).1, .diverge) from by rw [← hq]]

/-- A declaration first. -/
theorem Ends.decl {vs : List (Id × V)} {x : Id} {T : Ty} {b : Stmt} {i : Int} {m : Val} {r : Val × Res Nat} (hx : x ≠ .iNdEx) (hh : x ∉ K)
    (h : Ends K ((x, zero T) :: vs) r (exec C self b ⟨(x, zero T) :: vs, i⟩ m)) : Ends K vs r (exec C self (.decl x T ;; b) ⟨vs, i⟩ m) := by
  rw [exec_seq, exec_decl hx, andThen_next]
  exact h.drop hh

/-- A definition first. -/
theorem Ends.define {vs : List (Id × V)} {x : Id} {e : Expr} {v : V} {b : Stmt} {i : Int} {m : Val} {r : Val × Res Nat} (hx : x ≠ .iNdEx) (hh : x ∉ K)
    (he : eval C ⟨vs, i⟩ m e = .ok v)
    (h : Ends K ((x, v) :: vs) r (exec C self b ⟨(x, v) :: vs, i⟩ m)) : Ends K vs r (exec C self (.define x e ;; b) ⟨vs, i⟩ m) := by
  rw [exec_seq, exec_define hx he, andThen_next]
  exact h.drop hh

/-! ## Storing a value -/

theorem store_msg (f : FieldDesc) (w : Val) (sl : List Val) (u x : Bytes) :
    store f w (.msg sl u x) =
    if f.oneof then (.msg (sl.set f.slot (.wrap f.num w)) u x, .ok ())
    else if f.card == .repeated then match appendVal (sl.getD f.slot .nil) w with
      | .ok l => (.msg (sl.set f.slot l) u x, .ok ())
      | .err e => (.msg sl u x, .err e)
      | .panic p => (.msg sl u x, .panic p)
      | .diverge => (.msg sl u x, .diverge)
    else (.msg (sl.set f.slot w) u x, .ok ()) := by
  unfold store
  split
  · rfl
  split
  · rw [UM.bind_def, getSlot]
    simp only
    rw [UM.bind_def]
    cases appendVal (sl.getD f.slot .nil) w <;> rfl
  · rfl

theorem eval_wrapper {n : Nat} {e : Expr} {st : St} {m : Val} {v : V} {w : Val} (he : eval C st m e = .ok v) (hw : stored C v = .ok w) :
    eval C st m (.wrapper n e) = .ok (.val (.wrap n w)) := by rw [eval, he]; simp [hw]

theorem eval_addr {e : Expr} {st : St} {m : Val} : eval C st m (.addr e) = eval C st m e := by rw [eval]

/-- `m.F = append(m.F, e)`. -/
theorem exec_append {s : Nat} {e : Expr} {st : St} {sl : List Val} {u x : Bytes} {v : V} {w : Val}
    (he : eval C st (.msg sl u x) e = .ok v) (hw : stored C v = .ok w) :
    exec C self (.assign (.field s) (.append s e)) st (.msg sl u x) = match appendVal (sl.getD s .nil) w with
      | .ok l => (.msg (sl.set s l) u x, .ok (st, .next))
      | .err e => (.msg sl u x, .err e)
      | .panic p => (.msg sl u x, .panic p)
      | .diverge => (.msg sl u x, .diverge) := by
  have h : eval C st (.msg sl u x) (.append s e) = (appendVal (sl.getD s .nil) w >>= fun l => .ok (.val l)) := by
    rw [eval, he]; simp [slotOf, getSlot, hw]
  cases ha : appendVal (sl.getD s .nil) w with
  | ok l => rw [ha] at h; exact exec_assign_field h rfl
  | err e => rw [ha] at h; rw [exec, UM.bind_def, evalU, h]; rfl
  | panic e => rw [ha] at h; rw [exec, UM.bind_def, evalU, h]; rfl
  | diverge => rw [ha] at h; rw [exec, UM.bind_def, evalU, h]; rfl

/-- What the model does after reading a value. -/
abbrev put1 (f : FieldDesc) (w : Val) (j : Nat) : UM Nat := store f w >>= fun _ => pure j

theorem ends_wrapper {f : FieldDesc} (hf : f.oneof = true) {e : Expr} {vs : List (Id × V)} {j : Nat} {sl : List Val} {u x : Bytes} {v : V} {w : Val}
    (he : eval C ⟨vs, j⟩ (.msg sl u x) e = .ok v) (hw : stored C v = .ok w) :
    Ends K vs (put1 f w j (.msg sl u x)) (exec C self (.assign (.field f.slot) (.wrapper f.num e)) ⟨vs, j⟩ (.msg sl u x)) := by
  rw [exec_assign_field (eval_wrapper he hw) rfl, put1, UM.bind_def, store_msg]
  simp only [hf, if_true]
  exact .of_eq rfl

theorem ends_append {f : FieldDesc} (hf : f.oneof = false) (hr : (f.card == .repeated) = true) {e : Expr} {vs : List (Id × V)} {j : Nat} {sl : List Val} {u x : Bytes} {v : V} {w : Val}
    (he : eval C ⟨vs, j⟩ (.msg sl u x) e = .ok v) (hw : stored C v = .ok w) :
    Ends K vs (put1 f w j (.msg sl u x)) (exec C self (.assign (.field f.slot) (.append f.slot e)) ⟨vs, j⟩ (.msg sl u x)) := by
  rw [exec_append he hw, put1, UM.bind_def, store_msg]
  simp only [hf, hr, if_true, Bool.false_eq_true, if_false]
  cases appendVal (sl.getD f.slot .nil) w <;> exact .of_eq rfl

theorem ends_assign {f : FieldDesc} (hf : f.oneof = false) (hr : (f.card == .repeated) = false) {e : Expr} {vs : List (Id × V)} {j : Nat} {sl : List Val} {u x : Bytes} {v : V} {w : Val}
    (he : eval C ⟨vs, j⟩ (.msg sl u x) e = .ok v) (hw : stored C v = .ok w) :
    Ends K vs (put1 f w j (.msg sl u x)) (exec C self (.assign (.field f.slot) e) ⟨vs, j⟩ (.msg sl u x)) := by
  rw [exec_assign_field he hw, put1, UM.bind_def, store_msg]
  simp only [hf, hr, Bool.false_eq_true, if_false]
  exact .of_eq rfl

theorem eval_var_head {x : Id} {v : V} {vs : List (Id × V)} {i : Int} {m : Val} (hx : x ≠ .iNdEx) :
    eval C ⟨(x, v) :: vs, i⟩ m (Emit.var x) = .ok v := by rw [eval_var hx]; simp [find]

theorem ends_storeExpr (f : FieldDesc) (p3 named : Bool) {y : Id} (hy : y ≠ .iNdEx) (hy' : y ∉ K) {e : Expr} {vs : List (Id × V)} {j : Nat}
    {sl : List Val} {u x : Bytes} {v : V} {w : Val} (he : eval C ⟨vs, j⟩ (.msg sl u x) e = .ok v) (hw : stored C v = .ok w) :
    Ends K vs (put1 f w j (.msg sl u x)) (exec C self (Emit.storeExpr f p3 named y e) ⟨vs, j⟩ (.msg sl u x)) := by
  unfold Emit.storeExpr
  split
  · rename_i hf; exact ends_wrapper hf he hw
  rename_i hf
  split
  · rename_i hr
    split
    · exact Ends.define hy hy' he (ends_append (by simpa using hf) hr (eval_var_head hy) hw)
    · exact ends_append (by simpa using hf) hr he hw
  rename_i hr
  split
  · exact ends_assign (by simpa using hf) (by simpa using hr) he hw
  · exact Ends.define hy hy' he (ends_assign (by simpa using hf) (by simpa using hr) (eval_addr.trans (eval_var_head hy)) hw)

/-! ## Numbers -/

/-- Decoded straight into the struct field. -/
def straight (f : FieldDesc) (p3 : Bool) : Bool := !f.oneof && f.card != .repeated && p3 && !f.synthetic

/-- `fieldItem` for the numeric kinds, on the struct fields of the receiver. -/
theorem fieldItem_num (E : UEnv) (rec : SubDec) (d : MsgDesc) {f : FieldDesc} (hk : numeric f.kind = true) (p3 : Bool) (wire : BitVec 64)
    (b : Bytes) (base i : Nat) (sl : List Val) (u x : Bytes) :
    fieldItem E rec d f p3 wire b base i (.msg sl u x) =
    (UM.lift (readNum E.A f.kind b i) >>= fun r => put1 f (.num r.1) r.2)
      (.msg (if straight f p3 then match direct E.A f.kind b i with
        | some v => sl.set f.slot (.num v)
        | none => sl else sl) u x) := by
  have h : fieldItem E rec d f p3 wire b base i = (do
      if straight f p3 then
        match direct E.A f.kind b i with
        | some v => setSlot f.slot (.num v)
        | none => pure ()
      let (v, i) ← UM.lift (readNum E.A f.kind b i)
      store f (.num v)
      pure i) := by
    unfold fieldItem
    cases hf : f.kind <;> rw [hf] at hk <;> first | (simp [numeric] at hk; done) | rfl
  rw [h]
  by_cases hs : straight f p3 = true
  · simp only [hs, if_true]
    cases direct E.A f.kind b i <;> rfl
  · simp only [hs, if_false]
    rfl

/-- A number read into a variable and then stored. -/
theorem ends_num {E : UEnv} (rec : SubDec) (d : MsgDesc) {f : FieldDesc} (hk : numeric f.kind = true) {p3 : Bool} (wire : BitVec 64)
    (base : Nat) {b : Bytes} {i : Nat} {sl : List Val} {u x : Bytes} (hs : straight f p3 = true → direct E.A f.kind b i = none)
    {α : Type} {R : Res α} {c : α → BitVec 64} {n : α → Nat} (hR : readNum E.A f.kind b i = (R >>= fun r => .ok (c r, n r)))
    {a s : Stmt} {vs : List (Id × V)} {ext : α → List (Id × V)} (hext : ∀ r, ∀ p ∈ ext r, p.1 ∉ K)
    (ha : exec C self a ⟨vs, i⟩ (.msg sl u x) = (.msg sl u x, R >>= fun r => .ok (⟨ext r ++ vs, (n r : Int)⟩, .next)))
    (hb : ∀ r, R = .ok r → Ends K (ext r ++ vs) (put1 f (.num (c r)) (n r) (.msg sl u x)) (exec C self s ⟨ext r ++ vs, (n r : Int)⟩ (.msg sl u x))) :
    Ends K vs (fieldItem E rec d f p3 wire b base i (.msg sl u x)) (exec C self (a ;; s) ⟨vs, i⟩ (.msg sl u x)) := by
  rw [fieldItem_num E rec d hk]
  have hsl : (if straight f p3 then match direct E.A f.kind b i with
      | some v => sl.set f.slot (.num v)
      | none => sl else sl) = sl := by
    split
    · rename_i h; rw [hs h]
    · rfl
  rw [hsl]
  refine Ends.seq (x := (.msg sl u x, R)) _ ha ?_ ?_ ?_ ?_
  · rintro r (h : R = .ok r)
    rw [UM.bind_def, UM.lift, hR, h]
    exact Ends.dropN _ (hext r) (hb r h)
  · rintro e (h : R = .err e); rw [UM.bind_def, UM.lift, hR, h]; rfl
  · rintro e (h : R = .panic e); rw [UM.bind_def, UM.lift, hR, h]; rfl
  · rintro (h : R = .diverge); rw [UM.bind_def, UM.lift, hR, h]; rfl

theorem straight_cond {f : FieldDesc} {p3 : Bool} (h1 : ¬f.oneof = true) (h2 : ¬(f.card == .repeated) = true) (h3 : (p3 && !f.synthetic) = true) :
    straight f p3 = true := by
  simp only [Bool.and_eq_true] at h3
  simp [straight, h1, h3.1, h3.2, bne, h2]

/-- The kinds that are decoded straight into the struct field where there is no presence. -/
theorem ends_plain (hv : Id.v ∉ K) {E : UEnv} (rec : SubDec) (d : MsgDesc) {f : FieldDesc} (hk : numeric f.kind = true) (p3 : Bool) (wire : BitVec 64)
    (base : Nat) {b : Bytes} {i : Nat} {sl : List Val} {u x : Bytes} {T : NTy} {dec : Place → Stmt} {vs : List (Id × V)}
    {R : Res (BitVec T.width × Nat)} (hR : readNum E.A f.kind b i = (R >>= fun r => .ok (T.ext r.1, r.2)))
    (hvar : exec C self (dec (.id .v)) ⟨(.v, .num T 0) :: vs, i⟩ (.msg sl u x) = (.msg sl u x, R >>= fun r => .ok (⟨(.v, .num T r.1) :: vs, (r.2 : Int)⟩, .next)))
    {D : BitVec 64} (hD : direct E.A f.kind b i = some D) (hDR : ∀ r, R = .ok r → D = T.ext r.1)
    (hslot : exec C self (dec (.field f.slot)) ⟨vs, i⟩ (.msg (sl.set f.slot (.num 0)) u x) =
      (.msg (sl.set f.slot (.num D)) u x, R >>= fun r => .ok (⟨vs, (r.2 : Int)⟩, .next))) :
    Ends K vs (fieldItem E rec d f p3 wire b base i (.msg sl u x)) (exec C self (Emit.plainItem f p3 (.num T) dec) ⟨vs, i⟩ (.msg sl u x)) := by
  have key : ∀ s : Stmt, straight f p3 = false → (∀ r : BitVec T.width × Nat, Ends K ((.v, .num T r.1) :: vs) (put1 f (.num (T.ext r.1)) r.2 (.msg sl u x))
        (exec C self s ⟨(.v, .num T r.1) :: vs, (r.2 : Int)⟩ (.msg sl u x))) →
      Ends K vs (fieldItem E rec d f p3 wire b base i (.msg sl u x)) (exec C self (.decl .v (.num T) ;; dec (.id .v) ;; s) ⟨vs, i⟩ (.msg sl u x)) := by
    intro s hs h
    have ha : exec C self (.decl .v (.num T) ;; dec (.id .v)) ⟨vs, i⟩ (.msg sl u x) =
        (.msg sl u x, R >>= fun r => .ok (⟨[(.v, .num T r.1)] ++ vs, (r.2 : Int)⟩, .next)) := by
      rw [exec_seq, exec_decl (by decide), andThen_next]; exact hvar
    have := ends_num (self := self) (C := C) rec d hk wire base (p3 := p3) (by simp [hs]) hR (fun _ => by simpa using hv) ha (fun r _ => h r)
    rw [exec_seq, exec_decl (by decide), andThen_next]
    rw [exec_seq, exec_seq, exec_decl (by decide), andThen_next] at this
    rw [exec_seq]; exact this
  unfold Emit.plainItem
  split
  · rename_i hf
    exact key _ (by simp [straight, hf]) fun r => ends_wrapper hf (eval_var_head (by decide)) rfl
  rename_i hf
  split
  · rename_i hr
    exact key _ (by simp [straight, bne, hr]) fun r => ends_append (by simpa using hf) hr (eval_var_head (by decide)) rfl
  rename_i hr
  split
  · rename_i hp
    rw [fieldItem_num E rec d hk, straight_cond hf hr hp, hD, exec_seq, exec_assign_field eval_lit rfl, andThen_next]
    have : (BitVec.ofNat 64 0) = 0 := rfl
    rw [this, hslot]
    simp only [if_true]
    rw [UM.bind_def, UM.lift, hR]
    cases hR' : R with
    | ok r =>
      simp only [Res.bind_ok, UM.bind_def, store_msg, hf, hr, if_false, List.set_set]
      rw [hDR r hR']
      exact .of_eq rfl
    | err e => exact .err
    | panic e => exact .panic
    | diverge => exact .diverge
  · rename_i hp
    refine key _ ?_ fun r => ends_assign (by simpa using hf) (by simpa using hr) (eval_addr.trans (eval_var_head (by decide))) rfl
    simp only [Bool.not_eq_true] at hp
    cases p3 <;> simp_all [straight]

/-! ## The kinds -/

theorem ends_varint (hv : Id.v ∉ K) {vs : List (Id × V)} (h : Std C vs) {E : UEnv} (hA : E.A = C.A) (rec : SubDec) (d : MsgDesc) {f : FieldDesc} (hk : numeric f.kind = true) (p3 : Bool) (wire : BitVec 64)
    (base : Nat) {i : Nat} {sl : List Val} {u x : Bytes} (hsl : f.slot < sl.length) (T : NTy)
    (hR : readNum C.A f.kind C.dAtA i = (Vtp.decodeVarint T.width C.dAtA i >>= fun r => .ok (T.ext r.1, r.2)))
    (hD : direct C.A f.kind C.dAtA i = some (T.ext (varintAcc T.width C.dAtA 11 0 i 0))) :
    Ends K vs (fieldItem E rec d f p3 wire C.dAtA base i (.msg sl u x))
      (exec C self (Emit.plainItem f p3 (.num T) (Emit.decodeVarint · (.num T))) ⟨vs, i⟩ (.msg sl u x)) := by
  rw [← hA] at hR hD
  refine ends_plain hv rec d hk p3 wire base hR ?_ hD ?_ ?_
  · exact run_varint h (by decide) (by decide) (by decide) (by decide) T 0 i _
  · rintro ⟨v, j⟩ hr
    rw [varintAcc_ok _ _ _ _ _ _ _ hr]
  · have := run_slot (self := self) h T sl u x f.slot hsl 0 i
    have h0 : T.ext 0 = 0 := by cases T <;> rfl
    rw [h0] at this
    exact this

theorem ends_fixed (hv : Id.v ∉ K) {vs : List (Id × V)} (h : Std C vs) {E : UEnv} (hA : E.A = C.A) (rec : SubDec) (d : MsgDesc) {f : FieldDesc} (hk : numeric f.kind = true) (p3 : Bool) (wire : BitVec 64)
    (base : Nat) {i : Nat} (hi : i ≤ C.dAtA.length) {sl : List Val} {u x : Bytes} {n : Nat} (T : NTy) (hn : n = 8 ∧ T.width = 64 ∨ n = 4 ∧ T.width = 32)
    (hR : readNum C.A f.kind C.dAtA i = (Vtp.decodeFixed C.A n C.dAtA i >>= fun r => .ok (T.ext (BitVec.ofNat T.width r.1), r.2)))
    (hD : direct C.A f.kind C.dAtA i = match readNum C.A f.kind C.dAtA i with
      | .ok (v, _) => some v
      | _ => some 0) :
    Ends K vs (fieldItem E rec d f p3 wire C.dAtA base i (.msg sl u x))
      (exec C self (Emit.plainItem f p3 (.num T) (Emit.decodeFixed n · (.num T))) ⟨vs, i⟩ (.msg sl u x)) := by
  rw [hR] at hD
  have hR' : readNum C.A f.kind C.dAtA i = ((Vtp.decodeFixed C.A n C.dAtA i >>= fun r => .ok ((BitVec.ofNat T.width r.1, r.2) : BitVec T.width × Nat)) >>=
      fun r => .ok (T.ext r.1, r.2)) := by
    rw [hR]; cases Vtp.decodeFixed C.A n C.dAtA i <;> rfl
  rw [← hA] at hD hR'
  have h1 := run_fixed_var (self := self) h (x := .v) (by decide) (by decide) hn hi (.num T 0) (.msg sl u x)
  have h2 := run_fixed_slot (self := self) h hn hi sl u x f.slot (.num 0)
  rw [hA] at hD hR'
  cases hd : Vtp.decodeFixed C.A n C.dAtA i with
  | ok r =>
    rw [hd] at hD hR' h1 h2
    rw [← hA] at hD hR'
    exact ends_plain hv rec d hk p3 wire base hR' h1 hD (by rintro r (h : Res.ok _ = _); injection h with h; rw [← h]) h2
  | err e =>
    rw [hd] at hD hR' h1 h2
    rw [← hA] at hD hR'
    exact ends_plain hv rec d hk p3 wire base hR' h1 hD (by rintro r (h : Res.err _ = _); cases h) h2
  | panic e =>
    rw [hd] at hD hR' h1 h2
    rw [← hA] at hD hR'
    exact ends_plain hv rec d hk p3 wire base hR' h1 hD (by rintro r (h : Res.panic _ = _); cases h) h2
  | diverge =>
    rw [hd] at hD hR' h1 h2
    rw [← hA] at hD hR'
    exact ends_plain hv rec d hk p3 wire base hR' h1 hD (by rintro r (h : Res.diverge = _); cases h) h2

theorem eval_conv {T : Ty} {e : Expr} {st : St} {m : Val} {v : V} (h : eval C st m e = .ok v) : eval C st m (.conv T e) = convV C T v := by
  rw [eval, h]; rfl

/-- Zigzag on a variable. -/
theorem eval_unzigzag32 {vs : List (Id × V)} {i : Int} {m : Val} {x : Id} (hx : x ≠ .iNdEx) {v : BitVec 32} (h : find vs x = .ok (.num .int32 v)) :
    eval C ⟨vs, i⟩ m (Emit.unzigzag32 x) = .ok (.num .int32 (Vtp.unzigzag32 v)) := by
  have e := (eval_var (C := C) (i := i) (m := m) hx).trans h
  have e1 : eval C ⟨vs, i⟩ m (.conv (.num .uint32) (Emit.var x)) = .ok (.num .uint32 v) := by
    rw [eval_conv e]; exact congrArg (fun w => Res.ok (V.num .uint32 w)) (setWidth_signExtend32 v)
  have e2 : eval C ⟨vs, i⟩ m (.bin .shr (.conv (.num .uint32) (Emit.var x)) (.lit 1)) = .ok (.num .uint32 (v >>> 1)) := eval_bin e1 eval_lit
  have e3 : eval C ⟨vs, i⟩ m (.bin .and (Emit.var x) (.lit 1)) = .ok (.num .int32 (v &&& 1#32)) := eval_bin e eval_lit
  have e4 : eval C ⟨vs, i⟩ m (.bin .shl (.bin .and (Emit.var x) (.lit 1)) (.lit 31)) = .ok (.num .int32 ((v &&& 1#32) <<< 31)) := eval_bin e3 eval_lit
  have e5 : eval C ⟨vs, i⟩ m (.bin .shr (.bin .shl (.bin .and (Emit.var x) (.lit 1)) (.lit 31)) (.lit 31)) =
    .ok (.num .int32 (((v &&& 1#32) <<< 31).sshiftRight 31)) := eval_bin e4 eval_lit
  have e6 := (eval_conv (T := .num .uint32) e5).trans (congrArg (fun w => Res.ok (V.num .uint32 w)) (setWidth_signExtend32 _))
  have e7 := eval_bin (op := .xor) e2 e6
  rw [Emit.unzigzag32, eval_conv (e7.trans rfl)]
  exact congrArg (fun w => Res.ok (V.num .int32 w)) (BitVec.setWidth_setWidth_of_le _ (by decide) |>.trans (BitVec.setWidth_eq _))

theorem eval_unzigzag64 {vs : List (Id × V)} {i : Int} {m : Val} {x : Id} (hx : x ≠ .iNdEx) {v : BitVec 64} (h : find vs x = .ok (.num .uint64 v)) :
    eval C ⟨vs, i⟩ m (Emit.unzigzag64 x) = .ok (.num .uint64 (Vtp.unzigzag64 v)) := by
  have e := (eval_var (C := C) (i := i) (m := m) hx).trans h
  have e2 : eval C ⟨vs, i⟩ m (.bin .shr (Emit.var x) (.lit 1)) = .ok (.num .uint64 (v >>> 1)) := eval_bin e eval_lit
  have e3 : eval C ⟨vs, i⟩ m (.bin .and (Emit.var x) (.lit 1)) = .ok (.num .uint64 (v &&& 1#64)) := eval_bin e eval_lit
  have c1 : ∀ w : BitVec 64, convV C (.num .int64) (.num .uint64 w) = .ok (.num .int64 w) := fun w =>
    congrArg (fun w => Res.ok (V.num .int64 w)) ((BitVec.setWidth_eq _).trans (BitVec.setWidth_eq w))
  have c2 : ∀ w : BitVec 64, convV C (.num .uint64) (.num .int64 w) = .ok (.num .uint64 w) := fun w =>
    congrArg (fun w => Res.ok (V.num .uint64 w)) ((BitVec.setWidth_eq _).trans (BitVec.signExtend_eq w))
  have e4 := (eval_conv (T := .num .int64) e3).trans (c1 _)
  have e5 : eval C ⟨vs, i⟩ m (.bin .shl (.conv (.num .int64) (.bin .and (Emit.var x) (.lit 1))) (.lit 63)) = .ok (.num .int64 ((v &&& 1#64) <<< 63)) :=
    eval_bin e4 eval_lit
  have e6 : eval C ⟨vs, i⟩ m (.bin .shr (.bin .shl (.conv (.num .int64) (.bin .and (Emit.var x) (.lit 1))) (.lit 63)) (.lit 63)) =
    .ok (.num .int64 (((v &&& 1#64) <<< 63).sshiftRight 63)) := eval_bin e5 eval_lit
  have e7 := (eval_conv (T := .num .uint64) e6).trans (c2 _)
  rw [Emit.unzigzag64, eval_bin e2 e7]
  rfl

end

end Vtp.GoU
