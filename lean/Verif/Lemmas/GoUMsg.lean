import Verif.Lemmas.GoUBytes
import Verif.Lemmas.EmitSize
import Verif.Lemmas.Safe
/-! Running the printed statements for messages. -/

namespace Vtp.GoU
open Spec

/-- The methods of messages do what the model says, on inputs shorter than `N`. -/
def RecAgrees (E : UEnv) (method rec : SubDec) (N : Nat) : Prop :=
  ∀ off t b m, (E.S.msg t).foreign = false → b.length < N → Typed E.S t m → method off t b m = rec off t b m

section
variable {C : Ctx} {self : Nat} {K : List Id} {G : GenCfg} {E : UEnv} {rec : SubDec}

theorem spanU_ok {lo hi : Expr} {st : St} {m : Val} {a b : Nat} (h1 : eval C st m lo = .ok (.int a)) (h2 : eval C st m hi = .ok (.int b))
    (hab : a ≤ b) (hb : b ≤ C.dAtA.length) : spanU C st lo hi m = (m, .ok (a, b - a)) := by
  have : span C (.int a) (.int b) = .ok (a, b - a) := by
    simp only [span]; rw [if_pos (by omega)]; simp
  simp [spanU, UM.bind_def, evalU, h1, h2, this]

theorem now_length {a b : Nat} (hab : a ≤ b) (hb : b ≤ C.dAtA.length) : (C.now a (b - a)).length = b - a := by
  simp [Ctx.now]; omega

/-- The call printed for a sub-message, on the message `x` at the place `p`. -/
theorem run_decodeMessage (hL : Link G E C) (hG : G.toGenCfg.OK E.S) {N : Nat} (hrec : RecAgrees E C.method rec N) {p : Place} {lo hi : Expr} {t : Nat} {st : St}
    {m x : Val} {a b : Nat} (h1 : eval C st m lo = .ok (.int a)) (h2 : eval C st m hi = .ok (.int b)) (hab : a ≤ b) (hb : b ≤ C.dAtA.length) (hN : b - a < N)
    (hp : readPlace st m p = .ok (.val x)) (hx : Typed E.S t x) {W : Val → Val} {W' : Val → St}
    (hw : ∀ x', writePlace C st p (.val x') m = (W x', .ok (W' x'))) (hlen : ∀ x', (W' x').vars.length = st.vars.length) :
    exec C self (Emit.decodeMessage G p lo hi t) st m =
    (W (Vtp.decodeMessage E rec (C.base + a) t ((C.dAtA.drop a).take (b - a)) x).1,
      (Vtp.decodeMessage E rec (C.base + a) t ((C.dAtA.drop a).take (b - a)) x).2 >>= fun _ =>
        .ok (W' (Vtp.decodeMessage E rec (C.base + a) t ((C.dAtA.drop a).take (b - a)) x).1, .next)) := by
  have hleave : ∀ x', (W' x').leave st = W' x' := fun x' => by
    cases h : W' x'; rename_i vs i; exact leave_eq vs i st (by have := hlen x'; rw [h] at this; exact this.symm)
  have hinto : ∀ f : UM Unit, decodeInto C st p f m = (W (f x).1, (f x).2 >>= fun _ => .ok (W' (f x).1, .next)) := by
    intro f
    simp only [decodeInto, UM.bind_def, readU, hp, hw]
    rcases f x with ⟨x', _ | _ | _ | _⟩ <;> rfl
  have hscope : ∀ f : UM Unit, inScope st (decodeInto C st p f) m = (W (f x).1, (f x).2 >>= fun _ => .ok (W' (f x).1, .next)) := by
    intro f
    rw [inScope_def, hinto]
    rcases f x with ⟨x', _ | _ | _ | _⟩ <;> simp [hleave]
  have hspan := spanU_ok h1 h2 hab hb
  have hnl := now_length hab hb
  cases hf : (E.S.msg t).foreign with
  | true =>
    obtain ⟨g1, g2⟩ := hG t hf
    have hq : ∀ y, Vtp.decodeMessage E rec (C.base + a) t ((C.dAtA.drop a).take (b - a)) y = protoUnmarshal C.R t (C.now a (b - a)) y := by
      intro y; unfold Vtp.decodeMessage protoUnmarshal; rw [hf, hL.R]; rfl
    rw [Emit.decodeMessage, g1, g2]
    simp only [Bool.false_eq_true, if_false]
    rw [exec, hL.S, hf]
    simp only [if_true]
    rw [inScope_def, exec, UM.bind_def, hspan]
    simp only
    rw [hinto, hq]
    rcases protoUnmarshal C.R t (C.now a (b - a)) x with ⟨x', _ | _ | _ | _⟩ <;> simp [hleave]
  | false =>
    have hq : Vtp.decodeMessage E rec (C.base + a) t ((C.dAtA.drop a).take (b - a)) x = C.method (C.base + a) t (C.now a (b - a)) x := by
      unfold Vtp.decodeMessage; rw [hf]; simp only [Bool.false_eq_true, if_false]
      exact (hrec _ _ _ _ hf (hnl.trans_lt hN) hx).symm
    have hcall : ∀ how, exec C self (.call how p t lo hi) st m = decodeInto C st p (C.method (C.base + a) t (C.now a (b - a))) m := by
      intro how; rw [exec, UM.bind_def, hspan]
    rw [hq, Emit.decodeMessage]
    split
    · rw [hcall, hinto]
    split
    · rw [hcall, hinto]
    · rw [exec, hL.S, hf]
      simp only [Bool.false_eq_true, if_false]
      rw [inScope_def, hcall, hinto]
      rcases C.method (C.base + a) t (C.now a (b - a)) x with ⟨x', _ | _ | _ | _⟩ <;> simp [hleave]

theorem eval_newMessage (hL : Link G E C) (d : MsgDesc) (t : Nat) {vs : List (Id × V)} {j : Nat} {m : Val} :
    eval C ⟨vs, j⟩ m (Emit.newMessage E.S d t) = .ok (.val (newSub E d (C.base + j) t)) := by
  unfold Emit.newMessage newSub
  split
  · rw [eval, hL.alloc]; simp
  · rw [eval, hL.S]

/-- `messageItem` on a message. -/
theorem messageItem_msg (d : MsgDesc) (f : FieldDesc) (off : Nat) (b : Bytes) (sl : List Val) (u e : Bytes) {x : Val}
    (hx : subTarget E d f off (sl.getD f.slot .nil) = .ok x) :
    Vtp.messageItem E rec d f off b (.msg sl u e) =
    if f.oneof && !holds f (sl.getD f.slot .nil) then
      match (Vtp.decodeMessage E rec off f.msg b x).2 with
      | .ok () => (.msg (sl.set f.slot (subAssign f (sl.getD f.slot .nil) (Vtp.decodeMessage E rec off f.msg b x).1)) u e, .ok ())
      | r => (.msg sl u e, r)
    else (.msg (sl.set f.slot (subAssign f (sl.getD f.slot .nil) (Vtp.decodeMessage E rec off f.msg b x).1)) u e, (Vtp.decodeMessage E rec off f.msg b x).2) := by
  unfold Vtp.messageItem
  rw [UM.bind_def]
  simp only [getSlot]
  rw [UM.bind_def, UM.lift, hx]
  simp only
  rcases Vtp.decodeMessage E rec off f.msg b x with ⟨x', r⟩
  simp only
  split
  · rw [UM.bind_def]; cases r <;> rfl
  · rw [UM.bind_def]; rfl

theorem getD_set {sl : List Val} {s : Nat} (h : s < sl.length) (v : Val) : (sl.set s v).getD s .nil = v := by simp [h]

theorem readPlace_last {st : St} {sl : List Val} {u e : Bytes} {s : Nat} (hs : s < sl.length) (xs sp : List Val) (x : Val) :
    readPlace st (.msg (sl.set s (.list (xs ++ [x]) sp)) u e) (.last s) = .ok (.val x) := by
  simp [readPlace, GoU.slotOf, getSlot, hs, Val.elems]

theorem writePlace_last {st : St} {sl : List Val} {u e : Bytes} {s : Nat} (hs : s < sl.length) (xs sp : List Val) (x x' : Val) :
    writePlace C st (.last s) (.val x') (.msg (sl.set s (.list (xs ++ [x]) sp)) u e) = (.msg (sl.set s (.list (xs ++ [x']) sp)) u e, .ok st) := by
  simp [writePlace, UM.bind_def, stored, getSlot, hs, setSlot]

theorem um_then {α β : Type} (X : UM α) (a : β) (m : Val) : (X >>= fun _ => pure a : UM β) m = ((X m).1, (X m).2 >>= fun _ => .ok a) := by
  rw [UM.bind_def]
  rcases X m with ⟨m', _ | _ | _ | _⟩ <;> rfl

theorem exec_ifOneof_yes {s n : Nat} {a b : Stmt} {vs : List (Id × V)} {i : Int} {m x : Val} (h : getSlot s m = (m, .ok (.wrap n x))) :
    exec C self (.ifOneof s n a b) ⟨vs, i⟩ m = inScope ⟨vs, i⟩ (exec C self a ⟨(.oneof, .ref s n) :: vs, i⟩) m := by
  rw [exec, UM.bind_def, h]
  simp [UM.bind_def, St.decl]

theorem exec_ifOneof_no {s n : Nat} {a b : Stmt} {st : St} {m v : Val} (h : getSlot s m = (m, .ok v)) (h1 : ∀ x, v ≠ .wrap n x) (h2 : v ≠ .wrapNil n) :
    exec C self (.ifOneof s n a b) st m = inScope st (exec C self b st) m := by
  rw [exec, UM.bind_def, h]
  cases v <;> simp_all

/-- A message or map in a field, after the length. -/
theorem ends_message (hE : DecodeEnv E) (hL : Link G E C) (hG : G.toGenCfg.OK E.S) {t : Nat} (hf : (E.S.msg t).foreign = false)
    {f : FieldDesc} (h : f ∈ (E.S.msg t).fields) (hk : f.kind = .message) (hmd : f.map = none)
    {N : Nat} (hrec : RecAgrees E C.method rec N) {vs : List (Id × V)} {a b : Nat} (hab : a ≤ b) (hb : b ≤ C.dAtA.length) (hN : b - a < N)
    (hpost : find vs .postIndex = .ok (.int b))
    {sl : List Val} {u e : Bytes} (hm : Typed E.S t (.msg sl u e)) :
    Ends K vs ((Vtp.messageItem E rec (E.S.msg t) f (C.base + a) ((C.dAtA.drop a).take (b - a)) >>= fun _ => pure a : UM Nat) (.msg sl u e))
      (exec C self (if f.oneof then Emit.oneofMessage G E.S (E.S.msg t) f
        else if f.card == .repeated then Emit.repeatedMessage G (E.S.msg t) f else Emit.singleMessage G E.S (E.S.msg t) f) ⟨vs, a⟩ (.msg sl u e)) := by
  have hS := schemaOK_msg hE.schema t
  obtain ⟨hlen, hslots⟩ := (typed_iff hf sl u e).1 hm
  have hsl : f.slot < sl.length := by rw [hlen]; exact (hS.fields f h).slot
  have hs : slotOK E.S (E.S.msg t) f (sl.getD f.slot .nil) = true := hslots f h
  have key := subTarget_all hE h hk hmd (C.base + a) hs
  have hlo : ∀ (vs : List (Id × V)) (m : Val), eval C ⟨vs, a⟩ m Emit.iNdEx = .ok (.int a) := fun vs m => eval_index
  have hhi : ∀ m, eval C ⟨vs, a⟩ m (Emit.var .postIndex) = .ok (.int b) := fun m => (eval_var (by decide)).trans hpost
  rw [um_then]
  generalize hd : sl.getD f.slot .nil = s at hs key
  cases hx : subTarget E (E.S.msg t) f (C.base + a) s with
  | err e => exfalso; unfold subTarget at hx; repeat' split at hx <;> try cases hx
  | panic p => rw [hx] at key; exact key.elim
  | diverge => rw [hx] at key; exact key.elim
  | ok x =>
  rw [hx] at key
  obtain ⟨hxT, _⟩ := key
  rw [messageItem_msg (E.S.msg t) f _ _ sl u e (x := x) (by rw [hd]; exact hx), hd]
  have hget : ∀ st : St, getSlot f.slot (.msg sl u e) = (.msg sl u e, .ok s) := by intro _; simp only [getSlot]; rw [hd]
  by_cases ho : f.oneof = true
  · rw [if_pos ho, Emit.oneofMessage]
    by_cases hh : holds f s = true
    · -- the member it holds
      have hsx : s = .wrap f.num x := by
        cases s <;> simp only [holds, Bool.false_eq_true, beq_iff_eq] at hh
        subst hh
        simp only [subTarget, ho, if_true] at hx
        injection hx with hx; rw [hx]
      subst hsx
      simp only [hh, Bool.not_true, Bool.and_false, Bool.false_eq_true, if_false]
      rw [exec_ifOneof_yes (hget ⟨vs, a⟩)]
      refine .of_eq ?_
      have hrun := run_decodeMessage (self := self) hL hG hrec (p := .member) (lo := Emit.iNdEx) (hi := Emit.var .postIndex) (t := f.msg)
        (st := ⟨(.oneof, .ref f.slot f.num) :: vs, a⟩) (m := .msg sl u e) (x := x) (hlo _ _) (by rw [eval_var (by decide)]; simp [find, hpost]) hab hb hN
        (by simp only [readPlace, St.look, find]; simp only [reduceCtorEq, if_false, if_true, Res.bind_ok, GoU.slotOf, hget ⟨vs, a⟩]) hxT
        (W := fun x' => .msg (sl.set f.slot (.wrap f.num x')) u e) (W' := fun _ => ⟨(.oneof, .ref f.slot f.num) :: vs, a⟩)
        (by intro x'; simp [writePlace, stored, UM.bind_def, St.look, find, setSlot]) (by simp)
      rw [inScope_def, hrun]
      simp only [subAssign, ho, if_true]
      rcases Vtp.decodeMessage E rec (C.base + a) f.msg ((C.dAtA.drop a).take (b - a)) x with ⟨x', _ | _ | _ | _⟩ <;> try rfl
      simp only [Res.bind_ok]
      rw [leave_cons _ vs _ _ rfl]
    · -- a new one
      have hsx : x = newSub E (E.S.msg t) (C.base + a) f.msg := by
        simp only [subTarget, ho, if_true] at hx
        cases s <;> simp only [holds, Bool.not_eq_true] at hh hx <;> try (injection hx with hx; exact hx.symm)
        · simp only [beq_eq_false_iff_ne] at hh; rw [if_neg hh] at hx; injection hx with hx; exact hx.symm
        · split at hx <;> cases hx; rfl
      rw [exec_ifOneof_no (hget ⟨vs, a⟩)]
      rotate_left
      · rintro y rfl; simp [holds] at hh
      · rintro rfl; simp [subTarget, ho] at hx
      simp only [hh, ho, Bool.not_false, Bool.and_self, if_true]
      refine .of_eq ?_
      have hrun := run_decodeMessage (self := self) hL hG hrec (p := .id .v) (lo := Emit.iNdEx) (hi := Emit.var .postIndex) (t := f.msg)
        (st := ⟨(.v, .val x) :: vs, a⟩) (m := .msg sl u e) (x := x) (hlo _ _) (by rw [eval_var (by decide)]; simp [find, hpost]) hab hb hN
        (by simp [readPlace, St.look, find]) hxT
        (W := fun _ => .msg sl u e) (W' := fun x' => ⟨(.v, .val x') :: vs, a⟩)
        (by intro x'; simp [writePlace, St.set, put]) (by simp)
      rw [inScope_def, exec_seq, exec_define (v := .val x) (by decide) (by rw [eval_newMessage hL, hsx]), andThen_next, exec_seq, hrun]
      rcases Vtp.decodeMessage E rec (C.base + a) f.msg ((C.dAtA.drop a).take (b - a)) x with ⟨x', _ | _ | _ | _⟩ <;> try rfl
      simp only [Res.bind_ok, andThen_next]
      rw [exec_assign_field (eval_wrapper (eval_var_head (by decide)) rfl) rfl]
      simp only [subAssign, ho, if_true]
      rw [leave_cons _ vs _ _ rfl]
  rw [if_neg ho]
  have ho' : f.oneof = false := by simpa using ho
  simp only [ho', Bool.false_and, Bool.false_eq_true, if_false]
  refine .of_eq ?_
  by_cases hr : (f.card == .repeated) = true
  · rw [if_pos hr, Emit.repeatedMessage, exec_seq]
    have hlast : ∀ xs sp, exec C self (Emit.decodeMessage G (.last f.slot) Emit.iNdEx (Emit.var .postIndex) f.msg) ⟨vs, a⟩ (.msg (sl.set f.slot (.list (xs ++ [x]) sp)) u e) =
        (.msg (sl.set f.slot (.list (xs ++ [(Vtp.decodeMessage E rec (C.base + a) f.msg ((C.dAtA.drop a).take (b - a)) x).1]) sp)) u e,
          (Vtp.decodeMessage E rec (C.base + a) f.msg ((C.dAtA.drop a).take (b - a)) x).2 >>= fun _ => .ok (⟨vs, a⟩, .next)) := fun xs sp =>
      run_decodeMessage (self := self) hL hG hrec (hlo _ _) (hhi _) hab hb hN (readPlace_last hsl xs sp x) hxT
        (W := fun x' => .msg (sl.set f.slot (.list (xs ++ [x']) sp)) u e) (W' := fun _ => ⟨vs, a⟩) (fun x' => writePlace_last hsl xs sp x x') (fun _ => rfl)
    have hfin : ∀ xs sp, subAssign f s (Vtp.decodeMessage E rec (C.base + a) f.msg ((C.dAtA.drop a).take (b - a)) x).1 =
          .list (xs ++ [(Vtp.decodeMessage E rec (C.base + a) f.msg ((C.dAtA.drop a).take (b - a)) x).1]) sp →
        ∀ P : Stmt, exec C self P ⟨vs, a⟩ (.msg sl u e) = (.msg (sl.set f.slot (.list (xs ++ [x]) sp)) u e, .ok (⟨vs, a⟩, .next)) →
        andThen (exec C self P ⟨vs, a⟩ (.msg sl u e)) (exec C self (Emit.decodeMessage G (.last f.slot) Emit.iNdEx (Emit.var .postIndex) f.msg)) =
        (.msg (sl.set f.slot (subAssign f s (Vtp.decodeMessage E rec (C.base + a) f.msg ((C.dAtA.drop a).take (b - a)) x).1)) u e,
          ((Vtp.decodeMessage E rec (C.base + a) f.msg ((C.dAtA.drop a).take (b - a)) x).2 >>= fun _ => .ok a) >>= fun (j : Nat) => .ok (⟨vs, (j : Int)⟩, .next)) := by
      intro xs sp h1 P h2
      rw [h2, andThen_next, hlast, h1]
      rcases Vtp.decodeMessage E rec (C.base + a) f.msg ((C.dAtA.drop a).take (b - a)) x with ⟨x', _ | _ | _ | _⟩ <;> rfl
    have happ : ∀ st : St, eval C st (.msg sl u e) (.newMsg f.msg) = .ok (.val (zeroMsg E.S f.msg)) := fun st => by rw [eval, hL.S]
    simp only [subTarget, ho', Bool.false_eq_true, if_false, hr, if_true] at hx
    simp only [slotOK, ho', Bool.false_eq_true, if_false, fieldOK, hmd, hr, if_true] at hs
    have hap := fun (w : Val) => exec_append (C := C) (self := self) (s := f.slot) (st := ⟨vs, a⟩) (sl := sl) (u := u) (x := e) (happ ⟨vs, a⟩) rfl
    have hlen0 : ∀ n : Nat, s.elems.length = n → eval C ⟨vs, a⟩ (.msg sl u e) (.len (.pl (.field f.slot))) = .ok (.int n) := by
      intro n hn
      simp only [eval, readPlace, GoU.slotOf, hget ⟨vs, a⟩, Res.bind_ok, hn]
    by_cases hp : (E.S.msg t).pooled = true
    · rw [if_pos hp]
      have hcond : ∀ xs sp, (s = .nil ∧ xs = [] ∧ sp = [] ∨ s = .list xs sp) → evalCond C ⟨vs, a⟩ (.msg sl u e) (.bin .eq (.len (.pl (.field f.slot))) (.cap (.pl (.field f.slot)))) = .ok (decide (sp = [])) := by
        intro xs sp hc
        have hcap : eval C ⟨vs, a⟩ (.msg sl u e) (.cap (.pl (.field f.slot))) = .ok (.int ((xs.length + sp.length : Nat) : Int)) := by
          simp only [eval, readPlace, GoU.slotOf, hget ⟨vs, a⟩, Res.bind_ok]
          rcases hc with ⟨rfl, rfl, rfl⟩ | rfl <;> rfl
        refine evalCond_of ?_
        rw [eval_bin (hlen0 xs.length (by rcases hc with ⟨rfl, rfl, rfl⟩ | rfl <;> rfl)) hcap]
        simp only [binV, equal, asInt, Res.bind_ok]
        congr 2
        cases sp <;> simp
        omega
      cases s with
      | nil =>
        injection hx with hx
        refine hfin [] [] (by simp [subAssign, ho', hr]) _ ?_
        rw [exec_ite (hcond [] [] (.inl ⟨rfl, rfl, rfl⟩))]
        simp only [decide_true, if_true]
        rw [inScope_def, hap .nil, hd]
        simp only [appendVal, leave_self]
        rw [hx, List.nil_append]
      | list xs sp =>
        cases sp with
        | nil =>
          simp only [hp, if_true] at hx
          injection hx with hx
          refine hfin xs [] (by simp [subAssign, ho', hr]) _ ?_
          rw [exec_ite (hcond xs [] (.inr rfl))]
          simp only [decide_true, if_true]
          rw [inScope_def, hap .nil, hd]
          simp only [appendVal, leave_self]
          rw [hx]; simp
        | cons y sp =>
          simp only [hp, if_true] at hx
          injection hx with hx
          refine hfin xs sp (by simp [subAssign, ho', hr]) _ ?_
          rw [exec_ite (hcond xs (y :: sp) (.inr rfl))]
          simp only [reduceCtorEq, decide_false, Bool.false_eq_true, if_false]
          have hext : eval C ⟨vs, a⟩ (.msg sl u e) (.extend f.slot) = .ok (.val (.list (xs ++ [y]) sp)) := by
            simp only [eval, GoU.slotOf, hget ⟨vs, a⟩, Res.bind_ok]
          rw [inScope_def, exec_seq, exec_assign_field hext rfl, andThen_next]
          have hc2 : evalCond C ⟨vs, a⟩ (.msg (sl.set f.slot (.list (xs ++ [y]) sp)) u e) (.bin .eq (.pl (.last f.slot)) .nil) = .ok y.isNil := by
            refine evalCond_of ?_
            rw [eval_bin (v := .val y) (w := .val .nil) (by rw [eval, readPlace_last hsl]) (by rw [eval])]
            simp [binV, equal]
          cases hy : y.isNil with
          | true =>
            rw [hy] at hc2 hx
            simp only [if_true] at hx
            rw [exec_when_true hc2, inScope_def]
            rw [exec, UM.bind_def, evalU, eval, hL.S]
            simp only
            rw [UM.bind_def, writePlace_last hsl, hx]
            simp
          | false =>
            rw [hy] at hc2 hx
            simp only [Bool.false_eq_true, if_false] at hx
            rw [exec_when_false hc2, hx]
            simp
      | _ => simp at hx
    · rw [if_neg hp]
      cases s with
      | nil =>
        injection hx with hx
        refine hfin [] [] (by simp [subAssign, ho', hr]) _ ?_
        rw [hap .nil, hd]
        simp only [appendVal]
        rw [hx, List.nil_append]
      | list xs sp =>
        simp only [hp] at hx
        injection hx with hx
        refine hfin xs sp.tail (by simp [subAssign, ho', hr]) _ ?_
        rw [hap .nil, hd]
        simp only [appendVal]
        rw [hx]
      | _ => simp at hx
  · rw [if_neg hr, Emit.singleMessage, exec_seq]
    simp only [subTarget, ho', Bool.false_eq_true, if_false, hr] at hx
    injection hx with hx
    have hrun : ∀ v : Val, exec C self (Emit.decodeMessage G (.field f.slot) Emit.iNdEx (Emit.var .postIndex) f.msg) ⟨vs, a⟩ (.msg (sl.set f.slot x) u e) =
        (.msg (sl.set f.slot (Vtp.decodeMessage E rec (C.base + a) f.msg ((C.dAtA.drop a).take (b - a)) x).1) u e,
          (Vtp.decodeMessage E rec (C.base + a) f.msg ((C.dAtA.drop a).take (b - a)) x).2 >>= fun _ => .ok (⟨vs, a⟩, .next)) := fun _ =>
      run_decodeMessage (self := self) hL hG hrec (hlo _ _) (hhi _) hab hb hN (by simp [readPlace, GoU.slotOf, getSlot, hsl]) hxT
        (W := fun x' => .msg (sl.set f.slot x') u e) (W' := fun _ => ⟨vs, a⟩) (fun x' => by simp [writePlace, UM.bind_def, stored, setSlot]) (fun _ => rfl)
    have hfirst : exec C self (Emit.when (.bin .eq (.pl (.field f.slot)) .nil) (.assign (.field f.slot) (Emit.newMessage E.S (E.S.msg t) f.msg))) ⟨vs, a⟩ (.msg sl u e) =
        (.msg (sl.set f.slot x) u e, .ok (⟨vs, a⟩, .next)) := by
      cases hn : s.isNil with
      | true =>
        rw [hn] at hx
        simp only [if_true] at hx
        rw [exec_when_true (by rw [evalCond_nil, hd, hn]), inScope_def, exec_assign_field (eval_newMessage hL _ _) rfl, hx]
        simp
      | false =>
        rw [hn] at hx
        simp only [Bool.false_eq_true, if_false] at hx
        rw [exec_when_false (by rw [evalCond_nil, hd, hn])]
        congr 2
        rw [← hx, ← hd]
        simp [hsl]
    rw [hfirst, andThen_next, hrun .nil]
    simp only [subAssign, ho', Bool.false_eq_true, if_false, hr]
    rcases Vtp.decodeMessage E rec (C.base + a) f.msg ((C.dAtA.drop a).take (b - a)) x with ⟨x', _ | _ | _ | _⟩ <;> rfl

end

end Vtp.GoU
