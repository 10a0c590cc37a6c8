import Verif.Lemmas.EmitMarshal
import Verif.Lemmas.Missing
/-! The emitted `MarshalToSizedBufferVT` is `marshalToSized`: oneofs, and the methods. -/

namespace Vtp

/-- `MarshalToSizedBufferVT` of a oneof wrapper: the part of `marshalOneof` inside the call. -/
def wrapCall (E : Env) (rec : Nat → Val → Bytes → Res (Bytes × Nat)) (d : MsgDesc) (slot : Nat) (w : Val) : Bytes → Res (Bytes × Nat) :=
  match w with
  | .wrap n x => match d.member slot n with
    | some f => runSized (marshalField E rec true f x)
    | none => fun _ => .panic .nilDeref
  | _ => fun _ => .panic .nilDeref

end Vtp

namespace Vtp.Go
open Spec

/-- Calls of `MarshalToSizedBufferVT` on oneof wrappers. -/
def SubCalls (C : Ctx) (tn : Members) (okv : Nat → Val → Bool) (rec : Nat → Val → Bytes → Res (Bytes × Nat)) : Prop :=
  ∀ t slot n w, oneofOK tn okv (C.S.msg t) slot w = true → (w = .wrapNil n ∨ ∃ x, w = .wrap n x) →
    ∀ buf, CallAgree (wrapCall ⟨C.S, C.R⟩ rec (C.S.msg t) slot w buf) (C.marshal (.wrapper t n) w buf)

section
variable {C : Ctx} {env : Int → List (Id × GV)} {mv : GV} {G : GenCfg} {okv : Nat → Val → Bool} {rec : Nat → Val → Bytes → Res (Bytes × Nat)}
  {tn : Members}

/-- The dynamic type of a wrapper. -/
theorem oneof_cases {E : Env} {d : MsgDesc} {t slot : Nat} {w : Val} (hok : oneofOK tn okv d slot w = true) :
    (dyn (.val (.iface t slot) w) = none ∧ Vtp.marshalOneof E rec d slot w = Writer.skip ∧ w = .nil) ∨
    ∃ n f, (w = .wrapNil n ∨ ∃ x, w = .wrap n x) ∧ dyn (.val (.iface t slot) w) = some (.wrapper t n, w) ∧
      d.member slot n = some f ∧ Vtp.marshalOneof E rec d slot w = Writer.call (wrapCall E rec d slot w) := by
  cases w with
  | nil => exact .inl ⟨rfl, rfl, rfl⟩
  | wrap n x =>
    simp only [oneofOK] at hok
    cases h : d.member slot n with
    | none => rw [h] at hok; simp at hok
    | some f => exact .inr ⟨n, f, .inr ⟨x, rfl⟩, rfl, h, by simp [Vtp.marshalOneof, wrapCall, h]⟩
  | wrapNil n =>
    simp only [oneofOK, Bool.and_eq_true] at hok
    obtain ⟨f, hf⟩ := Option.isSome_iff_exists.1 hok.2
    exact .inr ⟨n, f, .inl rfl, rfl, hf, rfl⟩
  | num _ => simp [oneofOK] at hok
  | str _ => simp [oneofOK] at hok
  | msg _ _ _ => simp [oneofOK] at hok
  | list _ _ => simp [oneofOK] at hok
  | map _ => simp [oneofOK] at hok

/-- A block that declares the wrapper and forwards to it. -/
theorem forwardBlock (h : IEnv env mv) {x : Id} {e : Expr} {t n : Nat} {w : Val} {f : Bytes → Res (Bytes × Nat)} (hi : x ≠ .i) (hm : x ≠ .m)
    (he : ∀ s : St, eval C s e = eval C s (.id x)) (hf : ∀ buf, CallAgree (f buf) (C.marshal (.wrapper t n) w buf)) (s : WState) :
    Ends env (Writer.call f s) (block [(x, .val (.wrapper t n) w)] (exec C (Emit.forward e)) ⟨env s.i, s.buf⟩) := by
  have hs := forward_sim (C := C) (h.cons (x := x) (.val (.wrapper t n) w) hi hm) (e := e) (g := .val (.wrapper t n) w)
    (fun i buf => by rw [he]; simp [eval, lookup]) rfl hf s
  exact (block_ends h (bind := [(x, .val (.wrapper t n) w)]) hs).ends

theorem cases_sim (HW : SubCalls C tn okv rec) (h : IEnv env mv) {t slot : Nat} {w : Val} {var : Expr}
    (hok : oneofOK tn okv (C.S.msg t) slot w = true) (hv : Gives C env var (.val (.iface t slot) w)) : ∀ fs : List FieldDesc,
    (∀ n, (w = .wrapNil n ∨ ∃ x, w = .wrap n x) → ∃ f ∈ fs, f.num = n) →
    Sim C env (Emit.marshalCases var t fs) (Vtp.marshalOneof ⟨C.S, C.R⟩ rec (C.S.msg t) slot w) := by
  intro fs hm
  rcases oneof_cases (E := ⟨C.S, C.R⟩) (rec := rec) (t := t) hok with ⟨hd, hz, -⟩ | ⟨n, -, hn, hd, -, hz⟩
  · rw [hz]
    clear hm
    induction fs with
    | nil => exact Sim.skip
    | cons f fs ih =>
      intro s
      unfold Emit.marshalCases
      rw [exec, hv s.i]
      simp only [Res.bind_ok, hd]
      exact (block_ends h (bind := []) (ih s)).ends
  · rw [hz]
    have hf := hm n hn
    clear hm
    induction fs with
    | nil => obtain ⟨f, hf, -⟩ := hf; simp at hf
    | cons f fs ih =>
      intro s
      unfold Emit.marshalCases
      rw [exec, hv s.i]
      simp only [Res.bind_ok, hd]
      by_cases hfn : f.num = n
      · rw [if_pos (by rw [hfn])]
        exact forwardBlock h (by simp) (by simp) (fun s => rfl) (HW t slot n w hok hn) s
      · rw [if_neg (by simp [Ne.symm hfn])]
        obtain ⟨g, hg, hgn⟩ := hf
        have hg' : g ∈ fs := by
          rcases List.mem_cons.1 hg with rfl | h
          · exact absurd hgn hfn
          · exact h
        exact (block_ends h (bind := []) (ih ⟨g, hg', hgn⟩ s)).ends

theorem oneof_sim (HW : SubCalls C tn okv rec) (h : IEnv env mv) {t slot : Nat} {w : Val}
    (hok : oneofOK tn okv (C.S.msg t) slot w = true) (hv : Gives C env (.sel (.id .m) (.slot t slot)) (.val (.iface t slot) w)) :
    Sim C env (Emit.marshalOneof G (C.S.msg t) t slot) (Vtp.marshalOneof ⟨C.S, C.R⟩ rec (C.S.msg t) slot w) := by
  unfold Emit.marshalOneof
  simp only []
  split
  · refine cases_sim HW h hok hv _ ?_
    intro n hn
    rcases oneof_cases (E := ⟨C.S, C.R⟩) (rec := rec) (t := t) hok with ⟨-, -, h0⟩ | ⟨n', f, hn', -, hf, -⟩
    · subst h0
      simp at hn
    · have : n' = n := by
        rcases hn with rfl | ⟨x, rfl⟩ <;> rcases hn' with h | ⟨y, h⟩ <;> simp at h
        · exact h.symm
        · exact h.1.symm
      subst this
      obtain ⟨h1, h2, h3, h4⟩ := member_some hf
      exact ⟨f, by simp [Emit.members, h1, h2, h3], h4⟩
  · rcases oneof_cases (E := ⟨C.S, C.R⟩) (rec := rec) (t := t) hok with ⟨hd, hz, -⟩ | ⟨n, -, hn, hd, -, hz⟩
    · rw [hz]
      intro s
      rw [exec, hv s.i]
      simp only [Res.bind_ok, hd]
      exact (block_ends h (bind := []) (Sim.skip s)).ends
    · rw [hz]
      intro s
      rw [exec, hv s.i]
      simp only [Res.bind_ok, hd, implements, if_true]
      exact forwardBlock h (by simp) (by simp) (fun s => rfl) (HW t slot n w hok hn) s

theorem strict_cases {E : Env} {d : MsgDesc} (hd : MsgFacts d) {t : Nat} {f : FieldDesc} {slots : List Val}
    (hf : f ∈ d.fields) (ho : f.oneof = true) (hok : oneofOK tn okv d f.slot (slotOf slots f) = true) :
    (dyn (.val (.iface t f.slot) (slotOf slots f)) = some (.wrapper t f.num, slotOf slots f) ∧
      (slotOf slots f = .wrapNil f.num ∨ ∃ x, slotOf slots f = .wrap f.num x) ∧
      marshalStrictField E rec slots f = Writer.call (wrapCall E rec d f.slot (slotOf slots f))) ∨
    ((∀ T x, dyn (.val (.iface t f.slot) (slotOf slots f)) = some (T, x) → T ≠ .wrapper t f.num) ∧
      marshalStrictField E rec slots f = Writer.skip) := by
  have hme := member_of hd hf ho
  unfold marshalStrictField
  simp only [ho, if_true]
  cases hw : slotOf slots f with
  | wrap n x =>
    by_cases hn : n = f.num
    · subst hn
      exact .inl ⟨rfl, .inr ⟨x, rfl⟩, by simp [wrapCall, hme]⟩
    · exact .inr ⟨by simp [dyn, hn], by simp [hn]⟩
  | wrapNil n =>
    by_cases hn : n = f.num
    · subst hn
      exact .inl ⟨rfl, .inl rfl, by simp [wrapCall]⟩
    · exact .inr ⟨by simp [dyn, hn], by simp [hn]⟩
  | nil => exact .inr ⟨by simp [dyn], rfl⟩
  | num _ => rw [hw] at hok; simp [oneofOK] at hok
  | str _ => rw [hw] at hok; simp [oneofOK] at hok
  | msg _ _ _ => rw [hw] at hok; simp [oneofOK] at hok
  | list _ _ => rw [hw] at hok; simp [oneofOK] at hok
  | map _ => rw [hw] at hok; simp [oneofOK] at hok

/-- A member of a oneof in strict mode. -/
theorem strictMember_sim (HW : SubCalls C tn okv rec) (h : IEnv env mv) {t : Nat} (hd : MsgFacts (C.S.msg t)) {f : FieldDesc} {slots : List Val}
    (hf : f ∈ (C.S.msg t).fields) (ho : f.oneof = true) (hok : oneofOK tn okv (C.S.msg t) f.slot (slotOf slots f) = true)
    (hv : Gives C env (.sel (.id .m) (.slot t f.slot)) (.val (.iface t f.slot) (slotOf slots f))) :
    Sim C env (Emit.strictMember G t f) (marshalStrictField ⟨C.S, C.R⟩ rec slots f) := by
  have hw := strict_cases (E := ⟨C.S, C.R⟩) (rec := rec) (t := t) hd hf ho hok
  unfold Emit.strictMember
  simp only []
  generalize slotOf slots f = w at hok hv hw
  have hskip : (∀ T x, dyn (.val (.iface t f.slot) w) = some (T, x) → T ≠ .wrapper t f.num) → ∀ (x : Id) (a : Stmt),
      Sim C env (.ifType x (.sel (.id .m) (.slot t f.slot)) t f.num a .skip) Writer.skip := by
    intro hne x a s
    rw [exec, hv s.i]
    simp only [Res.bind_ok]
    cases hdy : dyn (.val (.iface t f.slot) w) with
    | none => exact (block_ends h (bind := []) (Sim.skip s)).ends
    | some p =>
      obtain ⟨T, y⟩ := p
      simp only []
      rw [if_neg (hne T y hdy)]
      exact (block_ends h (bind := []) (Sim.skip s)).ends
  rcases hw with ⟨hdy, hn, hz⟩ | ⟨hne, hz⟩
  · rw [hz]
    split
    · intro s
      rw [exec, hv s.i]
      simp only [Res.bind_ok, hdy, if_true]
      have hs := forward_sim (C := C) ((h.shadow (.val (.wrapper t f.num) w)).cons (x := .msg) (.val (.wrapper t f.num) w) (by simp) (by simp)) (e := .id .msg)
        (g := .val (.wrapper t f.num) w) (fun i buf => by simp [eval, lookup]) rfl (HW t f.slot f.num w hok hn) s
      refine (block_ends' h (bind := [(.m, .val (.wrapper t f.num) w)]) (bind' := [(.msg, .val (.wrapper t f.num) w), (.m, .val (.wrapper t f.num) w)]) ?_).ends
      have hdef : exec C (.define .msg (.known (.id .m))) ⟨[(.m, .val (.wrapper t f.num) w)] ++ env s.i, s.buf⟩ =
          .ok (⟨(.msg, .val (.wrapper t f.num) w) :: (.m, .val (.wrapper t f.num) w) :: env s.i, s.buf⟩, .next) := by
        simp [exec, eval, lookup, fresh]
      rw [exec_seq hdef]
      exact hs
    · intro s
      rw [exec, hv s.i]
      simp only [Res.bind_ok, hdy, if_true]
      exact forwardBlock h (by simp) (by simp) (fun s => rfl) (HW t f.slot f.num w hok hn) s
  · rw [hz]
    split
    · exact hskip hne _ _
    · exact hskip hne _ _

theorem reads_slot {t i : Nat} {slots : List Val} {unk ext : Bytes} (hmv : mv = .val (.msg t) (.msg slots unk ext)) :
    FieldReads C mv (.sel (.id .m) (.slot t i)) (slotTy C.S t i) (slots.getD i .nil) := fun env h i buf => by
  simp [eval, h.recv, hmv, selG]

/-- The fields of the message have the values their types say. -/
def SlotsOK (C : Ctx) (tn : Members) (okv : Nat → Val → Bool) (t : Nat) (slots : List Val) : Prop :=
  ∀ f ∈ (C.S.msg t).fields, (if f.oneof then oneofOK tn okv (C.S.msg t) f.slot (slotOf slots f) else fieldOK okv f (slotOf slots f)) = true

theorem plainField_sim (hG : G.OK C.S) (H : SubMarshal C okv rec) (HT : ∀ t v, TameCall (rec t v)) {t : Nat} (hd : MsgFacts (C.S.msg t))
    {slots : List Val} {unk ext : Bytes} (hmv : mv = .val (.msg t) (.msg slots unk ext)) (hok : SlotsOK C tn okv t slots)
    (h : IEnv env mv) {f : FieldDesc} (hf : f ∈ (C.S.msg t).fields) (ho : f.oneof = false) (c : Nat) :
    Sim C env (Emit.marshalField G false c t f) (Vtp.marshalField ⟨C.S, C.R⟩ rec false f (slotOf slots f)) := by
  have hk := hok f hf
  have hr := reads_slot (C := C) (i := f.slot) hmv
  rw [slotTy_field hd hf ho] at hr
  simp only [ho, Bool.false_eq_true, if_false] at hk
  exact field_sim hG H HT h (hd.fields f hf) (by simp) (v := slotOf slots f) hr hk

theorem strictFields_sim (hG : G.OK C.S) (H : SubMarshal C okv rec) (HT : ∀ t v, TameCall (rec t v)) (HW : SubCalls C tn okv rec)
    {t : Nat} (hd : MsgFacts (C.S.msg t)) {slots : List Val} {unk ext : Bytes} (hmv : mv = .val (.msg t) (.msg slots unk ext))
    (hok : SlotsOK C tn okv t slots) : ∀ (fs : List FieldDesc) (c : Nat) (env : Int → List (Id × GV)), IEnv env mv → (∀ f ∈ fs, f ∈ (C.S.msg t).fields) →
      Sim C env (Emit.strictFields G t c fs) (Writer.each (marshalStrictField ⟨C.S, C.R⟩ rec slots) fs)
  | [], c, env, h, _ => Sim.skip
  | f :: fs, c, env, h, hfs => by
    have hf := hfs f (by simp)
    have hfs' : ∀ g ∈ fs, g ∈ (C.S.msg t).fields := fun g hg => hfs g (by simp [hg])
    unfold Emit.strictFields Writer.each
    by_cases ho : f.oneof = true
    · simp only [ho, if_true]
      have hk := hok f hf
      have hr := reads_slot (C := C) (i := f.slot) hmv
      simp only [ho, if_true] at hk
      rw [slotTy_oneof hd hf ho] at hr
      exact (strictMember_sim HW h hd hf ho hk (hr _ h)).seq fun ext hx => strictFields_sim hG H HT HW hd hmv hok fs c _ (h.temps hx) hfs'
    · have ho' : f.oneof = false := by simpa using ho
      simp only [ho', Bool.false_eq_true, if_false]
      have := plainField_sim hG H HT hd hmv hok h hf ho' c
      rw [show marshalStrictField ⟨C.S, C.R⟩ rec slots f = Vtp.marshalField ⟨C.S, C.R⟩ rec false f (slotOf slots f) by
        unfold marshalStrictField; simp [ho']]
      exact this.seq fun ext hx => strictFields_sim hG H HT HW hd hmv hok fs _ _ (h.temps hx) hfs'

theorem oneofs_sim (HW : SubCalls C tn okv rec)
    {t : Nat} (hd : MsgFacts (C.S.msg t)) {slots : List Val} {unk ext : Bytes} (hmv : mv = .val (.msg t) (.msg slots unk ext))
    (hok : SlotsOK C tn okv t slots) : ∀ (fs : List FieldDesc) (seen : List Nat) (env : Int → List (Id × GV)), IEnv env mv → (∀ f ∈ fs, f ∈ (C.S.msg t).fields) →
      Sim C env (Emit.marshalOneofs G (C.S.msg t) t seen fs) (Vtp.marshalOneofs ⟨C.S, C.R⟩ rec (C.S.msg t) slots seen fs)
  | [], seen, env, h, _ => Sim.skip
  | f :: fs, seen, env, h, hfs => by
    have hf := hfs f (by simp)
    have hfs' : ∀ g ∈ fs, g ∈ (C.S.msg t).fields := fun g hg => hfs g (by simp [hg])
    unfold Emit.marshalOneofs Vtp.marshalOneofs
    by_cases ho : f.oneof = true
    · simp only [ho, if_true]
      split
      · exact oneofs_sim HW hd hmv hok fs seen env h hfs'
      · have hk := hok f hf
        have hr := reads_slot (C := C) (i := f.slot) hmv
        simp only [ho, if_true] at hk
        rw [slotTy_oneof hd hf ho] at hr
        exact (oneof_sim HW h hk (hr _ h)).seq fun ext hx => oneofs_sim HW hd hmv hok fs _ _ (h.temps hx) hfs'
    · have ho' : f.oneof = false := by simpa using ho
      simp only [ho', Bool.false_eq_true, if_false]
      exact oneofs_sim HW hd hmv hok fs seen env h hfs'

theorem others_sim (hG : G.OK C.S) (H : SubMarshal C okv rec) (HT : ∀ t v, TameCall (rec t v))
    {t : Nat} (hd : MsgFacts (C.S.msg t)) {slots : List Val} {unk ext : Bytes} (hmv : mv = .val (.msg t) (.msg slots unk ext))
    (hok : SlotsOK C tn okv t slots) : ∀ (fs : List FieldDesc) (c : Nat) (env : Int → List (Id × GV)), IEnv env mv → (∀ f ∈ fs, f ∈ (C.S.msg t).fields) →
      Sim C env (Emit.marshalOthers G t c fs)
        (Writer.each (fun f => if f.oneof then Writer.skip else Vtp.marshalField ⟨C.S, C.R⟩ rec false f (slotOf slots f)) fs)
  | [], c, env, h, _ => Sim.skip
  | f :: fs, c, env, h, hfs => by
    have hf := hfs f (by simp)
    have hfs' : ∀ g ∈ fs, g ∈ (C.S.msg t).fields := fun g hg => hfs g (by simp [hg])
    unfold Emit.marshalOthers Writer.each
    by_cases ho : f.oneof = true
    · simp only [ho, if_true]
      have ih := others_sim hG H HT hd hmv hok fs c env h hfs'
      intro s
      exact ih s
    · have ho' : f.oneof = false := by simpa using ho
      simp only [ho', Bool.false_eq_true, if_false]
      exact (plainField_sim hG H HT hd hmv hok h hf ho' c).seq fun ext hx => others_sim hG H HT hd hmv hok fs _ _ (h.temps hx) hfs'

/-- `copy(dAtA[i:], m.unknownFields)`. -/
theorem unknown_sim (h : IEnv env mv) {t : Nat} {slots : List Val} {unk ext : Bytes} (hmv : mv = .val (.msg t) (.msg slots unk ext)) (keep : Bool) :
    Sim C env (if keep then .ite (.bin .ne (.sel (.id .m) .unknown) .nil)
        (.subAssign .i (.len (.sel (.id .m) .unknown)) ;; .copy (.sel (.id .m) .unknown)) .skip else .skip)
      (if keep then Writer.copy unk else Writer.skip) := by
  cases keep with
  | false => exact Sim.skip
  | true =>
    have hr : ∀ i buf, eval C ⟨env i, buf⟩ (.sel (.id .m) .unknown) = .ok (.val .bytes (.str unk)) := fun i buf => by
      simp [eval, h.recv, hmv, selG]
    have hc : ∀ i buf, (eval C ⟨env i, buf⟩ (.bin .ne (.sel (.id .m) .unknown) .nil) >>= truth) = .ok true := fun i buf => by
      rw [eval, hr]
      simp [eval, binG, isNilG, Val.isNil, truth]
    have := Sim.ite (u := Writer.skip) h hc (fun _ => copy_sim h (b := unk) (g := .val .bytes (.str unk)) hr rfl rfl) (b := .skip) fun h => by simp at h
    simpa using this

theorem message_sim (hG : G.OK C.S) (H : SubMarshal C okv rec) (HT : ∀ t v, TameCall (rec t v)) (HW : SubCalls C tn okv rec)
    {t : Nat} (hd : MsgFacts (C.S.msg t)) {slots : List Val} {unk ext : Bytes} (hmv : mv = .val (.msg t) (.msg slots unk ext))
    (hok : SlotsOK C tn okv t slots) (h : IEnv env mv) (strict : Bool) :
    let d := C.S.msg t
    let fs := (sortFields d.fields).reverse
    Sim C env ((if d.keepUnknown then .ite (.bin .ne (.sel (.id .m) .unknown) .nil)
        (.subAssign .i (.len (.sel (.id .m) .unknown)) ;; .copy (.sel (.id .m) .unknown)) .skip else .skip) ;;
      (if strict then Emit.strictFields G t 0 fs else Emit.marshalOneofs G d t [] fs ;; Emit.marshalOthers G t 0 fs))
      (Vtp.marshalBody ⟨C.S, C.R⟩ rec strict d slots unk) := by
  intro d fs
  have hfs : ∀ f ∈ fs, f ∈ (C.S.msg t).fields := fun f hf => by
    have : f ∈ sortFields d.fields := by simpa [fs] using hf
    unfold sortFields at this
    exact (List.mem_insertionSort _).1 this
  refine (unknown_sim h hmv _).seq fun ext hx => ?_
  cases strict with
  | true => exact strictFields_sim hG H HT HW hd hmv hok fs 0 _ (h.temps hx) hfs
  | false =>
    exact (oneofs_sim HW hd hmv hok fs [] _ (h.temps hx) hfs).seq fun ext' hx' =>
      others_sim hG H HT hd hmv hok fs 0 _ ((h.temps hx).temps hx') hfs

/-- `return len(dAtA) - i, nil` at the end of a method that simulates a writer. -/
theorem result_agree {a : Stmt} {w : Writer} (hs : Sim C env a w) (ht : Tame w) (h : IEnv env mv) (buf : Bytes) :
    CallAgree (runSized w buf) (resultSized (exec C (a ;; .ret [.bin .sub .lenBuf (.id .i), .nil]) ⟨env buf.length, buf⟩)) := by
  have hx := hs ⟨buf, buf.length⟩
  have htame := ht ⟨buf, buf.length⟩
  unfold runSized
  rw [exec]
  revert hx
  cases hw : w ⟨buf, buf.length⟩ with
  | ok s' =>
    rintro ⟨ext, hext, hr⟩
    obtain ⟨h1, h2⟩ := htame s' hw
    simp only [] at h1 h2
    simp only [hr, Res.bind_ok, exec, evals, eval]
    rw [lookup_temps hext rfl, h.get]
    simp only [Res.bind_ok, binG, asInt, resultSized, intG, errG]
    show _ = _
    simp only [h1]
    rw [Int.toNat_of_nonneg (by omega)]
  | err e =>
    rintro ⟨u, hr⟩
    rw [hr]
    exact ⟨_, _, rfl⟩
  | panic p =>
    intro hr
    have hr : exec C a ⟨env buf.length, buf⟩ = .panic p := hr
    rw [hr]; exact rfl
  | diverge =>
    intro hr
    have hr : exec C a ⟨env buf.length, buf⟩ = .diverge := hr
    rw [hr]; exact rfl

/-- The variables of the method of a message. -/
abbrev msgEnv (mv : GV) (i : Int) : List (Id × GV) := [(.l, .int 0), (.i, .int i), (.m, mv)]

theorem msgEnv_ok (mv : GV) : IEnv (msgEnv mv) mv where
  get i := by simp [msgEnv, lookup]
  set i j := by simp [msgEnv, update, coerce]
  recv i := by simp [msgEnv, lookup]

/-- The variables of the method of a wrapper. -/
abbrev wrapEnv (mv : GV) (i : Int) : List (Id × GV) := [(.i, .int i), (.m, mv)]

theorem wrapEnv_ok (mv : GV) : IEnv (wrapEnv mv) mv where
  get i := by simp [wrapEnv, lookup]
  set i j := by simp [wrapEnv, update, coerce]
  recv i := by simp [wrapEnv, lookup]

theorem exec_assoc {a b c : Stmt} {s : St} : exec C (a ;; b ;; c) s = exec C ((a ;; b) ;; c) s := by
  simp only [exec]
  cases exec C a s with
  | ok r =>
    simp only [Res.bind_ok]
    cases r.2 with
    | next => rfl
    | ret v => rfl
  | err e => rfl
  | panic p => rfl
  | diverge => rfl

theorem sizedMethod_agree (hG : G.OK C.S) (H : SubMarshal C okv rec) (HT : ∀ t v, TameCall (rec t v)) (HW : SubCalls C tn okv rec)
    {t : Nat} (hd : MsgFacts (C.S.msg t)) {slots : List Val} {unk ext : Bytes} (hok : SlotsOK C tn okv t slots) (strict : Bool) (buf : Bytes) :
    CallAgree (runSized (Vtp.marshalBody ⟨C.S, C.R⟩ rec strict (C.S.msg t) slots unk) buf)
      (resultSized (exec C (Emit.sizedMethod G C.S strict t) ⟨[(.m, .val (.msg t) (.msg slots unk ext))], buf⟩)) := by
  have hsim := message_sim (G := G) hG H HT HW hd (mv := .val (.msg t) (.msg slots unk ext)) rfl hok (msgEnv_ok _) strict
  have hres := result_agree hsim (Tame.message HT strict (C.S.msg t) slots unk) (msgEnv_ok _) buf
  have h1 : exec C (.ite (.bin .eq (.id .m) .nil) (.ret [.lit 0, .nil]) .skip) ⟨[(.m, .val (.msg t) (.msg slots unk ext))], buf⟩ =
      .ok (⟨[(.m, .val (.msg t) (.msg slots unk ext))], buf⟩, .next) := by
    simp [exec, eval, lookup, binG, isNilG, Val.isNil, truth, block, St.leave]
  have h2 : exec C (.define .i .lenBuf) ⟨[(.m, .val (.msg t) (.msg slots unk ext))], buf⟩ =
      .ok (⟨[(.i, .int buf.length), (.m, .val (.msg t) (.msg slots unk ext))], buf⟩, .next) := by
    simp [exec, eval, fresh]
  have h3 : exec C (.blank (.id .i)) ⟨[(.i, .int buf.length), (.m, .val (.msg t) (.msg slots unk ext))], buf⟩ =
      .ok (⟨[(.i, .int buf.length), (.m, .val (.msg t) (.msg slots unk ext))], buf⟩, .next) := by
    simp [exec, eval, lookup]
  have h4 : exec C (.varInt .l) ⟨[(.i, .int buf.length), (.m, .val (.msg t) (.msg slots unk ext))], buf⟩ =
      .ok (⟨[(.l, .int 0), (.i, .int buf.length), (.m, .val (.msg t) (.msg slots unk ext))], buf⟩, .next) := by
    simp [exec]
  have h5 : exec C (.blank (.id .l)) ⟨[(.l, .int 0), (.i, .int buf.length), (.m, .val (.msg t) (.msg slots unk ext))], buf⟩ =
      .ok (⟨[(.l, .int 0), (.i, .int buf.length), (.m, .val (.msg t) (.msg slots unk ext))], buf⟩, .next) := by
    simp [exec, eval, lookup]
  unfold Emit.sizedMethod
  simp only []
  rw [exec_seq h1, exec_seq h2, exec_seq h3, exec_seq h4, exec_seq h5, exec_assoc]
  exact hres

theorem sizedMethod_nil {t : Nat} {strict : Bool} (buf : Bytes) :
    resultSized (exec C (Emit.sizedMethod G C.S strict t) ⟨[(.m, .val (.msg t) .nil)], buf⟩) = .ok (buf, 0, none) := by
  simp [Emit.sizedMethod, exec, eval, evals, lookup, binG, isNilG, Val.isNil, truth, block, St.leave, resultSized, intG, errG]

/-- The code for one scalar panics if reading it does. -/
theorem scalar_panics (h : IEnv env mv) {k : Kind} {e : Expr} {p : Panic} (hm : k ≠ .message) (hg : k ≠ .group)
    (he : ∀ i buf, eval C ⟨env i, buf⟩ e = .panic p) (i : Int) (buf : Bytes) : exec C (Emit.scalar k e) ⟨env i, buf⟩ = .panic p := by
  have h8 : ∀ n, exec C (.subAssign .i (.lit n)) ⟨env i, buf⟩ = .ok (⟨env (i - n), buf⟩, .next) := fun n => exec_subI h (g := .const n) (n := n) rfl rfl
  have h1 : exec C (.dec .i) ⟨env i, buf⟩ = .ok (⟨env (i - 1), buf⟩, .next) := exec_decI h
  cases k <;> simp only [Emit.scalar, Emit.encodeFixed64, Emit.encodeFixed32, Emit.encodeVarint, Emit.boolByte, Emit.copyBytes]
  case message => exact absurd rfl hm
  case group => exact absurd rfl hg
  case double => rw [exec_seq (h8 8)]; simp [exec, eval, he]
  case fixed64 => rw [exec_seq (h8 8)]; simp [exec, eval, he]
  case sfixed64 => rw [exec_seq (h8 8)]; simp [exec, eval, he]
  case float => rw [exec_seq (h8 4)]; simp [exec, eval, he]
  case fixed32 => rw [exec_seq (h8 4)]; simp [exec, eval, he]
  case sfixed32 => rw [exec_seq (h8 4)]; simp [exec, eval, he]
  case bool => rw [exec_seq h1]; simp [exec, he]
  all_goals simp [exec, eval, he, Emit.zigzag32, Emit.zigzag64]

theorem field_panics (h : IEnv env mv) {d : MsgDesc} {t : Nat} {f : FieldDesc} {p : Panic} (ff : FieldFacts d f) (ho : f.oneof = true)
    (he : ∀ i buf, eval C ⟨env i, buf⟩ (Emit.fieldExpr true t f) = .panic p) (i : Int) (buf : Bytes) :
    exec C (Emit.marshalField G true 0 t f) ⟨env i, buf⟩ = .panic p := by
  obtain ⟨h1, -, -, h4⟩ := ff.oneof ho
  have hp : f.packed = false := by
    cases hp : f.packed with
    | false => rfl
    | true => have := (ff.packed hp).1; rw [h1] at this; simp at this
  have hsc : ∀ wt, f.kind ≠ .message → exec C (Emit.scalar f.kind (Emit.fieldExpr true t f) ;; Emit.encodeKey f.num wt) ⟨env i, buf⟩ = .panic p := by
    intro wt hm
    rw [exec, scalar_panics h hm h4 he]; rfl
  have hr : (f.card == Card.repeated) = false := by rw [h1]; rfl
  have hq : (f.card == Card.required) = false := by rw [h1]; rfl
  unfold Emit.marshalField
  simp only [hr, hq, Bool.false_eq_true, if_false, Bool.not_true, Bool.false_and, Bool.or_false]
  by_cases hm : f.hasMessage = true
  · simp [hm, exec, eval, he]
  · have hm' : f.hasMessage = false := by simpa using hm
    simp only [hm', Bool.false_eq_true, if_false]
    unfold Emit.marshalBody
    simp only [hm', hp, Bool.false_or, Bool.not_true, Bool.false_and, Bool.false_eq_true, if_false]
    cases hk : f.kind <;> simp only [FieldDesc.hasMessage, hk] at hm' <;>
      simp only [Emit.fixedMarshal, Emit.varintMarshal, Emit.stringMarshal, Emit.bytesMarshal, hp, hr, Bool.not_true, Bool.false_and, Bool.false_eq_true, if_false]
    case message => simp at hm'
    case group => simp at hm'
    all_goals
      have := hsc (protoWireType f.kind) (by rw [hk]; simp)
      first
        | simpa only [hk] using this
        | (simp only [hk] at this; exact this)

theorem sizedWrapper_agree (hG : G.OK C.S) (H : SubMarshal C okv rec) (HT : ∀ t v, TameCall (rec t v)) {t slot : Nat} (hd : MsgFacts (C.S.msg t))
    {n : Nat} {w : Val} (hok : oneofOK tn okv (C.S.msg t) slot w = true) (hw : w = .wrapNil n ∨ ∃ x, w = .wrap n x) :
    ∃ f, (C.S.msg t).fields.find? (fun f => f.num == n) = some f ∧ ∀ buf,
      CallAgree (wrapCall ⟨C.S, C.R⟩ rec (C.S.msg t) slot w buf)
        (resultSized (exec C (Emit.sizedWrapper G t f) ⟨[(.m, .val (.wrapper t n) w)], buf⟩)) := by
  have hm : ∃ f, (C.S.msg t).member slot n = some f := by
    rcases hw with rfl | ⟨x, rfl⟩
    · simp only [oneofOK, Bool.and_eq_true] at hok
      exact Option.isSome_iff_exists.1 hok.2
    · simp only [oneofOK] at hok
      cases h : (C.S.msg t).member slot n with
      | none => rw [h] at hok; simp at hok
      | some f => exact ⟨f, rfl⟩
  obtain ⟨f, hf⟩ := hm
  obtain ⟨h1, h2, h3, h4⟩ := member_some hf
  refine ⟨f, h4 ▸ find_num hd h1, fun buf => ?_⟩
  have hdef : exec C (.define .i .lenBuf) ⟨[(.m, .val (.wrapper t n) w)], buf⟩ = .ok (⟨wrapEnv (.val (.wrapper t n) w) buf.length, buf⟩, .next) := by
    simp [exec, eval, fresh, wrapEnv]
  unfold Emit.sizedWrapper
  rw [exec_seq hdef]
  rcases hw with rfl | ⟨x, rfl⟩
  · rw [exec, field_panics (wrapEnv_ok _) (hd.fields f h1) h2 (p := .nilDeref)]
    · exact rfl
    · intro i buf
      simp [Emit.fieldExpr, eval, lookup, selG, h4]
  · simp only [oneofOK, hf, Bool.and_eq_true] at hok
    have hr : FieldReads C (.val (.wrapper t n) (.wrap n x)) (Emit.fieldExpr true t f) (fieldValTy true f) x := fun env h i buf => by
      simp [Emit.fieldExpr, eval, h.recv, selG, h4, fieldValTy]
      rw [← h4, memberTy_field hd h1]
    have hs := field_sim (G := G) (c := 0) hG H HT (wrapEnv_ok (.val (.wrapper t n) (.wrap n x))) (hd.fields f h1) (fun _ => h2) hr (by simp [fieldValOK, hok.1])
    have := result_agree hs (Tame.field HT true f x) (wrapEnv_ok _) buf
    simpa [wrapCall, hf] using this

end

/-- The emitted methods, called with enough depth, agree with `marshalToSizedN`. -/
theorem runSizedN_agree {G : GenCfg} {E : Env} (hG : G.OK E.S) (hS : schemaOK E.S = true) (tn : Members) (strict : Bool) : ∀ (N : Nat) (t : Nat) (v : Val),
    (E.S.msg t).foreign = false → (v.isNil || wtN E.S tn N t v) = true → ∀ K, 2 * N + 1 ≤ K → ∀ buf,
      CallAgree (marshalToSizedN E strict N t v buf) (runSizedN G E strict K (.msg t) v buf) := by
  intro N
  induction N with
  | zero =>
    intro t v hf hv K hK buf
    obtain ⟨K, rfl⟩ := Nat.exists_eq_add_of_le hK
    simp only [wtN, Bool.or_false] at hv
    cases v <;> simp [Val.isNil] at hv
    rw [show 2 * 0 + 1 + K = K + 1 by omega, runSizedN]
    exact sizedMethod_nil buf
  | succ N ih =>
    intro t v hf hv K hK buf
    obtain ⟨K, rfl⟩ : ∃ K', K = K' + 1 := ⟨K - 1, by omega⟩
    rw [runSizedN]
    by_cases hn : v.isNil = true
    · cases v <;> simp [Val.isNil] at hn
      exact sizedMethod_nil buf
    · have hv' : wtN E.S tn (N + 1) t v = true := by simpa [hn] using hv
      obtain ⟨slots, unk, ext, rfl⟩ : ∃ slots unk ext, v = .msg slots unk ext := by
        cases v <;> first | exact ⟨_, _, _, rfl⟩ | simp [wtN] at hv'
      simp only [wtN, hf, Bool.false_or, Bool.and_eq_true, List.all_eq_true] at hv'
      have hd := schemaOK_msg hS t
      have HT : ∀ t v, TameCall (marshalToSizedN E strict N t v) := TameCall.sized E strict N
      have H : ∀ K, 2 * N + 1 ≤ K → SubMarshal ⟨E.S, E.R, runSizeN G E K, runSizedN G E strict K⟩ (wtN E.S tn N) (marshalToSizedN E strict N) :=
        fun K hK t x hx hf => ih t x hf hx K hK
      refine sizedMethod_agree (C := ⟨E.S, E.R, runSizeN G E K, runSizedN G E strict K⟩) (tn := tn) hG (H K (by omega)) HT ?_ hd ?_ strict buf
      · intro t' slot n w hok hw buf
        obtain ⟨K, rfl⟩ : ∃ K', K = K' + 1 := ⟨K - 1, by omega⟩
        obtain ⟨f, hf, hr⟩ := sizedWrapper_agree (C := ⟨E.S, E.R, runSizeN G E K, runSizedN G E strict K⟩) (G := G) (tn := tn) hG (H K (by omega)) HT (schemaOK_msg hS t') hok hw
        simp only [runSizedN]
        simp only [] at hf
        rw [hf]
        exact hr buf
      · intro f hf
        exact hv'.2 f hf

/-- The emitted `MarshalVT`. -/
theorem runMarshal_eq {G : GenCfg} {E : Env} (hG : G.OK E.S) (hS : schemaOK E.S = true) (tn : Members) (strict : Bool) {t : Nat} {v : Val}
    (hf : (E.S.msg t).foreign = false) (hv : (v.isNil || wtM E.S tn t v) = true) {K : Nat} (hK : 2 * v.depth + 1 ≤ K) :
    runMarshal G E strict K t v = marshalVT E strict t v := by
  have hsz := runSizeN_eq hG hS tn v.depth t v hf hv K hK
  have hm := runSizedN_agree hG hS tn strict v.depth t v hf hv K hK
  by_cases hn : v.isNil = true
  · cases v <;> simp [Val.isNil] at hn
    simp [runMarshal, Emit.marshalMethod, exec, eval, evals, lookup, binG, isNilG, Val.isNil, truth, block, resultBytes, errG, marshalVT]
  · have hv' : wtM E.S tn t v = true := by simpa [hn] using hv
    obtain ⟨slots, unk, ext, rfl⟩ := wtN_shape hv'
    have hsz' : runSizeN G E K (.msg t) (.msg slots unk ext) = .ok (sizeVT E t (.msg slots unk ext) : Nat) := hsz
    have hm' := hm (List.replicate (sizeVT E t (.msg slots unk ext)) 0)
    have hm' : CallAgree (marshalToSized E strict t (.msg slots unk ext) (List.replicate (sizeVT E t (.msg slots unk ext)) 0))
      (runSizedN G E strict K (.msg t) (.msg slots unk ext) (List.replicate (sizeVT E t (.msg slots unk ext)) 0)) := hm'
    have hmv : marshalVT E strict t (.msg slots unk ext) =
        marshalToSized E strict t (.msg slots unk ext) (List.replicate (sizeVT E t (.msg slots unk ext)) 0) >>= fun r =>
          if r.2 ≤ r.1.length then .ok (some (r.1.take r.2)) else .panic .sliceOutOfRange := rfl
    rw [hmv]
    generalize sizeVT E t (.msg slots unk ext) = n at hsz' hm'
    unfold runMarshal Emit.marshalMethod
    generalize hv0 : Val.msg slots unk ext = v0 at hsz' hm'
    generalize hC : (⟨E.S, E.R, runSizeN G E K, runSizedN G E strict K⟩ : Ctx) = C
    have hCs : C.size (.msg t) v0 = .ok (n : Int) := by subst hC; exact hsz'
    have hCm : CallAgree (marshalToSized E strict t v0 (List.replicate n 0)) (C.marshal (.msg t) v0 (List.replicate n 0)) := by subst hC; exact hm'
    have h1 : exec C (.ite (.bin .eq (.id .m) .nil) (.ret [.nil, .nil]) .skip) ⟨[(.err, .err none), (.m, .val (.msg t) v0)], []⟩ =
        .ok (⟨[(.err, .err none), (.m, .val (.msg t) v0)], []⟩, .next) := by
      subst hv0
      simp [exec, eval, lookup, binG, isNilG, Val.isNil, truth, block, St.leave]
    have h2 : exec C (.define .size (.callSize (.id .m))) ⟨[(.err, .err none), (.m, .val (.msg t) v0)], []⟩ =
        .ok (⟨[(.size, .int n), (.err, .err none), (.m, .val (.msg t) v0)], []⟩, .next) := by
      simp [exec, eval, lookup, recvG, hCs, fresh]
    have h3 : exec C (.makeBuf (.id .size)) ⟨[(.size, .int n), (.err, .err none), (.m, .val (.msg t) v0)], []⟩ =
        .ok (⟨[(.size, .int n), (.err, .err none), (.m, .val (.msg t) v0)], List.replicate n 0⟩, .next) := by
      simp [exec, eval, lookup, intG]
    have h4 : exec C (.callMarshal .n (.id .m) .size) ⟨[(.size, .int n), (.err, .err none), (.m, .val (.msg t) v0)], List.replicate n 0⟩ =
        C.marshal (.msg t) v0 (List.replicate n 0) >>= fun q =>
          .ok (⟨(.n, .int q.2.1) :: (.err, .err q.2.2) :: [(.size, .int n), (.err, .err none), (.m, .val (.msg t) v0)], q.1⟩, .next) := by
      simp [exec, eval, lookup, intG, recvG, intVar]
    rw [exec_seq h1, exec_seq h2, exec_seq h3, exec, h4]
    revert hCm
    cases marshalToSized E strict t v0 (List.replicate n 0) with
    | ok r =>
      intro hm'
      have hm' : C.marshal (.msg t) v0 (List.replicate n 0) = .ok (r.1, (r.2 : Int), none) := hm'
      rw [hm']
      by_cases hle : r.2 ≤ r.1.length
      · simp [lookup, hle, resultBytes, errG, exec, eval, evals, St.leave, truth, intG, block, binG]
      · simp [lookup, hle, resultBytes, exec, eval, evals, St.leave, truth, intG, block, binG]
    | err e =>
      rintro ⟨b, k, hm'⟩
      rw [hm']
      simp [lookup, resultBytes, errG, exec, eval, evals, truth, block, binG]
    | panic p =>
      intro hm'
      have hm' : C.marshal (.msg t) v0 (List.replicate n 0) = .panic p := hm'
      rw [hm']; rfl
    | diverge =>
      intro hm'
      have hm' : C.marshal (.msg t) v0 (List.replicate n 0) = .diverge := hm'
      rw [hm']; rfl

/-- The emitted `MarshalToVT`. -/
theorem runMarshalTo_agree {G : GenCfg} {E : Env} (hG : G.OK E.S) (hS : schemaOK E.S = true) (tn : Members) (strict : Bool) {t : Nat} {v : Val}
    (hf : (E.S.msg t).foreign = false) (hv : (v.isNil || wtM E.S tn t v) = true) {K : Nat} (hK : 2 * v.depth + 1 ≤ K) (arr : Bytes) :
    CallAgree (marshalTo E strict t v arr) (runMarshalTo G E strict K t v arr) := by
  have hsz : runSizeN G E K (.msg t) v = .ok (sizeVT E t v : Nat) := runSizeN_eq hG hS tn v.depth t v hf hv K hK
  have hm : CallAgree (marshalToSized E strict t v (arr.take (sizeVT E t v))) (runSizedN G E strict K (.msg t) v (arr.take (sizeVT E t v))) :=
    runSizedN_agree hG hS tn strict v.depth t v hf hv K hK _
  unfold runMarshalTo Emit.marshalToMethod marshalTo
  simp only []
  generalize sizeVT E t v = n at hsz hm
  simp only [exec, eval, lookup, if_true, reduceCtorEq, if_false, Res.bind_ok, recvG, hsz, intG, fresh, intVar, Int.natCast_nonneg, true_and, Int.toNat_natCast,
    Nat.cast_le]
  by_cases hle : n ≤ arr.length
  · rw [if_pos hle, if_pos hle]
    revert hm
    cases marshalToSized E strict t v (arr.take n) with
    | ok r =>
      intro hm
      have hm : runSizedN G E strict K (.msg t) v (arr.take n) = .ok (r.1, (r.2 : Int), none) := hm
      rw [hm]
      exact rfl
    | err e =>
      rintro ⟨b, k, hm⟩
      rw [hm]
      exact ⟨_, _, rfl⟩
    | panic p =>
      intro hm
      have hm : runSizedN G E strict K (.msg t) v (arr.take n) = .panic p := hm
      rw [hm]; exact rfl
    | diverge =>
      intro hm
      have hm : runSizedN G E strict K (.msg t) v (arr.take n) = .diverge := hm
      rw [hm]; exact rfl
  · rw [if_neg hle, if_neg hle]
    exact rfl

end Vtp.Go
