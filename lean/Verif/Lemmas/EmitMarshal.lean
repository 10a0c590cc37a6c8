import Verif.Lemmas.EmitCalls
/-! The emitted `MarshalToSizedBufferVT` is `marshalToSized`. -/

namespace Vtp.Go
open Spec

section
variable {C : Ctx} {env : Int → List (Id × GV)} {mv : GV} {G : GenCfg} {okv : Nat → Val → Bool} {rec : Nat → Val → Bytes → Res (Bytes × Nat)}

/-- What the expression for the field gives, wherever the receiver is `mv`. -/
def FieldReads (C : Ctx) (mv : GV) (var : Expr) (T : GTy) (v : Val) : Prop :=
  ∀ env : Int → List (Id × GV), IEnv env mv → Gives C env var (.val T v)

theorem FieldReads.stays {var : Expr} {T : GTy} {v : Val} (hr : FieldReads C mv var T v) (h : IEnv env mv) : Stays C env var (.val T v) :=
  fun _ he => hr _ (h.temps he)

/-! Map entries -/

theorem varint_at (h : IEnv env mv) {e : Expr} {g : GV} {v : BitVec 64} {s : WState} (he : eval C ⟨env s.i, s.buf⟩ e = .ok g)
    (hg : wordG .uint64 g = .ok v) : Ends env (Writer.varint v s) (exec C (.encodeVarint e) ⟨env s.i, s.buf⟩) := by
  simp only [exec, he, Res.bind_ok, hg, intVar, h.get, intG, Writer.varint]
  unfold Vtp.encodeVarint
  simp only []
  cases hl : encodeVarintLoop 10 s.buf (s.i - sizeOfVarint v) v with
  | ok r => simp only [Res.bind_ok, setVar, h.set]; exact ⟨[], Temps.nil, rfl⟩
  | err e => exact absurd hl (encodeVarintLoop_noErr _ _ _ _ _)
  | panic p => exact rfl
  | diverge => exact rfl

/-- `encodeVarint(baseI - i)`. -/
theorem baseI_sim (h : IEnv env mv) (i0 : Int) (hl : ∀ i, lookup .baseI (env i) = .ok (.int i0)) :
    Sim C env (Emit.encodeVarint (.bin .sub (.id .baseI) (.id .i))) (fun s => Writer.varint (BitVec.ofInt 64 (i0 - s.i)) s) := fun s => by
  refine varint_at h (g := .val (.num .uint64) (.num (BitVec.ofInt 64 (i0 - s.i)))) ?_ (by simp [wordG])
  simp only [eval, hl, h.get, Res.bind_ok, binG, asInt, u64G]

theorem measured_seq {w k : Writer} (hw : Tame w) (s : WState) :
    Writer.seq (Writer.measured w) k s = Writer.seq w (Writer.seq (fun s' => Writer.varint (BitVec.ofInt 64 (s.i - s'.i)) s') k) s := by
  unfold Writer.seq Writer.measured
  cases h : w s with
  | ok s' =>
    have := (hw s s' h).2
    have hn : BitVec.ofInt 64 (s.i - s'.i) = u64 (s.i - s'.i).toNat := by
      rw [← ofInt_nat, Int.toNat_of_nonneg (by omega)]
    simp only [Res.bind_ok, hn]
  | err e => rfl
  | panic p => rfl
  | diverge => rfl

theorem mapKey_scalar {G : GenCfg} {k : Kind} (hk : k ≠ .message) (t : Nat) (x : Expr) : Emit.mapField G k t x = Emit.scalar k x := by
  cases k <;> first | rfl | exact absurd rfl hk

/-- The code for the value of a map entry. -/
def entryValue (E : Env) (rec : Nat → Val → Bytes → Res (Bytes × Nat)) (md : MapDesc) (x : Val) : Writer :=
  if md.val = .message then Writer.measured (marshalSub E rec md.valMsg x) else marshalScalar md.val x

theorem marshalEntry_eq (E : Env) (num wt : Nat) (md : MapDesc) (e : Key × Val) : marshalEntry E rec num wt md e =
    Writer.seq (Writer.measured (Writer.seq (entryValue E rec md e.2) (Writer.seq (Writer.key 2 (protoWireType md.val))
      (Writer.seq (marshalScalar md.key e.1.toVal) (Writer.key 1 (protoWireType md.key)))))) (Writer.key num wt) := by
  obtain ⟨kk, vk, vm⟩ := md
  cases vk <;> rfl

/-- Leaving a block, whatever it declared. -/
theorem block_ends' (h : IEnv env mv) {bind bind' : List (Id × GV)} {f : St → Res (St × Ctrl)}
    {i : Int} {buf : Bytes} {o : Res WState} (H : Ends (fun i => bind' ++ env i) o (f ⟨bind ++ env i, buf⟩)) :
    EndsE env o (block bind f ⟨env i, buf⟩) := by
  unfold block
  cases o with
  | ok s =>
    obtain ⟨ext, -, hr⟩ := H
    rw [hr]
    simp only [Res.bind_ok, EndsE, St.leave]
    have : (ext ++ (bind' ++ env s.i)).drop ((ext ++ (bind' ++ env s.i)).length - (env i).length) = env s.i := by
      rw [h.length s.i i, ← List.append_assoc, List.length_append, Nat.add_sub_cancel, List.drop_left]
    rw [this]
  | err e =>
    obtain ⟨v, hr⟩ := H
    rw [hr]
    exact ⟨_, rfl⟩
  | panic p =>
    have hr : f ⟨bind ++ env i, buf⟩ = .panic p := H
    simp only [hr]; exact rfl
  | diverge =>
    have hr : f ⟨bind ++ env i, buf⟩ = .diverge := H
    simp only [hr]; exact rfl

/-- The body of the loop, in its block. -/
theorem entry_ends (hG : G.OK C.S) (H : SubMarshal C okv rec) (HT : ∀ t v, TameCall (rec t v)) (h : IEnv env mv) {var : Expr} {md : MapDesc} {v : Val}
    (hk : mapKeyKind md.key = true) (hg : md.val ≠ .group) (hr : FieldReads C mv var (.map md) v) (hnd : (v.entries.map (·.1)).Nodup)
    {e : Key × Val} (he : e ∈ v.entries) (hok : scalarOK md.key e.1.toVal = true) (hov : elemOK okv md.val md.valMsg e.2 = true) (num wt : Nat) (s : WState) :
    EndsE env (marshalEntry ⟨C.S, C.R⟩ rec num wt md e s)
      (block [(.k, .val (elemTy md.key 0) e.1.toVal)] (exec C (.define .v (.index var (.id .k)) ;; .define .baseI (.id .i) ;;
        Emit.mapField G md.val md.valMsg (.id .v) ;; Emit.encodeKey 2 (protoWireType md.val) ;;
        Emit.mapField G md.key 0 (.id .k) ;; Emit.encodeKey 1 (protoWireType md.key) ;;
        Emit.encodeVarint (.bin .sub (.id .baseI) (.id .i)) ;; Emit.encodeKey num wt)) ⟨env s.i, s.buf⟩) := by
  let gk : GV := .val (elemTy md.key 0) e.1.toVal
  let gv : GV := .val (elemTy md.val md.valMsg) e.2
  let bind : List (Id × GV) := [(.baseI, .int s.i), (.v, gv), (.k, gk)]
  have hbind : IEnv (fun i => bind ++ env i) mv := h.skip (by simp [bind])
  have hk1 : IEnv (fun i => (.k, gk) :: env i) mv := h.cons _ (by simp) (by simp)
  have hd1 : exec C (.define .v (.index var (.id .k))) ⟨(.k, gk) :: env s.i, s.buf⟩ = .ok (⟨(.v, gv) :: (.k, gk) :: env s.i, s.buf⟩, .next) := by
    have hv := hr _ hk1 s.i s.buf
    simp only [exec, eval, hv, Res.bind_ok, lookup, if_true]
    have ha : asKey e.1.toVal = some e.1 := by cases e.1 <;> rfl
    have hfind : v.entries.find? (fun e' => e'.1 == e.1) = some e := by
      rw [List.find?_eq_some_iff_append]
      obtain ⟨as, bs, hab⟩ := List.append_of_mem he
      refine ⟨by simp, as, bs, hab, fun a ha => ?_⟩
      rw [hab, List.map_append, List.map_cons] at hnd
      have := (List.nodup_append.1 hnd).2.2 a.1 (List.mem_map.2 ⟨a, ha, rfl⟩) e.1 (by simp)
      simpa using this
    simp only [gk, indexG, ha, hfind, Res.bind_ok]
    rfl
  have hd2 : exec C (.define .baseI (.id .i)) ⟨(.v, gv) :: (.k, gk) :: env s.i, s.buf⟩ = .ok (⟨bind ++ env s.i, s.buf⟩, .next) := by
    simp only [exec, eval, lookup, reduceCtorEq, if_false, h.get, Res.bind_ok]
    rfl
  have hsv : Stays C (fun i => bind ++ env i) (.id .v) gv := Stays.id rfl fun i => by simp [bind, lookup]
  have hsk : Stays C (fun i => bind ++ env i) (.id .k) gk := Stays.id rfl fun i => by simp [bind, lookup]
  have hkm : md.key ≠ .message := by intro hh; rw [hh] at hk; simp [mapKeyKind] at hk
  have hval : Sim C (fun i => bind ++ env i) (Emit.mapField G md.val md.valMsg (.id .v)) (entryValue ⟨C.S, C.R⟩ rec md e.2) := by
    unfold entryValue
    by_cases hm : md.val = .message
    · have hsv' := hsv.gives
      have : gv = .val (.msg md.valMsg) e.2 := by simp [gv, hm, elemTy]
      rw [this] at hsv'
      rw [if_pos hm, hm]
      rw [hm] at hov
      exact backward_sim hG H hbind true hov hsv'
    · rw [mapKey_scalar hm, if_neg hm]
      refine scalar_sim hbind ?_ hsv
      revert hov
      cases hh : md.val <;> first | exact absurd hh hm | exact absurd hh hg | exact id
  have htv : Tame (entryValue ⟨C.S, C.R⟩ rec md e.2) := Tame.ite (Tame.sub HT _ _).measured (Tame.scalar _ _)
  have hfull := hval.seq fun ext hx => (key_sim (C := C) (hbind.temps hx) 2 (protoWireType md.val)).seq fun ext' hx' =>
    (scalar_sim ((hbind.temps hx).temps hx') hok ((hsk.temps hx).temps hx')).seq fun ext2 hx2 =>
      (key_sim (C := C) (((hbind.temps hx).temps hx').temps hx2) 1 (protoWireType md.key)).seq fun ext3 hx3 =>
        (baseI_sim (C := C) ((((hbind.temps hx).temps hx').temps hx2).temps hx3) s.i (fun i => by
          rw [lookup_temps hx3 rfl, lookup_temps hx2 rfl, lookup_temps hx' rfl, lookup_temps hx rfl]
          simp [bind, lookup])).seq fun ext4 hx4 => key_sim (((((hbind.temps hx).temps hx').temps hx2).temps hx3).temps hx4) num wt
  have hfin := hfull s
  have hw : ∀ (V : Writer), Tame V → Writer.seq (Writer.measured (Writer.seq V (Writer.seq (Writer.key 2 (protoWireType md.val))
      (Writer.seq (marshalScalar md.key e.1.toVal) (Writer.key 1 (protoWireType md.key)))))) (Writer.key num wt) s =
      Writer.seq V (Writer.seq (Writer.key 2 (protoWireType md.val)) (Writer.seq (marshalScalar md.key e.1.toVal) (Writer.seq (Writer.key 1 (protoWireType md.key))
        (Writer.seq (fun s' => Writer.varint (BitVec.ofInt 64 (s.i - s'.i)) s') (Writer.key num wt))))) s := by
    intro V hV
    rw [measured_seq (hV.seq ((Tame.key _ _).seq ((Tame.scalar _ _).seq (Tame.key _ _))))]
    simp only [seq_assoc]
  rw [marshalEntry_eq, hw _ htv]
  refine block_ends' h (bind := [(.k, gk)]) (bind' := bind) ?_
  show Ends (fun i => bind ++ env i) _ (exec C _ ⟨(.k, gk) :: env s.i, s.buf⟩)
  rw [exec_seq hd1, exec_seq hd2, mapKey_scalar hkm]
  exact hfin

/-- The map branch. -/
theorem map_sim (hG : G.OK C.S) (H : SubMarshal C okv rec) (HT : ∀ t v, TameCall (rec t v)) (h : IEnv env mv) {var : Expr} {md : MapDesc} {v : Val}
    (hk : mapKeyKind md.key = true) (hg : md.val ≠ .group) (hr : FieldReads C mv var (.map md) v) (hnd : (v.entries.map (·.1)).Nodup)
    (hok : ∀ e ∈ v.entries, scalarOK md.key e.1.toVal = true ∧ elemOK okv md.val md.valMsg e.2 = true) (num wt : Nat) :
    Sim C env (Emit.mapMarshal G var num wt md) (Writer.each (marshalEntry ⟨C.S, C.R⟩ rec num wt md) v.entries) := fun s => by
  unfold Emit.mapMarshal
  rw [exec, hr env h]
  simp only [Res.bind_ok, rangeG]
  rw [loop_map]
  exact (loop_ends v.entries (fun e he s => entry_ends hG H HT h hk hg hr hnd he (hok e he).1 (hok e he).2 num wt s) s).ends

/-! Fields -/

theorem eval_nonZero {k : Kind} {s : St} {var : Expr} {t : Nat} {v : Val} (hk : scalarOK k v = true) (h : eval C s var = .ok (.val (elemTy k t) v)) :
    (eval C s (Emit.nonZero k var) >>= truth) = .ok (!isZeroVal k v) := by
  by_cases hn : numeric k = true
  · obtain ⟨x, rfl⟩ := scalar_num hn hk
    rw [elemTy_num hn] at h
    rw [isZeroVal_num hn]
    by_cases hb : k = .bool
    · subst hb
      simp [Emit.nonZero, h, truth, numTy, isZeroNum, Val.bits, bne]
    · have : Emit.nonZero k var = .bin .ne var (.lit 0) := by
        cases k <;> first | rfl | exact absurd rfl hb | simp [numeric] at hn
      rw [this]
      simp [eval, h, binG, truth, isZeroTy_eq hn, Val.bits]
  · cases k <;> simp [numeric] at hn
    case message => simp [scalarOK] at hk
    case group => simp [scalarOK] at hk
    all_goals
      simp [Emit.nonZero, eval, h, elemTy, lenG, binG, asInt, truth, isZeroVal]
      cases v.bytes <;> simp

/-- The branches of scalars that are not packed. -/
def plainMarshal (oneof nullable : Bool) (c : Nat) (var : Expr) (f : FieldDesc) (wt : Nat) : Stmt :=
  if f.card == .repeated then Emit.reverseRange var fun x => Emit.elem c f.kind x ;; Emit.encodeKey f.num wt
  else if nullable then Emit.scalar f.kind (.star var) ;; Emit.encodeKey f.num wt
  else if !oneof then .ite (Emit.nonZero f.kind var) (Emit.scalar f.kind var ;; Emit.encodeKey f.num wt) .skip
  else Emit.scalar f.kind var ;; Emit.encodeKey f.num wt

theorem repeated_sim (h : IEnv env mv) {c : Nat} {var : Expr} {k : Kind} {t num wt : Nat} {v : Val} (hr : FieldReads C mv var (.list k t) v)
    (hok : ∀ e ∈ v.elems, scalarOK k e = true) :
    Sim C env (Emit.reverseRange var fun x => Emit.elem c k x ;; Emit.encodeKey num wt)
      (Writer.each (fun x => Writer.seq (marshalScalar k x) (Writer.key num wt)) v.elems.reverse) :=
  reverse_sim h (fun j => hr.stays (h.cons _ (by simp) (by simp))) (hr _ h) fun x hx env' e' h' he' =>
    (elem_sim h' (hok x hx) he').seq fun ext hx => key_sim (h'.temps hx) _ _

theorem plain_sim (h : IEnv env mv) {o nullable : Bool} {c wt : Nat} {var : Expr} {f : FieldDesc} {v : Val}
    (hr : f.card = .repeated → FieldReads C mv var (.list f.kind f.msg) v ∧ ∀ e ∈ v.elems, scalarOK f.kind e = true)
    (hs : f.card ≠ .repeated → (if nullable then FieldReads C mv var (.ptr f.kind) v ∧ v.isNil = false else FieldReads C mv var (elemTy f.kind f.msg) v) ∧
      scalarOK f.kind v = true) :
    Sim C env (plainMarshal o nullable c var f wt)
      (if f.card == .repeated then Writer.each (fun x => Writer.seq (marshalScalar f.kind x) (Writer.key f.num wt)) v.elems.reverse
       else if !o && !nullable && isZeroVal f.kind v then Writer.skip else Writer.seq (marshalScalar f.kind v) (Writer.key f.num wt)) := by
  unfold plainMarshal
  by_cases h1 : f.card = .repeated
  · simp only [h1, beq_self_eq_true, if_true]
    obtain ⟨ha, hb⟩ := hr h1
    exact repeated_sim h ha hb
  · simp only [beq_eq_false_iff_ne.2 h1, Bool.false_eq_true, if_false]
    obtain ⟨ha, hb⟩ := hs h1
    cases nullable with
    | true =>
      simp only [if_true] at ha
      simp only [if_true, Bool.not_true, Bool.and_false, Bool.false_and, Bool.false_eq_true, if_false]
      refine (scalar_sim h (t := 0) hb fun ext hx i buf => ?_).seq fun ext hx => key_sim (h.temps hx) _ _
      have := ha.1 _ (h.temps hx) i buf
      simp only [eval, this, Res.bind_ok, starG, ha.2, Bool.false_eq_true, if_false]
    | false =>
      simp only [Bool.false_eq_true, if_false] at ha
      have hsc : ∀ env, IEnv env mv → Sim C env (Emit.scalar f.kind var ;; Emit.encodeKey f.num wt) (Writer.seq (marshalScalar f.kind v) (Writer.key f.num wt)) :=
        fun env h => (scalar_sim h hb (ha.stays h)).seq fun ext hx => key_sim (h.temps hx) _ _
      cases o with
      | true => simpa using hsc env h
      | false =>
        simp only [Bool.not_false, if_true, Bool.false_eq_true, if_false, Bool.true_and]
        refine (Sim.ite h (t := !isZeroVal f.kind v) (fun i buf => eval_nonZero hb (ha _ h i buf)) (fun _ => hsc env h) fun _ => Sim.skip).cast ?_
        cases isZeroVal f.kind v <;> rfl

theorem fixedMarshal_sim (h : IEnv env mv) {o nullable : Bool} {c wt n : Nat} {var total : Expr} {f : FieldDesc} {v : Val}
    (hp : f.packed = true → f.card = .repeated)
    (ht : f.packed = true → ∀ env, IEnv env mv → ∃ g, Gives C env total g ∧ u64G g = .ok (.val (.num .uint64) (.num (u64 (v.elems.length * n)))))
    (hr : f.card = .repeated → FieldReads C mv var (.list f.kind f.msg) v ∧ ∀ e ∈ v.elems, scalarOK f.kind e = true)
    (hs : f.card ≠ .repeated → (if nullable then FieldReads C mv var (.ptr f.kind) v ∧ v.isNil = false else FieldReads C mv var (elemTy f.kind f.msg) v) ∧
      scalarOK f.kind v = true) :
    Sim C env (Emit.fixedMarshal o nullable c var total f wt)
      (if f.packed then Writer.seq (Writer.each (marshalScalar f.kind) v.elems.reverse) (Writer.seq (Writer.varint (u64 (v.elems.length * n))) (Writer.key f.num wt))
       else if f.card == .repeated then Writer.each (fun x => Writer.seq (marshalScalar f.kind x) (Writer.key f.num wt)) v.elems.reverse
       else if !o && !nullable && isZeroVal f.kind v then Writer.skip else Writer.seq (marshalScalar f.kind v) (Writer.key f.num wt)) := by
  by_cases h1 : f.packed = true
  · unfold Emit.fixedMarshal
    simp only [h1, if_true]
    obtain ⟨ha, hb⟩ := hr (hp h1)
    refine (reverse_sim h (fun j => ha.stays (h.cons _ (by simp) (by simp))) (ha _ h) fun x hx env' e' h' he' => elem_sim h' (hb x hx) he').seq
      fun ext hx => ?_
    obtain ⟨g, hg, hu⟩ := ht h1 _ (h.temps hx)
    exact (varint_sim (h.temps hx) hg hu).seq fun ext' hx' => key_sim ((h.temps hx).temps hx') _ _
  · have := plain_sim h (o := o) (c := c) (wt := wt) hr hs
    unfold Emit.fixedMarshal
    simp only [h1, Bool.false_eq_true, if_false]
    exact this

theorem varintMarshal_sim (h : IEnv env mv) {z o nullable : Bool} {c wt : Nat} {var : Expr} {f : FieldDesc} {v : Val}
    (hn : numeric f.kind = true) (hi : (numTy f.kind).isInt = true) (hk : varintKind f.kind = true)
    (hz : ∀ x : BitVec 64, sizeScalar f.kind (.num x) = if z then sizeOfZigzag x else sizeOfVarint x)
    (hp : f.packed = true → f.card = .repeated)
    (hr : f.card = .repeated → FieldReads C mv var (.list f.kind f.msg) v ∧ ∀ e ∈ v.elems, scalarOK f.kind e = true)
    (hs : f.card ≠ .repeated → (if nullable then FieldReads C mv var (.ptr f.kind) v ∧ v.isNil = false else FieldReads C mv var (elemTy f.kind f.msg) v) ∧
      scalarOK f.kind v = true) :
    Sim C env (Emit.varintMarshal (if z then Expr.soz else Expr.sov) o nullable c var f wt)
      (if f.packed then (fun s =>
          packedVarints (v.elems.map (wireVarint f.kind)) s.buf (s.i - (v.elems.map (sizeScalar f.kind)).sum) >>= fun buf =>
            Writer.seq (Writer.varint (u64 (v.elems.map (sizeScalar f.kind)).sum)) (Writer.key f.num wt) ⟨buf, s.i - (v.elems.map (sizeScalar f.kind)).sum⟩)
       else if f.card == .repeated then Writer.each (fun x => Writer.seq (marshalScalar f.kind x) (Writer.key f.num wt)) v.elems.reverse
       else if !o && !nullable && isZeroVal f.kind v then Writer.skip else Writer.seq (marshalScalar f.kind v) (Writer.key f.num wt)) := by
  by_cases h1 : f.packed = true
  · unfold Emit.varintMarshal
    simp only [h1, if_true]
    obtain ⟨ha, hb⟩ := hr (hp h1)
    exact packedVarint_sim h hn hi hk hz hb (ha.stays h)
  · have := plain_sim h (o := o) (c := c) (wt := wt) hr hs
    unfold Emit.varintMarshal
    simp only [h1, Bool.false_eq_true, if_false]
    exact this

theorem stringMarshal_eq {o nullable : Bool} {c : Nat} {var : Expr} {f : FieldDesc} {wt : Nat} (hk : f.kind = .string) :
    Emit.stringMarshal o nullable var f wt = plainMarshal o nullable c var f wt := by
  unfold Emit.stringMarshal plainMarshal
  rw [hk]
  rfl

theorem bytesMarshal_sim (h : IEnv env mv) {o nullable : Bool} {wt : Nat} {var : Expr} {f : FieldDesc} {v : Val} (hk : f.kind = .bytes)
    (hn : nullable = (!o && f.presence))
    (hr : f.card = .repeated → FieldReads C mv var (.list f.kind f.msg) v ∧ ∀ e ∈ v.elems, scalarOK f.kind e = true)
    (hs : f.card ≠ .repeated → FieldReads C mv var .bytes v ∧ scalarOK f.kind v = true) :
    Sim C env (Emit.bytesMarshal o var f wt)
      (if f.card == .repeated then Writer.each (fun x => Writer.seq (marshalScalar f.kind x) (Writer.key f.num wt)) v.elems.reverse
       else if !o && !nullable && isZeroVal f.kind v then Writer.skip else Writer.seq (marshalScalar f.kind v) (Writer.key f.num wt)) := by
  unfold Emit.bytesMarshal
  by_cases h1 : f.card = .repeated
  · simp only [h1, beq_self_eq_true, if_true]
    obtain ⟨ha, hb⟩ := hr h1
    have := repeated_sim (C := C) (c := 0) (num := f.num) (wt := wt) h ha hb
    rw [hk] at this ⊢
    exact this
  · simp only [beq_eq_false_iff_ne.2 h1, Bool.false_eq_true, if_false]
    obtain ⟨ha, hb⟩ := hs h1
    have hT : (GTy.bytes) = elemTy f.kind f.msg := by rw [hk]; rfl
    have hsc : Sim C env (Emit.copyBytes var ;; Emit.encodeKey f.num wt) (Writer.seq (marshalScalar f.kind v) (Writer.key f.num wt)) := by
      rw [hk]
      exact (copyBytes_sim h (.inr rfl) (ha.stays h)).seq fun ext hx => key_sim (h.temps hx) _ _
    rw [hT] at ha
    by_cases h2 : (!o && !f.presence) = true
    · simp only [h2, if_true]
      simp only [Bool.and_eq_true, Bool.not_eq_true'] at h2
      have he : ∀ i buf, (eval C ⟨env i, buf⟩ (.bin .gt (.len var) (.lit 0)) >>= truth) = .ok (!isZeroVal f.kind v) := fun i buf => by
        have := eval_nonZero hb (ha _ h i buf)
        rw [hk] at this ⊢
        exact this
      refine (Sim.ite h he (fun _ => hsc) fun _ => Sim.skip).cast ?_
      rw [hn, h2.1, h2.2]
      cases isZeroVal f.kind v <;> rfl
    · rw [if_neg h2]
      refine hsc.cast ?_
      have : (!o && !nullable && isZeroVal f.kind v) = false := by
        rw [hn]
        revert h2
        cases o <;> cases f.presence <;> simp
      rw [this]
      simp

theorem body_sim (hG : G.OK C.S) (H : SubMarshal C okv rec) (HT : ∀ t v, TameCall (rec t v)) (h : IEnv env mv) {d : MsgDesc} {o : Bool} {c : Nat}
    {var : Expr} {f : FieldDesc} {v : Val} (ff : FieldFacts d f) (ho : o = true → f.oneof = true)
    (hv : FieldReads C mv var (fieldValTy o f) v) (hok : fieldValOK okv o f v = true)
    (hn : f.card ≠ .repeated → (f.hasMessage || (!o && f.presence)) = true → v.isNil = false) :
    Sim C env (Emit.marshalBody G o c var f) (Vtp.marshalFieldBody ⟨C.S, C.R⟩ rec o f v) := by
  have hor : o = true → f.card ≠ .repeated := fun h => by rw [(ff.oneof (ho h)).1]; simp
  have hof : f.card = .repeated → o = false := fun h => by
    cases o with
    | false => rfl
    | true => exact absurd h (hor rfl)
  have hmap1 : f.card ≠ .repeated → f.map = none := fun h => by
    cases hm : f.map with
    | none => rfl
    | some md => exact absurd (ff.map md hm).1 h
  have hmap2 : f.kind ≠ .message → f.map = none := fun h => by
    cases hm : f.map with
    | none => rfl
    | some md => exact absurd (ff.map md hm).2.1 h
  have hlist : f.card = .repeated → f.map = none → FieldReads C mv var (.list f.kind f.msg) v ∧ ∀ e ∈ v.elems, elemOK okv f.kind f.msg e = true := by
    intro h1 h2
    have h3 := hof h1
    subst h3
    simp only [fieldValTy, fieldValOK, Bool.false_eq_true, if_false, fieldTy, fieldOK, h2, h1, beq_self_eq_true, if_true] at hv hok
    refine ⟨hv, ?_⟩
    cases v <;> simp [Val.elems] at hok ⊢
    exact hok.1
  have hscal : f.card ≠ .repeated → f.hasMessage = false →
      (f.kind ≠ .bytes → if (!o && f.presence) then FieldReads C mv var (.ptr f.kind) v else FieldReads C mv var (elemTy f.kind f.msg) v) ∧
      (f.kind = .bytes → FieldReads C mv var .bytes v) ∧ scalarOK f.kind v = true := by
    intro h1 h2
    have h3 := hmap1 h1
    have hel : elemOK okv f.kind f.msg v = scalarOK f.kind v := by
      cases hk : f.kind <;> simp [FieldDesc.hasMessage, hk] at h2 <;> rfl
    cases o with
    | true =>
      simp only [fieldValTy, fieldValOK, if_true] at hv hok
      rw [hel] at hok
      refine ⟨fun _ => by simpa using hv, fun hb => ?_, hok⟩
      rw [hb] at hv; exact hv
    | false =>
      simp only [fieldValTy, fieldValOK, Bool.false_eq_true, if_false, fieldTy, fieldOK, h3, beq_eq_false_iff_ne.2 h1, h2] at hv hok
      refine ⟨fun hb => ?_, fun hb => ?_, ?_⟩
      · simp only [beq_eq_false_iff_ne.2 hb, Bool.false_eq_true, if_false] at hv
        cases hp : f.presence <;> simp [hp] at hv ⊢ <;> exact hv
      · simpa [hb] using hv
      · cases hp : f.presence with
        | false => simpa [hp] using hok
        | true =>
          have := hn h1 (by simp [hp])
          simp only [hp, if_true, this, Bool.false_or] at hok
          rw [← hel]; exact hok
  have hpk : f.packed = true → f.card = .repeated := fun h => (ff.packed h).1
  have hmsg : f.card ≠ .repeated → f.hasMessage = true → FieldReads C mv var (.msg f.msg) v ∧ (v.isNil || okv f.msg v) = true := by
    intro h1 h2
    have h3 := hmap1 h1
    have hel : elemTy f.kind f.msg = .msg f.msg ∧ elemOK okv f.kind f.msg v = (v.isNil || okv f.msg v) := by
      cases hk : f.kind <;> simp [FieldDesc.hasMessage, hk] at h2 <;> exact ⟨rfl, rfl⟩
    cases o with
    | true =>
      simp only [fieldValTy, fieldValOK, if_true] at hv hok
      rw [hel.1] at hv; rw [hel.2] at hok
      exact ⟨hv, hok⟩
    | false =>
      simp only [fieldValTy, fieldValOK, Bool.false_eq_true, if_false, fieldTy, fieldOK, h3, beq_eq_false_iff_ne.2 h1, h2, if_true, ff.singMsg h1 h2] at hv hok
      rw [hel.2] at hok
      refine ⟨hv, ?_⟩
      revert hok
      cases v.isNil <;> simp
  have hnum : numeric f.kind = true → f.hasMessage = false ∧ f.kind ≠ .bytes ∧ f.kind ≠ .message ∧ ∀ e, elemOK okv f.kind f.msg e = scalarOK f.kind e := by
    intro h
    cases hk : f.kind <;> simp [numeric, hk] at h <;> exact ⟨by simp [FieldDesc.hasMessage, hk], by simp, by simp, fun e => rfl⟩
  -- the two hypotheses of the lemmas on scalars
  have hrep : f.kind ≠ .message → (∀ e, elemOK okv f.kind f.msg e = scalarOK f.kind e) → f.card = .repeated →
      FieldReads C mv var (.list f.kind f.msg) v ∧ ∀ e ∈ v.elems, scalarOK f.kind e = true := by
    intro h3 h4 hc
    obtain ⟨ha, hb⟩ := hlist hc (hmap2 h3)
    exact ⟨ha, fun e he => by rw [← h4]; exact hb e he⟩
  have hsing : f.hasMessage = false → f.kind ≠ .bytes → f.card ≠ .repeated →
      (if (f.hasMessage || (!o && f.presence)) then FieldReads C mv var (.ptr f.kind) v ∧ v.isNil = false else FieldReads C mv var (elemTy f.kind f.msg) v) ∧
      scalarOK f.kind v = true := by
    intro h1 h2 hc
    obtain ⟨ha, -, hb⟩ := hscal hc h1
    refine ⟨?_, hb⟩
    have hn' := hn hc
    rw [h1] at hn' ⊢
    have ha := ha h2
    simp only [Bool.false_or] at hn' ⊢
    by_cases hq : (!o && f.presence) = true
    · rw [if_pos hq] at ha ⊢
      exact ⟨ha, hn' hq⟩
    · rw [if_neg hq] at ha ⊢
      exact ha
  have hfixed : numeric f.kind = true → ∀ (total : Expr) (n : Nat),
      (f.packed = true → ∀ env, IEnv env mv → ∃ g, Gives C env total g ∧ u64G g = .ok (.val (.num .uint64) (.num (u64 (v.elems.length * n))))) →
      Sim C env (Emit.fixedMarshal o (f.hasMessage || (!o && f.presence)) c var total f (if f.packed then 2 else protoWireType f.kind)) _ :=
    fun hnk total n ht => fixedMarshal_sim h hpk ht (hrep (hnum hnk).2.2.1 (hnum hnk).2.2.2) (hsing (hnum hnk).1 (hnum hnk).2.1)
  have hlenG : f.packed = true → ∀ env, IEnv env mv → Gives C env (.len var) (.int v.elems.length) := by
    intro hp env' h' i buf
    have := (hlist (hpk hp) (ff.packed hp).2.1).1 env' h' i buf
    simp [eval, this, lenG]
  have hmul : ∀ n : Nat, f.packed = true → ∀ env, IEnv env mv →
      ∃ g, Gives C env (.bin .mul (.len var) (.lit n)) g ∧ u64G g = .ok (.val (.num .uint64) (.num (u64 (v.elems.length * n)))) := by
    intro n hp env' h'
    refine ⟨.int (v.elems.length * n : Nat), fun i buf => ?_, by simp only [u64G, ofInt_nat]⟩
    have := hlenG hp env' h' i buf
    rw [eval, this]
    simp [eval, binG, asInt]
  have hlen1 : f.packed = true → ∀ env, IEnv env mv →
      ∃ g, Gives C env (.len var) g ∧ u64G g = .ok (.val (.num .uint64) (.num (u64 (v.elems.length * 1)))) := by
    intro hp env' h'
    exact ⟨_, hlenG hp env' h', by simp only [u64G, ofInt_nat, mul_one]⟩
  have hvar : numeric f.kind = true → (numTy f.kind).isInt = true → varintKind f.kind = true → ∀ z : Bool,
      (∀ x : BitVec 64, sizeScalar f.kind (.num x) = if z then sizeOfZigzag x else sizeOfVarint x) →
      Sim C env (Emit.varintMarshal (if z then Expr.soz else Expr.sov) o (f.hasMessage || (!o && f.presence)) c var f (if f.packed then 2 else protoWireType f.kind)) _ :=
    fun hnk hi hvk z hz => varintMarshal_sim h hnk hi hvk hz hpk (hrep (hnum hnk).2.2.1 (hnum hnk).2.2.2) (hsing (hnum hnk).1 (hnum hnk).2.1)
  unfold Emit.marshalBody Vtp.marshalFieldBody
  cases hk : f.kind <;> simp only []
  case double => have := hfixed (by rw [hk]; rfl) (.bin .mul (.len var) (.lit 8)) 8 (hmul 8); simpa only [hk, Bool.false_eq_true, if_false, if_true] using this
  case fixed64 => have := hfixed (by rw [hk]; rfl) (.bin .mul (.len var) (.lit 8)) 8 (hmul 8); simpa only [hk, Bool.false_eq_true, if_false, if_true] using this
  case sfixed64 => have := hfixed (by rw [hk]; rfl) (.bin .mul (.len var) (.lit 8)) 8 (hmul 8); simpa only [hk, Bool.false_eq_true, if_false, if_true] using this
  case float => have := hfixed (by rw [hk]; rfl) (.bin .mul (.len var) (.lit 4)) 4 (hmul 4); simpa only [hk, Bool.false_eq_true, if_false, if_true] using this
  case fixed32 => have := hfixed (by rw [hk]; rfl) (.bin .mul (.len var) (.lit 4)) 4 (hmul 4); simpa only [hk, Bool.false_eq_true, if_false, if_true] using this
  case sfixed32 => have := hfixed (by rw [hk]; rfl) (.bin .mul (.len var) (.lit 4)) 4 (hmul 4); simpa only [hk, Bool.false_eq_true, if_false, if_true] using this
  case bool => have := hfixed (by rw [hk]; rfl) (.len var) 1 hlen1; simpa only [hk, Bool.false_eq_true, if_false, if_true] using this
  case int64 => have := hvar (by rw [hk]; rfl) (by rw [hk]; rfl) (by rw [hk]; rfl) false (by rw [hk]; intro; rfl); simpa only [hk, Bool.false_eq_true, if_false, if_true] using this
  case uint64 => have := hvar (by rw [hk]; rfl) (by rw [hk]; rfl) (by rw [hk]; rfl) false (by rw [hk]; intro; rfl); simpa only [hk, Bool.false_eq_true, if_false, if_true] using this
  case uint32 => have := hvar (by rw [hk]; rfl) (by rw [hk]; rfl) (by rw [hk]; rfl) false (by rw [hk]; intro; rfl); simpa only [hk, Bool.false_eq_true, if_false, if_true] using this
  case enum => have := hvar (by rw [hk]; rfl) (by rw [hk]; rfl) (by rw [hk]; rfl) false (by rw [hk]; intro; rfl); simpa only [hk, Bool.false_eq_true, if_false, if_true] using this
  case int32 => have := hvar (by rw [hk]; rfl) (by rw [hk]; rfl) (by rw [hk]; rfl) false (by rw [hk]; intro; rfl); simpa only [hk, Bool.false_eq_true, if_false, if_true] using this
  case sint32 => have := hvar (by rw [hk]; rfl) (by rw [hk]; rfl) (by rw [hk]; rfl) true (by rw [hk]; intro; rfl); simpa only [hk, Bool.false_eq_true, if_false, if_true] using this
  case sint64 => have := hvar (by rw [hk]; rfl) (by rw [hk]; rfl) (by rw [hk]; rfl) true (by rw [hk]; intro; rfl); simpa only [hk, Bool.false_eq_true, if_false, if_true] using this
  case string =>
    have hm : f.hasMessage = false := by simp [FieldDesc.hasMessage, hk]
    rw [stringMarshal_eq (c := 0) hk]
    have := plain_sim (C := C) (f := f) (o := o) (c := 0) (wt := if f.packed then 2 else protoWireType f.kind) h
      (hrep (by simp [hk]) (by intro e; rw [hk]; rfl)) (hsing hm (by simp [hk]))
    simpa only [hk] using this
  case bytes =>
    have hm : f.hasMessage = false := by simp [FieldDesc.hasMessage, hk]
    have := bytesMarshal_sim (C := C) (f := f) (o := o) (nullable := f.hasMessage || (!o && f.presence)) (wt := if f.packed then 2 else protoWireType f.kind) h hk
      (by simp [hm]) (hrep (by simp [hk]) (by intro e; rw [hk]; rfl)) (fun hc => ⟨(hscal hc hm).2.1 hk, (hscal hc hm).2.2⟩)
    simpa only [hk] using this
  case group =>
    have hm : f.hasMessage = true := by simp [FieldDesc.hasMessage, hk]
    have hc : f.card ≠ .repeated := fun h => (ff.rep h).2.1 hk
    obtain ⟨ha, hb⟩ := hmsg hc hm
    exact (key_sim h _ _).seq fun ext hx => (backward_sim hG H (h.temps hx) false hb (ha _ (h.temps hx))).seq fun ext' hx' => key_sim ((h.temps hx).temps hx') _ _
  case message =>
    have hm : f.hasMessage = true := by simp [FieldDesc.hasMessage, hk]
    have hel : elemTy f.kind f.msg = .msg f.msg := by rw [hk]; rfl
    rcases hmp : f.map with _ | md
    · by_cases hc : f.card = .repeated
      · obtain ⟨ha, hb⟩ := hlist hc hmp
        simp only [hc, beq_self_eq_true, if_true]
        refine reverse_sim h (fun j => ha.stays (h.cons _ (by simp) (by simp))) (ha _ h) fun x hx env' e' h' he' => ?_
        have hxo := hb x hx
        rw [hk] at hxo
        rw [hel] at he'
        exact (backward_sim hG H h' true hxo he'.gives).seq fun ext hx => key_sim (h'.temps hx) _ _
      · obtain ⟨ha, hb⟩ := hmsg hc hm
        simp only [beq_eq_false_iff_ne.2 hc, Bool.false_eq_true, if_false]
        exact (backward_sim hG H h true hb (ha _ h)).seq fun ext hx => key_sim (h.temps hx) _ _
    · obtain ⟨hc, -, hkk, hvk⟩ := ff.map md hmp
      have h3 := hof hc
      subst h3
      simp only [fieldValTy, fieldValOK, Bool.false_eq_true, if_false, fieldTy, fieldOK, hmp] at hv hok
      simp only []
      refine map_sim hG H HT h hkk hvk hv ?_ ?_ _ _
      · cases v <;> simp [Val.entries] at hok ⊢
        exact hok.1
      · cases v <;> simp [Val.entries] at hok ⊢
        intro a b hab
        exact hok.2 a b hab

theorem field_sim (hG : G.OK C.S) (H : SubMarshal C okv rec) (HT : ∀ t v, TameCall (rec t v)) (h : IEnv env mv) {d : MsgDesc} {o : Bool} {c t : Nat}
    {f : FieldDesc} {v : Val} (ff : FieldFacts d f) (ho : o = true → f.oneof = true)
    (hv : FieldReads C mv (Emit.fieldExpr o t f) (fieldValTy o f) v) (hok : fieldValOK okv o f v = true) :
    Sim C env (Emit.marshalField G o c t f) (Vtp.marshalField ⟨C.S, C.R⟩ rec o f v) := by
  unfold Emit.marshalField Vtp.marshalField
  simp only []
  have hc : (o && f.kind == .message && f.map.isNone && !f.isList) = (o && f.kind == .message && f.map.isNone) := by
    cases o with
    | false => rfl
    | true => simp [FieldDesc.isList, (ff.oneof (ho rfl)).1]
  rw [hc]
  by_cases h1 : f.card = .repeated
  · have ho' : o = false := by
      cases o with
      | false => rfl
      | true => rw [(ff.oneof (ho rfl)).1] at h1; simp at h1
    subst ho'
    simp only [h1, beq_self_eq_true, if_true, Bool.false_and, Bool.false_eq_true, if_false]
    have hl : ∀ i buf, (eval C ⟨env i, buf⟩ (.bin .gt (.len (Emit.fieldExpr false t f)) (.lit 0)) >>= truth) = .ok (decide (f.len v > 0)) := by
      intro i buf
      have hv := hv _ h i buf
      simp only [eval, hv, Res.bind_ok]
      have hT : lenG (.val (fieldValTy false f) v) = .ok (.int (f.len v)) := by
        rcases hfm : f.map with _ | md
        · simp [fieldValTy, fieldTy, FieldDesc.len, hfm, h1, lenG]
        · simp [fieldValTy, fieldTy, FieldDesc.len, hfm, lenG]
      simp [hT, binG, asInt, truth]
    refine (Sim.ite h hl (fun _ => body_sim hG H HT h ff ho hv hok fun h => absurd h1 h) fun _ => Sim.skip).cast ?_
    by_cases h : f.len v > 0 <;> simp [h]
  · simp only [beq_eq_false_iff_ne.2 h1, Bool.false_eq_true, if_false]
    by_cases h2 : (f.hasMessage || (!o && f.presence)) = true
    · simp only [h2, if_true]
      by_cases h3 : f.card = .required
      · simp only [h3, beq_self_eq_true, if_true]
        have hl : ∀ i buf, (eval C ⟨env i, buf⟩ (.bin .eq (Emit.fieldExpr o t f) .nil) >>= truth) = .ok v.isNil := by
          intro i buf
          have hv := hv _ h i buf
          simp [eval, hv, binG, isNilG_field, truth]
        have hret : Sim C env (.ret [.lit 0, .errRequired f.num]) (Writer.fail (.requiredNotSet f.num)) := fun s =>
          ⟨_, by simp only [exec, evals, eval, Res.bind_ok]; rfl⟩
        exact Sim.ite h hl (fun _ => hret) fun hn => body_sim hG H HT h ff ho hv hok fun _ _ => hn
      · simp only [beq_eq_false_iff_ne.2 h3, Bool.false_eq_true, if_false]
        have hl : ∀ i buf, (eval C ⟨env i, buf⟩ (.bin .ne (Emit.fieldExpr o t f) .nil) >>= truth) = .ok (!v.isNil) := by
          intro i buf
          have hv := hv _ h i buf
          simp [eval, hv, binG, isNilG_field, truth]
        have hcl : Sim C env (if (o && f.kind == .message && f.map.isNone) = true then
              .encodeVarint (.lit 0) ;; Emit.encodeKey f.num (if f.packed = true then 2 else protoWireType f.kind) else .skip)
            (if (o && f.kind == .message && f.map.isNone) = true then
              Writer.seq (Writer.varint 0) (Writer.key f.num (if f.packed = true then 2 else protoWireType f.kind)) else Writer.skip) := by
          split
          · exact (varint_sim' h (g := .const 0) (fun _ _ => rfl) rfl).seq fun ext hx => key_sim (h.temps hx) _ _
          · exact Sim.skip
        exact Sim.ite h hl (fun hn => body_sim hG H HT h ff ho hv hok fun _ _ => by simpa using hn) fun _ => hcl
    · have h2' : (f.hasMessage || (!o && f.presence)) = false := by simpa using h2
      simp only [h2', Bool.false_eq_true, if_false]
      exact body_sim hG H HT h ff ho hv hok fun _ h => absurd h h2

end

end Vtp.Go
