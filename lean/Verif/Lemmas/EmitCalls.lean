import Verif.Lemmas.EmitPacked
/-! Calls of marshalling methods in emitted code, and map entries. -/

namespace Vtp

/-! Writers do not change the length of the buffer and do not move `i` up. -/

/-- What every writer does. -/
def Tame (w : Writer) : Prop := ∀ s s' : WState, w s = .ok s' → s'.buf.length = s.buf.length ∧ s'.i ≤ s.i

/-- The same for a call. -/
def TameCall (f : Bytes → Res (Bytes × Nat)) : Prop := ∀ buf b n, f buf = .ok (b, n) → b.length = buf.length

theorem Tame.skip : Tame Writer.skip := fun s s' h => by cases h; exact ⟨rfl, le_refl _⟩

theorem Tame.fail (e : Err) : Tame (Writer.fail e) := fun s s' h => by simp [Writer.fail] at h

theorem Tame.seq {w u : Writer} (hw : Tame w) (hu : Tame u) : Tame (Writer.seq w u) := fun s s' h => by
  unfold Writer.seq at h
  cases h1 : w s with
  | ok s1 =>
    rw [h1] at h
    simp only [Res.bind_ok] at h
    obtain ⟨a, b⟩ := hw s s1 h1
    obtain ⟨c, d⟩ := hu s1 s' h
    exact ⟨c.trans a, d.trans b⟩
  | err e => rw [h1] at h; simp at h
  | panic p => rw [h1] at h; simp at h
  | diverge => rw [h1] at h; simp at h

theorem Tame.each {α : Type} {w : α → Writer} : ∀ {l : List α}, (∀ a ∈ l, Tame (w a)) → Tame (Writer.each w l)
  | [], _ => Tame.skip
  | _ :: _, h => Tame.seq (h _ (by simp)) (Tame.each fun b hb => h b (by simp [hb]))

theorem putByte_length {buf buf' : Bytes} {i : Int} {b : UInt8} (h : putByte buf i b = .ok buf') : buf'.length = buf.length := by
  unfold putByte at h
  split at h
  · cases h; simp
  · simp at h

theorem Tame.byte (b : UInt8) : Tame (Writer.byte b) := fun s s' h => by
  unfold Writer.byte at h
  cases h1 : putByte s.buf (s.i - 1) b with
  | ok buf =>
    rw [h1] at h
    simp only [Res.bind_ok] at h
    cases h
    exact ⟨putByte_length h1, by simp⟩
  | err e => rw [h1] at h; simp at h
  | panic p => rw [h1] at h; simp at h
  | diverge => rw [h1] at h; simp at h

theorem Tame.key (num wt : Nat) : Tame (Writer.key num wt) := Tame.each fun b _ => Tame.byte b

theorem encodeVarintLoop_length : ∀ (n : Nat) (buf : Bytes) (off : Int) (v : BitVec 64) (r : Bytes), encodeVarintLoop n buf off v = .ok r → r.length = buf.length
  | 0, _, _, _, _, h => by simp [encodeVarintLoop] at h
  | n + 1, buf, off, v, r, h => by
    unfold encodeVarintLoop at h
    split at h
    · cases h1 : putByte buf off (UInt8.ofBitVec ((v &&& 0x7f ||| 0x80).setWidth 8)) with
      | ok b => 
        rw [h1] at h
        simp only [Res.bind_ok] at h
        exact (encodeVarintLoop_length n _ _ _ _ h).trans (putByte_length h1)
      | err e => rw [h1] at h; simp at h
      | panic p => rw [h1] at h; simp at h
      | diverge => rw [h1] at h; simp at h
    · exact putByte_length h

theorem Tame.varint (v : BitVec 64) : Tame (Writer.varint v) := fun s s' h => by
  unfold Writer.varint Vtp.encodeVarint at h
  simp only [] at h
  cases h1 : encodeVarintLoop 10 s.buf (s.i - sizeOfVarint v) v with
  | ok b =>
    rw [h1] at h
    simp only [Res.bind_ok] at h
    cases h
    exact ⟨encodeVarintLoop_length _ _ _ _ _ h1, by simp⟩
  | err e => rw [h1] at h; simp at h
  | panic p => rw [h1] at h; simp at h
  | diverge => rw [h1] at h; simp at h

theorem leBytes_length' : ∀ (n a : Nat), (leBytes n a).length = n
  | 0, _ => rfl
  | n + 1, a => by simp [leBytes, leBytes_length' n]

theorem Tame.fixed (n : Nat) (v : BitVec 64) : Tame (Writer.fixed n v) := fun s s' h => by
  unfold Writer.fixed at h
  simp only [] at h
  split at h
  · split at h
    · cases h
      refine ⟨?_, by simp⟩
      simp [leBytes_length']
      omega
    · simp at h
  · simp at h

theorem Tame.copy (b : Bytes) : Tame (Writer.copy b) := fun s s' h => by
  unfold Writer.copy at h
  simp only [] at h
  split at h
  · cases h
    refine ⟨?_, by simp⟩
    simp
    omega
  · simp at h

theorem Tame.call {f : Bytes → Res (Bytes × Nat)} (hf : TameCall f) : Tame (Writer.call f) := fun s s' h => by
  unfold Writer.call at h
  split at h
  · cases h1 : f (s.buf.take s.i.toNat) with
    | ok r =>
      rw [h1] at h
      simp only [Res.bind_ok] at h
      cases h
      have := hf _ r.1 r.2 h1
      refine ⟨?_, by simp⟩
      simp [this]
      omega
    | err e => rw [h1] at h; simp at h
    | panic p => rw [h1] at h; simp at h
    | diverge => rw [h1] at h; simp at h
  · simp at h

theorem Tame.measured {w : Writer} (hw : Tame w) : Tame (Writer.measured w) := fun s s' h => by
  unfold Writer.measured at h
  cases h1 : w s with
  | ok s1 =>
    rw [h1] at h
    simp only [Res.bind_ok] at h
    obtain ⟨a, b⟩ := hw s s1 h1
    obtain ⟨c, d⟩ := Tame.varint _ s1 s' h
    exact ⟨c.trans a, d.trans b⟩
  | err e => rw [h1] at h; simp at h
  | panic p => rw [h1] at h; simp at h
  | diverge => rw [h1] at h; simp at h

theorem Tame.ite {c : Prop} [Decidable c] {w u : Writer} (hw : Tame w) (hu : Tame u) : Tame (if c then w else u) := by
  split
  · exact hw
  · exact hu

theorem Tame.scalar (k : Kind) (v : Val) : Tame (marshalScalar k v) := by
  cases k
  case double => exact Tame.fixed 8 _
  case fixed64 => exact Tame.fixed 8 _
  case sfixed64 => exact Tame.fixed 8 _
  case float => exact Tame.fixed 4 _
  case fixed32 => exact Tame.fixed 4 _
  case sfixed32 => exact Tame.fixed 4 _
  case bool => exact Tame.byte _
  case string => exact (Tame.copy _).seq (Tame.varint _)
  case bytes => exact (Tame.copy _).seq (Tame.varint _)
  case message => exact Tame.skip
  case group => exact Tame.skip
  all_goals exact Tame.varint _

theorem Tame.sub {E : Env} {rec : Nat → Val → Bytes → Res (Bytes × Nat)} (H : ∀ t v, TameCall (rec t v)) (t : Nat) (v : Val) :
    Tame (marshalSub E rec t v) := by
  unfold marshalSub
  split
  · split
    · exact Tame.copy _
    · exact Tame.fail _
  · exact Tame.call (H t v)

theorem Tame.entry {E : Env} {rec : Nat → Val → Bytes → Res (Bytes × Nat)} (H : ∀ t v, TameCall (rec t v)) (num wt : Nat) (md : MapDesc) (e : Key × Val) :
    Tame (marshalEntry E rec num wt md e) := by
  unfold marshalEntry
  refine Tame.seq (Tame.measured (Tame.seq ?_ ((Tame.key _ _).seq ((Tame.scalar _ _).seq (Tame.key _ _))))) (Tame.key _ _)
  split
  · exact (Tame.sub H _ _).measured
  · exact Tame.scalar _ _

theorem packedVarintLoop_length : ∀ (n : Nat) (buf : Bytes) (j : Int) (v : BitVec 64) (r : Bytes × Int), packedVarintLoop n buf j v = .ok r → r.1.length = buf.length
  | 0, _, _, _, _, h => by simp [packedVarintLoop] at h
  | n + 1, buf, j, v, r, h => by
    unfold packedVarintLoop at h
    split at h
    · cases h1 : putByte buf j (UInt8.ofBitVec ((v &&& 0x7f ||| 0x80).setWidth 8)) with
      | ok b =>
        rw [h1] at h
        simp only [Res.bind_ok] at h
        exact (packedVarintLoop_length n _ _ _ _ h).trans (putByte_length h1)
      | err e => rw [h1] at h; simp at h
      | panic p => rw [h1] at h; simp at h
      | diverge => rw [h1] at h; simp at h
    · cases h1 : putByte buf j (UInt8.ofBitVec (v.setWidth 8)) with
      | ok b =>
        rw [h1] at h
        simp only [Res.bind_ok] at h
        cases h
        exact putByte_length h1
      | err e => rw [h1] at h; simp at h
      | panic p => rw [h1] at h; simp at h
      | diverge => rw [h1] at h; simp at h

theorem packedVarints_length : ∀ (vs : List (BitVec 64)) (buf : Bytes) (j : Int) (r : Bytes), packedVarints vs buf j = .ok r → r.length = buf.length
  | [], _, _, _, h => by cases h; rfl
  | v :: vs, buf, j, r, h => by
    unfold packedVarints at h
    cases h1 : packedVarintLoop 10 buf j v with
    | ok q =>
      rw [h1] at h
      simp only [Res.bind_ok] at h
      exact (packedVarints_length vs _ _ _ h).trans (packedVarintLoop_length _ _ _ _ _ h1)
    | err e => rw [h1] at h; simp at h
    | panic p => rw [h1] at h; simp at h
    | diverge => rw [h1] at h; simp at h

theorem Tame.body {E : Env} {rec : Nat → Val → Bytes → Res (Bytes × Nat)} (H : ∀ t v, TameCall (rec t v)) (o : Bool) (f : FieldDesc) (v : Val) :
    Tame (marshalFieldBody E rec o f v) := by
  have helem : ∀ x, Tame (Writer.seq (marshalScalar f.kind x) (Writer.key f.num (if f.packed = true then 2 else protoWireType f.kind))) :=
    fun x => (Tame.scalar _ _).seq (Tame.key _ _)
  have hsub : ∀ x, Tame (Writer.seq (Writer.measured (marshalSub E rec f.msg x)) (Writer.key f.num (if f.packed = true then 2 else protoWireType f.kind))) :=
    fun x => ((Tame.sub H _ _).measured).seq (Tame.key _ _)
  unfold marshalFieldBody
  have hvar : Tame (fun s =>
      packedVarints (v.elems.map (wireVarint f.kind)) s.buf (s.i - (v.elems.map (sizeScalar f.kind)).sum) >>= fun buf =>
        Writer.seq (Writer.varint (u64 (v.elems.map (sizeScalar f.kind)).sum)) (Writer.key f.num (if f.packed = true then 2 else protoWireType f.kind))
          ⟨buf, s.i - (v.elems.map (sizeScalar f.kind)).sum⟩) := fun s s' h => by
    simp only [] at h
    cases h1 : packedVarints (v.elems.map (wireVarint f.kind)) s.buf (s.i - (v.elems.map (sizeScalar f.kind)).sum) with
    | ok b =>
      rw [h1] at h
      simp only [Res.bind_ok] at h
      obtain ⟨p, q⟩ := (Tame.varint _).seq (Tame.key _ _) _ _ h
      exact ⟨p.trans (packedVarints_length _ _ _ _ h1), by simp at q; omega⟩
    | err e => rw [h1] at h; simp at h
    | panic p => rw [h1] at h; simp at h
    | diverge => rw [h1] at h; simp at h
  have hsingle := Tame.ite (c := (!o && !(f.hasMessage || (!o && f.presence)) && isZeroVal f.kind v) = true) Tame.skip (helem v)
  have hfixed : ∀ n, Tame (if f.packed then
      Writer.seq (Writer.each (marshalScalar f.kind) v.elems.reverse) (Writer.seq (Writer.varint (u64 (v.elems.length * n))) (Writer.key f.num (if f.packed = true then 2 else protoWireType f.kind)))
      else if f.card == .repeated then Writer.each (fun x => Writer.seq (marshalScalar f.kind x) (Writer.key f.num (if f.packed = true then 2 else protoWireType f.kind))) v.elems.reverse
      else if (!o && !(f.hasMessage || (!o && f.presence)) && isZeroVal f.kind v) = true then Writer.skip
        else Writer.seq (marshalScalar f.kind v) (Writer.key f.num (if f.packed = true then 2 else protoWireType f.kind))) := fun n =>
    Tame.ite ((Tame.each fun a _ => Tame.scalar _ _).seq ((Tame.varint _).seq (Tame.key _ _))) (Tame.ite (Tame.each fun a _ => helem a) hsingle)
  have hvar' := Tame.ite (c := f.packed = true) hvar (Tame.ite (c := (f.card == .repeated) = true) (Tame.each (l := v.elems.reverse) fun a _ => helem a) hsingle)
  have hstr := Tame.ite (c := (f.card == .repeated) = true) (Tame.each (l := v.elems.reverse) fun a _ => helem a) hsingle
  cases hk : f.kind <;> simp only [hk] at hfixed hvar' hstr hsub ⊢
  case double => exact hfixed 8
  case fixed64 => exact hfixed 8
  case sfixed64 => exact hfixed 8
  case float => exact hfixed 4
  case fixed32 => exact hfixed 4
  case sfixed32 => exact hfixed 4
  case bool => exact hfixed 1
  case string => exact hstr
  case bytes => exact hstr
  case group => exact (Tame.key _ _).seq ((Tame.sub H _ _).seq (Tame.key _ _))
  case message =>
    split
    · exact Tame.each fun a _ => Tame.entry H _ _ _ _
    · exact Tame.ite (Tame.each fun a _ => hsub a) (hsub v)
  all_goals exact hvar'

theorem Tame.field {E : Env} {rec : Nat → Val → Bytes → Res (Bytes × Nat)} (H : ∀ t v, TameCall (rec t v)) (o : Bool) (f : FieldDesc) (v : Val) :
    Tame (marshalField E rec o f v) := by
  unfold marshalField
  exact Tame.ite (Tame.ite (Tame.body H _ _ _) Tame.skip) (Tame.ite (Tame.ite (Tame.ite (Tame.fail _) (Tame.body H _ _ _))
    (Tame.ite (Tame.body H _ _ _) (Tame.ite ((Tame.varint _).seq (Tame.key _ _)) Tame.skip))) (Tame.body H _ _ _))

theorem TameCall.run {w : Writer} (hw : Tame w) : TameCall (runSized w) := fun buf b n h => by
  unfold runSized at h
  cases h1 : w ⟨buf, buf.length⟩ with
  | ok s =>
    rw [h1] at h
    simp only [Res.bind_ok] at h
    cases h
    exact (hw _ _ h1).1
  | err e => rw [h1] at h; simp at h
  | panic p => rw [h1] at h; simp at h
  | diverge => rw [h1] at h; simp at h

theorem TameCall.panic {p : Panic} : TameCall (fun _ => .panic p) := fun buf b n h => by simp at h

theorem Tame.message {E : Env} {rec : Nat → Val → Bytes → Res (Bytes × Nat)} (H : ∀ t v, TameCall (rec t v)) (strict : Bool) (d : MsgDesc) (slots : List Val)
    (unk : Bytes) : Tame (marshalBody E rec strict d slots unk) := by
  have hone : ∀ slot v, Tame (marshalOneof E rec d slot v) := fun slot v => by
    unfold marshalOneof
    split
    · split
      · exact Tame.call (TameCall.run (Tame.field H _ _ _))
      · exact Tame.skip
    · exact Tame.call TameCall.panic
    · exact Tame.skip
  have hones : ∀ fs seen, Tame (marshalOneofs E rec d slots seen fs) := by
    intro fs
    induction fs with
    | nil => intro seen; exact Tame.skip
    | cons f fs ih =>
      intro seen
      unfold marshalOneofs
      exact Tame.ite (Tame.ite (ih _) ((hone _ _).seq (ih _))) (ih _)
  have hstrict : ∀ f, Tame (marshalStrictField E rec slots f) := fun f => by
    unfold marshalStrictField
    refine Tame.ite ?_ (Tame.field H _ _ _)
    split
    · exact Tame.ite (Tame.call (TameCall.run (Tame.field H _ _ _))) Tame.skip
    · exact Tame.ite (Tame.call TameCall.panic) Tame.skip
    · exact Tame.skip
  unfold marshalBody
  exact (Tame.ite (Tame.copy _) Tame.skip).seq (Tame.ite (Tame.each fun f _ => hstrict f)
    ((hones _ _).seq (Tame.each fun f _ => Tame.ite Tame.skip (Tame.field H _ _ _))))

theorem TameCall.sized (E : Env) (strict : Bool) : ∀ (n t : Nat) (v : Val), TameCall (marshalToSizedN E strict n t v)
  | 0, t, v => fun buf b n h => by cases h; rfl
  | n + 1, t, v => fun buf b k h => by
    unfold marshalToSizedN at h
    split at h
    · exact TameCall.run (Tame.message (TameCall.sized E strict n) _ _ _ _) buf b k h
    · cases h; rfl

theorem seq_assoc (a b c : Writer) : Writer.seq (Writer.seq a b) c = Writer.seq a (Writer.seq b c) := by
  funext s
  unfold Writer.seq
  cases a s <;> rfl

theorem seq_skip (a : Writer) : Writer.seq a Writer.skip = a := by
  funext s
  unfold Writer.seq Writer.skip
  cases a s <;> rfl

end Vtp

namespace Vtp.Go
open Spec

/-- A call ends as the model says. -/
def CallAgree (o : Res (Bytes × Nat)) (r : Res (Bytes × Int × Option Err)) : Prop :=
  match o with
  | .ok (b, n) => r = .ok (b, (n : Int), none)
  | .err e => ∃ b n, r = .ok (b, n, some e)
  | .panic p => r = .panic p
  | .diverge => r = .diverge

section
variable {C : Ctx} {env : Int → List (Id × GV)} {mv : GV}

/-- The variables after a call without error. -/
abbrev called (n : Nat) : List (Id × GV) := [(.size, .int n), (.err, .err none)]

theorem called_temps (n : Nat) : Temps (called n) := (Temps.nil.cons rfl).cons rfl

theorem checkErr_none {vs : List (Id × GV)} (hl : lookup .err vs = .ok (.err none)) (buf : Bytes) :
    exec C Emit.checkErr ⟨vs, buf⟩ = .ok (⟨vs, buf⟩, .next) := by
  simp [Emit.checkErr, exec, eval, hl, binG, truth, block, St.leave]

theorem checkErr_some {vs : List (Id × GV)} {e : Err} (hl : lookup .err vs = .ok (.err (some e))) (buf : Bytes) :
    exec C Emit.checkErr ⟨vs, buf⟩ = .ok (⟨vs, buf⟩, .ret [.const 0, .err (some e)]) := by
  simp [Emit.checkErr, exec, eval, evals, hl, binG, truth, block, St.leave]

/-- `size, err := e.MarshalToSizedBufferVT(dAtA[:i]); if err != nil { return 0, err }; R`. -/
theorem call_sim (h : IEnv env mv) {e : Expr} {g : GV} {T : GTy} {v : Val} {f : Bytes → Res (Bytes × Nat)} {R : Stmt} {u : Nat → Writer}
    (he : Gives C env e g) (hg : recvG g = .ok (T, v)) (hf : ∀ buf, CallAgree (f buf) (C.marshal T v buf))
    (hR : ∀ n, Sim C (fun i => called n ++ env i) R (u n)) :
    Sim C env (.callMarshal .size e .i ;; Emit.checkErr ;; R) (fun s =>
      if 0 ≤ s.i ∧ s.i ≤ s.buf.length then f (s.buf.take s.i.toNat) >>= fun r => u r.2 ⟨r.1 ++ s.buf.drop s.i.toNat, s.i⟩
      else .panic .sliceOutOfRange) := fun s => by
  simp only []
  have hx : exec C (.callMarshal .size e .i) ⟨env s.i, s.buf⟩ = if 0 ≤ s.i ∧ s.i ≤ s.buf.length then
      C.marshal T v (s.buf.take s.i.toNat) >>= fun q => .ok (⟨(.size, .int q.2.1) :: (.err, .err q.2.2) :: env s.i, q.1 ++ s.buf.drop s.i.toNat⟩, .next)
      else .panic .sliceOutOfRange := by
    simp only [exec, he s.i, Res.bind_ok, hg, intVar, h.get, intG]
  rw [exec, hx]
  by_cases hc : 0 ≤ s.i ∧ s.i ≤ s.buf.length
  · rw [if_pos hc, if_pos hc]
    have hq := hf (s.buf.take s.i.toNat)
    revert hq
    cases f (s.buf.take s.i.toNat) with
    | ok r =>
      intro hq
      have hq : C.marshal T v (s.buf.take s.i.toNat) = .ok (r.1, (r.2 : Int), none) := hq
      rw [hq]
      simp only [Res.bind_ok]
      rw [exec_seq (checkErr_none (by simp [lookup]) _)]
      exact (hR r.2 ⟨r.1 ++ s.buf.drop s.i.toNat, s.i⟩).weaken (called_temps _)
    | err e =>
      rintro ⟨b, n, hq⟩
      rw [hq]
      simp only [Res.bind_ok]
      rw [exec, checkErr_some (e := e) (by simp [lookup])]
      exact ⟨_, rfl⟩
    | panic p =>
      intro hq
      have hq : C.marshal T v (s.buf.take s.i.toNat) = .panic p := hq
      rw [hq]; exact rfl
    | diverge =>
      intro hq
      have hq : C.marshal T v (s.buf.take s.i.toNat) = .diverge := hq
      rw [hq]; exact rfl
  · rw [if_neg hc, if_neg hc]; exact rfl

theorem subSize_sim (h : IEnv env mv) (n : Nat) :
    Sim C (fun i => called n ++ env i) (.subAssign .i (.id .size)) (fun s => .ok ⟨s.buf, s.i - n⟩) := fun s => by
  have h' := h.temps (called_temps n)
  rw [exec_subI (env := fun i => called n ++ env i) h' (g := .int n) (n := n) (by simp [eval, lookup]) rfl]
  exact ⟨[], Temps.nil, rfl⟩

/-- `marshalForwardOneOf`. -/
theorem forward_sim (h : IEnv env mv) {e : Expr} {g : GV} {T : GTy} {v : Val} {f : Bytes → Res (Bytes × Nat)}
    (he : Gives C env e g) (hg : recvG g = .ok (T, v)) (hf : ∀ buf, CallAgree (f buf) (C.marshal T v buf)) :
    Sim C env (Emit.forward e) (Writer.call f) := by
  refine (call_sim h he hg hf (fun n => subSize_sim h n)).cast ?_
  funext s
  unfold Writer.call
  rfl

/-- A call, `marshalBackwardSize` afterwards. -/
theorem backwardCall_sim (h : IEnv env mv) (vi : Bool) {e : Expr} {g : GV} {T : GTy} {v : Val} {f : Bytes → Res (Bytes × Nat)}
    (he : Gives C env e g) (hg : recvG g = .ok (T, v)) (hf : ∀ buf, CallAgree (f buf) (C.marshal T v buf)) :
    Sim C env (.callMarshal .size e .i ;; Emit.backwardSize vi) (if vi then Writer.measured (Writer.call f) else Writer.call f) := by
  unfold Emit.backwardSize
  have hR : ∀ n, Sim C (fun i => called n ++ env i) (.subAssign .i (.id .size) ;; (if vi then Emit.encodeVarint (.id .size) else .skip))
      (Writer.seq (fun s => .ok ⟨s.buf, s.i - n⟩) (if vi then Writer.varint (u64 n) else Writer.skip)) := fun n => by
    -- `i -= size` leaves the variables as they are
    intro s
    have h' := h.temps (called_temps n)
    rw [exec_seq (exec_subI (env := fun i => called n ++ env i) h' (g := .int n) (n := n) (by simp [eval, lookup]) rfl)]
    cases vi with
    | false => exact ⟨[], Temps.nil, rfl⟩
    | true => exact varint_sim h' (g := .int n) (fun i buf => by simp [eval, lookup]) (by simp only [u64G, ofInt_nat]) ⟨s.buf, s.i - n⟩
  refine (call_sim h he hg hf hR).cast ?_
  funext s
  cases vi with
  | false =>
    simp only [Writer.call, Writer.seq, Bool.false_eq_true, if_false, Writer.skip, Res.bind_ok]
  | true =>
    simp only [Writer.measured, Writer.call, Writer.seq, if_true, Res.bind_ok]
    split
    · cases f (s.buf.take s.i.toNat) with
      | ok r =>
        simp only [Res.bind_ok]
        have : (s.i - (s.i - (r.2 : Int))).toNat = r.2 := by omega
        rw [this]
      | err e => rfl
      | panic p => rfl
      | diverge => rfl
    · rfl

/-- Calls of the method on nil and on the messages in question. -/
def SubMarshal (C : Ctx) (okv : Nat → Val → Bool) (rec : Nat → Val → Bytes → Res (Bytes × Nat)) : Prop :=
  ∀ t x, (x.isNil || okv t x) = true → (C.S.msg t).foreign = false → ∀ buf, CallAgree (rec t x buf) (C.marshal (.msg t) x buf)

variable {G : GenCfg} {okv : Nat → Val → Bool} {rec : Nat → Val → Bytes → Res (Bytes × Nat)}

theorem foreign_sim (h : IEnv env mv) (vi : Bool) {var : Expr} {t : Nat} {x : Val} (hv : Gives C env var (.val (.msg t) x)) :
    Sim C env (.protoMarshal .encoded var ;; Emit.checkErr ;; .subAssign .i (.len (.id .encoded)) ;; .copy (.id .encoded) ;;
     (if vi then Emit.encodeVarint (.len (.id .encoded)) else .skip))
     (let w : Writer := match C.R.marshal t x with
       | some b => Writer.copy b
       | none => Writer.fail .foreign
      if vi then Writer.measured w else w) := fun s => by
  rw [exec]
  have hx : exec C (.protoMarshal .encoded var) ⟨env s.i, s.buf⟩ = match C.R.marshal t x with
      | some b => .ok (⟨[(.encoded, .val .bytes (.str b)), (.err, .err none)] ++ env s.i, s.buf⟩, .next)
      | none => .ok (⟨(.encoded, .val .bytes .nil) :: (.err, .err (some .foreign)) :: env s.i, s.buf⟩, .next) := by
    simp only [exec, hv s.i, Res.bind_ok]
    cases C.R.marshal t x <;> rfl
  rw [hx]
  cases C.R.marshal t x with
  | some b =>
    simp only [Res.bind_ok]
    rw [exec_seq (checkErr_none (by simp [lookup]) _)]
    have ht : Temps [(Id.encoded, GV.val .bytes (.str b)), (.err, .err none)] := (Temps.nil.cons rfl).cons rfl
    have h' := h.temps ht
    have he : Gives C (fun i => [(Id.encoded, GV.val .bytes (.str b)), (.err, .err none)] ++ env i) (.id .encoded) (.val .bytes (.str b)) :=
      fun i buf => by simp [eval, lookup]
    refine Ends.weaken ht ?_
    have hs : Sim C (fun i => [(Id.encoded, GV.val .bytes (.str b)), (.err, .err none)] ++ env i)
        (.subAssign .i (.len (.id .encoded)) ;; .copy (.id .encoded) ;; (if vi then Emit.encodeVarint (.len (.id .encoded)) else .skip))
        (if vi then Writer.measured (Writer.copy b) else Writer.copy b) := by
      intro s'
      have hl : (⟨Id.encoded, GV.val .bytes (.str b)⟩ :: [(Id.err, GV.err none)]) ++ env s'.i = (fun i => [(Id.encoded, GV.val .bytes (.str b)), (.err, .err none)] ++ env i) s'.i := rfl
      have hsub := exec_subI (C := C) (env := fun i => [(Id.encoded, GV.val .bytes (.str b)), (.err, .err none)] ++ env i) h' (e := .len (.id .encoded)) (i := s'.i) (buf := s'.buf)
        (g := .int b.length) (n := b.length) (by simp [eval, lookup, lenG, Val.bytes]) rfl
      rw [exec_seq hsub]
      have hcopy : exec C (.copy (.id .encoded)) ⟨[(Id.encoded, GV.val .bytes (.str b)), (.err, .err none)] ++ env (s'.i - b.length), s'.buf⟩ =
          Writer.copy b s' >>= fun s => .ok (⟨[(Id.encoded, GV.val .bytes (.str b)), (.err, .err none)] ++ env (s'.i - b.length), s.buf⟩, .next) := by
        simp only [exec, eval, Res.bind_ok, intVar]
        rw [show lookup .encoded ([(Id.encoded, GV.val .bytes (.str b)), (.err, .err none)] ++ env (s'.i - b.length)) = .ok (.val .bytes (.str b)) by simp [lookup]]
        rw [h'.get]
        simp only [Res.bind_ok, bytesG, Val.bytes, intG, Writer.copy]
        split <;> rfl
      rw [exec, hcopy]
      cases hc : Writer.copy b s' with
      | ok r =>
        have hri : r.i = s'.i - b.length := by
          unfold Writer.copy at hc
          simp only [] at hc
          split at hc
          · cases hc; rfl
          · simp at hc
        simp only [Res.bind_ok]
        rw [← hri]
        cases vi with
        | false => rw [if_neg (by simp), if_neg (by simp), hc]; exact ⟨[], Temps.nil, rfl⟩
        | true =>
          simp only [if_true, Writer.measured, hc, Res.bind_ok]
          have : (s'.i - r.i).toNat = b.length := by omega
          rw [this]
          exact varint_sim h' (g := .int b.length) (fun i buf => by simp [eval, lookup, lenG, Val.bytes]) (by simp only [u64G, ofInt_nat]) r
      | err e => cases vi <;> simp [Writer.measured, hc, Ends]; all_goals unfold Writer.copy at hc; simp only [] at hc; split at hc <;> simp at hc
      | panic p => cases vi <;> simp [Writer.measured, hc, Ends]
      | diverge => cases vi <;> simp [Writer.measured, hc, Ends]
    exact hs s
  | none =>
    simp only [Res.bind_ok]
    rw [exec, checkErr_some (e := .foreign) (by simp [lookup])]
    cases vi <;> exact ⟨_, rfl⟩

/-- `marshalBackward`. -/
theorem backward_sim (hG : G.OK C.S) (H : SubMarshal C okv rec) (h : IEnv env mv) (vi : Bool) {var : Expr} {t : Nat} {x : Val}
    (hx : (x.isNil || okv t x) = true) (hv : Gives C env var (.val (.msg t) x)) :
    Sim C env (Emit.backward G var vi t)
      (if vi then Writer.measured (marshalSub ⟨C.S, C.R⟩ rec t x) else marshalSub ⟨C.S, C.R⟩ rec t x) := by
  unfold Emit.backward marshalSub
  by_cases hf : (C.S.msg t).foreign = true
  · obtain ⟨h1, h2⟩ := hG t hf
    simp only [h1, h2, hf, Bool.false_eq_true, if_false, if_true]
    intro s
    have hb := foreign_sim h vi hv
    simp only [exec, hv s.i, Res.bind_ok, dyn, implements, hf, Bool.not_true, Bool.false_eq_true, if_false]
    exact (block_ends h (bind := []) (hb s)).ends
  · have hf : (C.S.msg t).foreign = false := by simpa using hf
    have hr := H t x hx hf
    simp only [hf, Bool.false_eq_true, if_false]
    split
    · exact backwardCall_sim h vi (g := .val (.msg t) x) (fun i buf => by simp [eval, hv i buf]) rfl hr
    · split
      · exact backwardCall_sim h vi (g := .val (.msg t) x) hv rfl hr
      · intro s
        simp only [exec, hv s.i, Res.bind_ok, dyn, implements, hf, Bool.not_false, if_true]
        have hs := backwardCall_sim (C := C) (h.cons (x := .vtmsg) (.val (.msg t) x) (by simp) (by simp)) vi (e := .id .vtmsg) (g := .val (.msg t) x)
          (fun i buf => by simp [eval, lookup]) rfl hr s
        exact (block_ends h (bind := [(.vtmsg, .val (.msg t) x)]) hs).ends

end

end Vtp.Go
