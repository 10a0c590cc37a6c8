import Verif.Lemmas.HeapSimClone
import Verif.Lemmas.HeapSimLoop
/-! # Decoding in memory with pools, and decoding of values without them -/

namespace Vtp
open Spec

/-! ## Code that leaves the pools alone -/

/-- The pools are not used. -/
def Calm {α : Type} (x : HM α) : Prop := ∀ σ, (x σ).1.pool = σ.pool

section
variable {α β : Type}

theorem Calm.lift (r : Res α) : Calm (HM.lift r) := fun _ => rfl

theorem Calm.pure (a : α) : Calm (Pure.pure a : HM α) := fun _ => rfl

theorem Calm.bind {x : HM α} {f : α → HM β} (h1 : Calm x) (h2 : ∀ a, Calm (f a)) : Calm (x >>= f) := by
  intro σ
  show (HM.bind x f σ).1.pool = _
  unfold HM.bind
  have h := h1 σ
  rcases hx : x σ with ⟨σ', r⟩
  rw [hx] at h
  cases r with
  | ok a => exact (h2 a σ').trans h
  | err e => exact h
  | panic e => exact h
  | diverge => exact h

theorem calm_read (a : Addr) : Calm (hread a) := by
  intro σ
  unfold hread
  split <;> rfl

theorem calm_write (a : Addr) (c : Cell) : Calm (hwrite a c) := fun _ => rfl

theorem calm_alloc (c : Cell) : Calm (halloc c) := fun _ => rfl

theorem calm_getSlot (p : HV) (i : Nat) : Calm (hgetSlot p i) := by
  unfold hgetSlot
  split
  · exact .lift _
  · refine .bind (calm_read _) fun c => ?_
    split
    · exact .pure _
    · exact .lift _
  · exact .lift _

theorem calm_setSlot (p : HV) (i : Nat) (x : HV) : Calm (hsetSlot p i x) := hsetSlot_pool p i x

theorem calm_copyBytes (b : Bytes) : Calm (hcopyBytes b) := .bind (calm_alloc _) fun _ => .pure _

theorem calm_growBytes (g : Growth) (b : Bytes) : Calm (hgrowBytes g b) := fun _ => rfl

theorem calm_appendBytes (g : Growth) (s : HV) (n : Nat) (b : Bytes) : Calm (happendBytes g s n b) := by
  unfold happendBytes
  split
  · split
    · exact .pure _
    · exact calm_growBytes _ _
  · refine .bind (calm_read _) fun c => ?_
    split
    · split
      · exact .bind (calm_write _ _) fun _ => .pure _
      · exact calm_growBytes _ _
    · exact .lift _
  · exact .lift _

theorem calm_append (g : Growth) (s x : HV) : Calm (happend g s x) := by
  unfold happend
  split
  · exact fun _ => rfl
  · refine .bind (calm_read _) fun c => ?_
    unfold happendTo
    split
    · split
      · exact .bind (calm_write _ _) fun _ => .pure _
      · exact fun _ => rfl
    · exact .lift _
  · exact .lift _

theorem calm_newBytes (E : HEnv) (off : Nat) (b : Bytes) : Calm (E.newBytes off b) := by
  unfold HEnv.newBytes
  split
  · exact .pure _
  · exact calm_copyBytes _

theorem calm_store (E : HEnv) (d : MsgDesc) (f : FieldDesc) (p v : HV) : Calm (hstore E d f p v) := by
  unfold hstore
  split
  · exact .bind (calm_alloc _) fun _ => calm_setSlot _ _ _
  · split
    · exact .bind (calm_getSlot _ _) fun _ => .bind (calm_append _ _ _) fun _ => calm_setSlot _ _ _
    · split
      · exact calm_setSlot _ _ _
      · exact .bind (calm_alloc _) fun _ => calm_setSlot _ _ _

theorem calm_storeBytes (E : HEnv) (f : FieldDesc) (p : HV) (off : Nat) (b : Bytes) : Calm (hstoreBytes E f p off b) := by
  unfold hstoreBytes
  split
  · exact .bind (calm_newBytes _ _ _) fun _ => .bind (calm_alloc _) fun _ => calm_setSlot _ _ _
  · split
    · exact .bind (calm_getSlot _ _) fun _ => .bind (calm_newBytes _ _ _) fun _ => .bind (calm_append _ _ _) fun _ => calm_setSlot _ _ _
    · split
      · exact calm_setSlot _ _ _
      · refine .bind (calm_getSlot _ _) fun _ => .bind (calm_appendBytes _ _ _ _) fun _ => .bind ?_ fun _ => calm_setSlot _ _ _
        unfold hnonNil
        split
        · exact calm_copyBytes _
        · exact .pure _

theorem calm_direct (E : HEnv) (f : FieldDesc) (p3 : Bool) (b : Bytes) (i : Nat) (p : HV) : Calm (hdirect E f p3 b i p) := by
  unfold hdirect
  split
  · split
    · exact calm_setSlot _ _ _
    · exact .pure _
  · exact .pure _

theorem calm_lenCap (s : HV) : Calm (hlenCap s) := by
  unfold hlenCap
  split
  · exact .pure _
  · refine .bind (calm_read _) fun c => ?_
    split
    · exact .pure _
    · exact .lift _
  · exact .lift _

theorem calm_prealloc (d : MsgDesc) (f : FieldDesc) (n : Nat) (p : HV) : Calm (hprealloc d f n p) := by
  unfold hprealloc
  split
  · refine .bind (calm_getSlot _ _) fun s => .bind (calm_lenCap _) fun c => ?_
    split
    split
    · exact .bind (.bind (calm_alloc _) fun _ => .pure _) fun _ => calm_setSlot _ _ _
    · exact .pure _
  · exact .pure _

theorem calm_appendUnknown (E : HEnv) (p : HV) (b : Bytes) : Calm (happendUnknown E p b) := by
  unfold happendUnknown
  split
  · exact .lift _
  · refine .bind (calm_read _) fun c => ?_
    split
    · refine .bind (calm_appendBytes _ _ _ _) fun _ => .bind (calm_read _) fun c => ?_
      split
      · exact calm_write _ _
      · exact .lift _
    · exact .lift _
  · exact .lift _

theorem calm_runtimePartial (E : HEnv) (t : Nat) (b : Bytes) (p : HV) : Calm (hruntimePartial E t b p) := by
  rw [hruntimePartial.eq_def]
  split
  · exact .lift _
  · refine .bind (calm_read _) fun c => ?_
    split
    · split
      · exact .bind (calm_write _ _) fun _ => calm_appendUnknown _ _ _
      · exact .lift _
      · exact .lift _
    · exact .lift _
  · exact .lift _

end

/-! ## Side by side -/

/-- Code `x` on memory with pools, at the message `p`, does what `u` does on values without, up to memory kept for reuse. -/
def HSimP (S : Schema) (B : Bufs) (t : Nat) (p : HV) {α : Type} (x : HM α) (u : UM α) : Prop :=
  ∀ m m' R σ, HoldsPool S B σ ((.msg t, p, m) :: R) → Reuse S t m m' →
    ∃ m1, (x σ).2 = (u m').2 ∧ Reuse S t m1 (u m').1 ∧ HoldsPool S B (x σ).1 ((.msg t, p, m1) :: R)

section
variable {S : Schema} {B : Bufs} {t : Nat} {p : HV} {α β : Type}

theorem HSimP.lift (r : Res α) : HSimP S B t p (HM.lift r) (UM.lift r) := fun m _ _ _ h hm => ⟨m, rfl, hm, h⟩

theorem HSimP.pure (a : α) : HSimP S B t p (Pure.pure a : HM α) (Pure.pure a : UM α) := fun m _ _ _ h hm => ⟨m, rfl, hm, h⟩

theorem HSimP.bind {x : HM α} {u : UM α} {f : α → HM β} {g : α → UM β} (h1 : HSimP S B t p x u) (h2 : ∀ a, HSimP S B t p (f a) (g a)) :
    HSimP S B t p (x >>= f) (u >>= g) := by
  intro m m' R σ h hm
  obtain ⟨m1, h3, h4, h5⟩ := h1 m m' R σ h hm
  show ∃ m1, (HM.bind x f σ).2 = (UM.bind u g m').2 ∧ Reuse S t m1 (UM.bind u g m').1 ∧ HoldsPool S B (HM.bind x f σ).1 ((.msg t, p, m1) :: R)
  unfold HM.bind UM.bind
  rcases hx : x σ with ⟨σ', r⟩
  rcases hu : u m' with ⟨m2, r'⟩
  rw [hx, hu] at h3
  rw [hu] at h4
  rw [hx] at h5
  simp only at h3 h4 h5
  subst h3
  cases r with
  | ok a => exact h2 a m1 m2 R σ' h5 h4
  | err e => exact ⟨m1, rfl, h4, h5⟩
  | panic e => exact ⟨m1, rfl, h4, h5⟩
  | diverge => exact ⟨m1, rfl, h4, h5⟩

theorem HSimP.lift_bind {r : Res α} {f : α → HM β} {g : α → UM β} (h2 : ∀ a, r = .ok a → HSimP S B t p (f a) (g a)) :
    HSimP S B t p (HM.lift r >>= f) (UM.lift r >>= g) := by
  intro m m' R σ h hm
  cases r with
  | ok a => exact h2 a rfl m m' R σ h hm
  | err e => exact ⟨m, rfl, hm, h⟩
  | panic e => exact ⟨m, rfl, hm, h⟩
  | diverge => exact ⟨m, rfl, hm, h⟩

/-- Code that does not use the pools. -/
theorem HSimP.leaf {x : HM Unit} {u u' : UM Unit} (h1 : SimU S B t p x u) (h2 : Calm x) (h3 : Sim false (Reuse S t) u u' fun _ _ => True) :
    HSimP S B t p x u' := by
  intro m m' R σ h hm
  obtain ⟨L, h4, h5, h6⟩ := h
  obtain ⟨h7, h8⟩ := h1 m _ σ h6
  have h9 := h3 m m' hm
  refine ⟨(u m).1, ?_, ?_, L, h4.trans (h2 σ).symm, h5, h8⟩
  · rw [h7]
    unfold SimOut at h9
    cases hr : (u m).2 with
    | ok a => rw [hr] at h9; obtain ⟨-, b, h9, -⟩ := h9; exact h9.symm
    | err e => rw [hr] at h9; simp at h9; exact h9.2.symm
    | panic e => rw [hr] at h9; simp at h9; exact h9.2.symm
    | diverge => rw [hr] at h9; simp at h9; exact h9.2.symm
  · unfold SimOut at h9
    cases hr : (u m).2 with
    | ok a => rw [hr] at h9; exact h9.1
    | err e => rw [hr] at h9; simp at h9; exact h9.1
    | panic e => rw [hr] at h9; simp at h9; exact h9.1
    | diverge => rw [hr] at h9; simp at h9; exact h9.1

end

/-- Surroundings for code that neither recurses nor reads; the pools hand out `z`. -/
def leafEnv (S : Schema) (z : Val) : UEnv := ⟨S, .none, ⟨64⟩, false, [], fun _ _ => z⟩

theorem leafEnv_sim {S : Schema} (hS : schemaOK S = true) (z : Val) : SimEnv (VRel.reuse S) (leafEnv S z) { leafEnv S z with S := unpool S } :=
  simEnv_reuse (E := leafEnv S z) hS (by simp [Arch.Valid, leafEnv]) (fun _ _ _ h => by simp [leafEnv, Runtime.none] at h)

section
variable {S : Schema} {B : Bufs} {σ : HState} {R : List VItem} {t : Nat} {p : HV} {f : FieldDesc}
variable {E : HEnv} {later : Bytes}

/-- A decoder in memory with pools does what one of values does without. -/
def HRecP (S : Schema) (B : Bufs) (hrec : HSubDec) (rec : SubDec) : Prop :=
  ∀ off t b p, (S.msg t).foreign = false → HSimP S B t p (hrec off t b p) (rec off t b)

theorem foreign_eq {t : Nat} (hf : (S.msg t).foreign = true) {v w : Val} : Reuse S t v w ↔ v = w := by
  rw [reuse_iff]; unfold ReuseMsg; rw [hf, if_pos rfl]

theorem appendUnknown_simP (hS : schemaOK S = true) {b : Bytes} (hf : (S.msg t).foreign = false) : HSimP S B t p (happendUnknown E p b) (appendUnknown b) :=
  HSimP.leaf (appendUnknown_sim hf) (calm_appendUnknown _ _ _) ((leafEnv_sim hS .nil).unk t hf b)

theorem store_simP (hS : schemaOK S = true) {x : HV} {v : Val} (hf : (S.msg t).foreign = false) (hm : f ∈ (S.msg t).fields)
    (hk : fieldTy.isScalar f.kind = true) (hx : x ≠ .nil) (hadd : ∀ σ R, Holds S B σ R → Holds S B σ ((.flat, x, v) :: R))
    (hv : f.oneof = false → (f.card == .repeated) = false → (VRel.reuse S).slot t f v v) :
    HSimP S B t p (hstore E (S.msg t) f p x) (store f v) := by
  refine HSimP.leaf (u := store f v) (fun m R σ h => ?_) (calm_store _ _ _ _ _) ?_
  · exact store_sim hf (schemaOK_msg hS t) hm hk hx m R σ (hadd _ _ h).swap
  · exact sim_store (leafEnv_sim hS .nil) hf hm (scalar_noMsg hk) (.inl rfl) hv

variable (hE : HPoolEnv S B E later)
include hE

theorem Spec.HPoolEnv.quiet : HSimEnv S B { E with pick := fun _ => none } later :=
  ⟨hE.schema, hE.ok, hE.ext, fun _ => rfl, hE.run, hE.buf, hE.safe⟩

theorem newSub_simP (d : MsgDesc) (off t : Nat) (h : HoldsPool S B σ R) :
    ∃ σ' a z, hnewSub E d off t σ = (σ', .ok (.ptr a)) ∧ Blank S t z ∧
      HoldsPool S B σ' ((.msg t, .ptr a, newSub (leafEnv S z) d off t) :: R) := by
  unfold hnewSub newSub
  rw [hE.schema]
  by_cases hc : (d.pooled && (S.msg t).pooled) = true
  · obtain ⟨σ', a, m, h1, h2, h3⟩ := poolGet_sim (want := E.pick off) (t := t) hE.ok h
    refine ⟨σ', a, m, ?_, h2, ?_⟩
    · rw [if_pos hc, h1]
    · rw [if_pos (show (d.pooled && ((leafEnv S m).S.msg t).pooled) = true from hc)]
      exact h3
  · obtain ⟨L, h1, h2, h3⟩ := h
    obtain ⟨σ', a, h4, h5⟩ := new_sim t h3
    refine ⟨σ', a, zeroMsg S t, ?_, zeroMsg_reuse hE.ok t, L, ?_, h2, ?_⟩
    · rw [if_neg hc, h4]
    · rw [h1]
      have := congrArg (fun q => q.1.pool) h4
      exact this
    · rw [if_neg (show ¬ (d.pooled && ((leafEnv S (zeroMsg S t)).S.msg t).pooled) = true from hc)]
      exact h5

variable {hrec : HSubDec} {rec : SubDec} (H : HRecP S B hrec rec)
include H

theorem decodeMessage_simP {off : Nat} {b : Bytes} : HSimP S B t p (hdecodeMessage E hrec off t b p) (decodeMessage (E.plain later) rec off t b) := by
  have hfo : ((E.plain later).S.msg t).foreign = (S.msg t).foreign := by
    show ((unpool E.S).msg t).foreign = _
    rw [unpool_msg, hE.schema]
  by_cases hf : (S.msg t).foreign = true
  · intro m m' R σ h hm
    rw [foreign_eq hf] at hm
    subst hm
    obtain ⟨L, h1, h2, h3⟩ := h
    have hd : hdecodeMessage { E with pick := fun _ => none } hrec off t b p = hdecodeMessage E hrec off t b p := rfl
    have := decodeMessage_sim (hE.quiet) (hrec := fun _ _ _ _ => HM.lift .diverge) (rec := fun _ _ _ => UM.lift .diverge) (fun _ _ _ _ _ => SimU.lift _)
      (off := off) (b := b) m _ σ h3
    have e1 : hdecodeMessage { E with pick := fun _ => none } (fun _ _ _ _ => HM.lift .diverge) off t b p = hdecodeMessage E hrec off t b p := by
      unfold hdecodeMessage
      simp only [hE.schema, hf, if_true]
    have e2 : decodeMessage (HEnv.toU { E with pick := fun _ => none } later) (fun _ _ _ => UM.lift .diverge) off t b m = decodeMessage (E.plain later) rec off t b m := by
      unfold decodeMessage
      rw [hfo]
      have : ((HEnv.toU { E with pick := fun _ => none } later).S.msg t).foreign = (S.msg t).foreign := by
        show (E.S.msg t).foreign = _
        rw [hE.schema]
      rw [this, hf]
      rfl
    rw [e1, e2] at this
    refine ⟨(decodeMessage (E.plain later) rec off t b m).1, this.1, (foreign_eq hf).2 rfl, L, ?_, h2, this.2⟩
    rw [h1]
    unfold hdecodeMessage
    simp only [hE.schema, hf, if_true]
    split
    · rfl
    · cases E.R.unmarshal t b <;> rfl
    · rfl
  · have hf : (S.msg t).foreign = false := by simpa using hf
    have e1 : hdecodeMessage E hrec off t b p = hrec off t b p := by
      unfold hdecodeMessage
      simp only [hE.schema, hf, Bool.false_eq_true, if_false]
    have e2 : decodeMessage (E.plain later) rec off t b = rec off t b := by
      funext m
      unfold decodeMessage
      rw [hfo, hf]
      simp
    rw [e1, e2]
    exact H off t b p hf

/-! ## Message fields -/

omit hE H in
theorem messageItem_msg {UE : UEnv} {rec : SubDec} {d : MsgDesc} {off : Nat} {b : Bytes} {m sv x : Val} (hg : getSlot f.slot m = (m, .ok sv))
    (hw : ∀ w, (setSlot f.slot w m).2 = .ok ()) (hs : subTarget UE d f off sv = .ok x) :
    messageItem UE rec d f off b m = if f.oneof && !holds f sv then
      (match (decodeMessage UE rec off f.msg b x).2 with
        | .ok () => ((setSlot f.slot (subAssign f sv (decodeMessage UE rec off f.msg b x).1) m).1, .ok ())
        | r => (m, r))
      else ((setSlot f.slot (subAssign f sv (decodeMessage UE rec off f.msg b x).1) m).1, (decodeMessage UE rec off f.msg b x).2) := by
  have hset : ∀ w, setSlot f.slot w m = ((setSlot f.slot w m).1, .ok ()) := fun w => Prod.ext rfl (hw w)
  unfold messageItem
  rw [UM.bind_ok hg, UM.bind_ok (show UM.lift (subTarget UE d f off sv) m = (m, .ok x) by rw [hs]; rfl)]
  rcases hd : decodeMessage UE rec off f.msg b x with ⟨x', r⟩
  simp only
  split
  · cases r with
    | ok u =>
      rw [UM.bind_ok (show UM.lift (.ok u) m = (m, .ok u) from rfl)]
      exact hset _
    | err e => rfl
    | panic e => rfl
    | diverge => rfl
  · rw [UM.bind_ok (hset _)]
    rfl

omit H in
theorem subTarget_plain {off : Nat} {z sv : Val} :
    subTarget (E.plain later) ((unpool S).msg t) f off sv = subTarget { leafEnv S z with S := unpool S } ((unpool S).msg t) f off sv := by
  have h1 : ((unpool S).msg t).pooled = false := by rw [unpool_msg]
  have h2 : (E.plain later).S = unpool S := by
    show unpool E.S = _
    rw [hE.schema]
  unfold subTarget newSub
  simp only [h1, h2, Bool.false_and, Bool.false_eq_true, if_false]

omit hE H in
theorem sim_getSlot {S : Schema} {t : Nat} {f : FieldDesc} (hS : schemaOK S = true) (hf : (S.msg t).foreign = false) (hm : f ∈ (S.msg t).fields)
    {O : Obj} {sv m' : Val} (hO : O.OK (S.msg t) f) (hr : Reuse S t (O.val sv) m') :
    ∃ sv', getSlot f.slot m' = (m', .ok sv') ∧ (VRel.reuse S).slot t f sv sv' ∧ (∀ w, (setSlot f.slot w m').2 = .ok ()) ∧
      ∀ w w', (VRel.reuse S).slot t f w w' → Reuse S t (O.val w) (setSlot f.slot w' m').1 := by
  have hl := leafEnv_sim hS .nil
  have h1 := hl.get t hf f hm _ _ hr
  unfold SimOut at h1
  rw [hO.get] at h1
  simp only at h1
  obtain ⟨h1, sv', h2, h3⟩ := h1
  have hmsg : ∃ s u e, m' = .msg s u e := by
    unfold getSlot at h2
    split at h2
    · exact ⟨_, _, _, rfl⟩
    · cases h2
    · cases h2
  obtain ⟨s, u, e, rfl⟩ := hmsg
  refine ⟨sv', Prod.ext rfl h2, h3, fun _ => rfl, fun w w' hw => ?_⟩
  have h4 := hl.set t hf f hm w w' hw _ _ hr
  unfold SimOut at h4
  rw [hO.set] at h4
  exact h4.1

/-- What happens on values when the message in the field is decoded into. -/
theorem messageItem_values {off : Nat} {b : Bytes} {O : Obj} {sv xv z m' : Val} {x : HV} (hf : (S.msg t).foreign = false) (hm : f ∈ (S.msg t).fields)
    (hk : f.kind = .message) (hmap : f.map = none) (hO : O.OK (S.msg t) f) (hr : Reuse S t (O.val sv) m') (hz : Blank S f.msg z)
    (ht : subTarget (leafEnv S z) (S.msg t) f off sv = .ok xv) (h : HoldsPool S B σ ((.msg f.msg, x, xv) :: R)) :
    ∃ xv', (hdecodeMessage E hrec off f.msg b x σ).2 = (messageItem (E.plain later) rec ((unpool S).msg t) f off b m').2 ∧
      HoldsPool S B (hdecodeMessage E hrec off f.msg b x σ).1 ((.msg f.msg, x, xv') :: R) ∧
      ((f.oneof && !holds f sv) = true → (hdecodeMessage E hrec off f.msg b x σ).2 ≠ .ok () →
        Reuse S t (O.val sv) (messageItem (E.plain later) rec ((unpool S).msg t) f off b m').1) ∧
      ((f.oneof && !holds f sv) = false ∨ (hdecodeMessage E hrec off f.msg b x σ).2 = .ok () →
        Reuse S t (O.val (subAssign f sv xv')) (messageItem (E.plain later) rec ((unpool S).msg t) f off b m').1) := by
  obtain ⟨sv', hg, hsv, hw, hset⟩ := sim_getSlot hE.ok hf hm hO hr
  have hfr : UEnv.fresh { leafEnv S z with S := unpool S } off f.msg = zeroMsg S f.msg := by
    unfold UEnv.fresh
    have : ((unpool S).msg f.msg).pooled = false := by rw [unpool_msg]
    simp only [this, Bool.false_eq_true, if_false]
    exact (samePlan_unpool S).zeroMsg f.msg
  obtain ⟨h1, h2, h3⟩ := (leafEnv_sim hE.ok z).sub t f hm hk hmap sv sv' hsv off off (fun _ => by
    rw [hfr]
    exact hz)
  have h1' : SimRes false (Reuse S f.msg) (subTarget (leafEnv S z) (S.msg t) f off sv) (subTarget (E.plain later) ((unpool S).msg t) f off sv') := by
    rw [subTarget_plain hE (z := z)]
    exact h1
  rw [ht] at h1'
  obtain ⟨xv1, h4, h5⟩ := h1'
  rw [messageItem_msg hg hw h4, ← h3]
  obtain ⟨xv', h6, h7, h8⟩ := decodeMessage_simP hE H (off := off) (b := b) xv xv1 R σ h h5
  rcases hd : decodeMessage (E.plain later) rec off f.msg b xv1 with ⟨y, r⟩
  rw [hd] at h6 h7
  simp only at h6 h7
  refine ⟨xv', ?_, h8, ?_, ?_⟩
  · rw [h6]
    split
    · cases r <;> rfl
    · rfl
  · intro hc hne
    rw [hc, if_pos rfl]
    rw [h6] at hne
    cases r with
    | ok u => exact absurd rfl hne
    | err e => exact hr
    | panic e => exact hr
    | diverge => exact hr
  · intro hc
    have := hset _ _ (h2 _ _ h7)
    rcases hc with hc | hc
    · rw [hc]
      simpa using this
    · rw [h6] at hc
      subst hc
      split <;> exact this

omit hE H in
theorem Spec.HoldsPool.openSlot {m : Val} (h : HoldsPool S B σ ((.msg t, p, m) :: R)) (hf : (S.msg t).foreign = false) (hd : MsgFacts (S.msg t))
    (hm : f ∈ (S.msg t).fields) :
    (p = .nil ∧ m = .nil) ∨ ∃ (O : Obj) (s : HV) (sv : Val), p = .ptr O.a ∧ m = O.val sv ∧ O.OK (S.msg t) f ∧
      HoldsPool S B σ (rawItem (O.cell s) O.a :: (fieldTy (S.msg t) f, s, sv) :: (O.rest ++ R)) := by
  obtain ⟨L, h1, h2, h3⟩ := h
  rcases Holds.openSlot h3 hf hd hm with h | ⟨O, s, sv, h4, h5, h6, h7⟩
  · exact .inl h
  · exact .inr ⟨O, s, sv, h4, h5, h6, L, h1, h2, by simpa [List.append_assoc] using h7⟩

omit hE H in
theorem Spec.HoldsPool.closeSlot {O : Obj} {s : HV} {sv : Val} (hf : (S.msg t).foreign = false) (hO : O.OK (S.msg t) f)
    (h : HoldsPool S B σ (rawItem (O.cell s) O.a :: (fieldTy (S.msg t) f, s, sv) :: (O.rest ++ R))) : HoldsPool S B σ ((.msg t, .ptr O.a, O.val sv) :: R) :=
  h.mapAll fun _ h => Holds.closeSlot hf hO (by simpa [List.append_assoc] using h)

omit hE H in
theorem Spec.HoldsPool.drop2 {x y : VItem} (h : HoldsPool S B σ (x :: y :: R)) : HoldsPool S B σ (x :: R) := h.swap.tail

omit hE H in
theorem Spec.HoldsPool.openOneof' {d : MsgDesc} {slot : Nat} {s : HV} {v : Val} (h : HoldsPool S B σ ((.oneof d slot, s, v) :: R)) :
    (s = .nil ∧ v = .nil) ∨ (∃ n, s = .wrapNil n ∧ v = .wrapNil n) ∨ ∃ a n g x w, s = .ptr a ∧ v = .wrap n w ∧ d.member slot n = some g ∧
      HoldsPool S B σ (rawItem (.wrap n x) a :: (elemTy g.kind g.msg, x, w) :: R) := by
  obtain ⟨L, h1, h2, h3⟩ := h
  rcases Holds.openOneof h3 with h | h | ⟨a, n, g, x, w, h4, h5, h6, h7⟩
  · exact .inl h
  · exact .inr (.inl h)
  · exact .inr (.inr ⟨a, n, g, x, w, h4, h5, h6, L, h1, h2, h7⟩)

omit hE H in
theorem Spec.HoldsPool.sealOneof {d : MsgDesc} {slot : Nat} {a : Addr} {n : Nat} {g : FieldDesc} {x : HV} {w : Val} (hm : d.member slot n = some g)
    (h : HoldsPool S B σ (rawItem (.wrap n x) a :: (elemTy g.kind g.msg, x, w) :: R)) : HoldsPool S B σ ((.oneof d slot, .ptr a, .wrap n w) :: R) :=
  h.mapAll fun _ h => Holds.sealOneof hm h

/-- A message field that is a member of a oneof. -/
theorem messageItem_oneofP {off : Nat} {b : Bytes} (hf : (S.msg t).foreign = false) (hm : f ∈ (S.msg t).fields)
    (hk : f.kind = .message) (hmap : f.map = none) (ho : f.oneof = true) :
    HSimP S B t p (hmessageItem E hrec (S.msg t) f off b p) (messageItem (E.plain later) rec ((unpool S).msg t) f off b) := by
  intro m m' R σ h hr
  have hd := schemaOK_msg hE.ok t
  have he : elemTy f.kind f.msg = .msg f.msg := by rw [hk]; rfl
  have hty : fieldTy (S.msg t) f = .oneof (S.msg t) f.slot := by simp [fieldTy, ho]
  rcases h.openSlot hf hd hm with ⟨rfl, rfl⟩ | ⟨O, s, sv, rfl, rfl, hO, h'⟩
  · obtain rfl : m' = .nil := isNil_iff.1 (reuse_nil hr).symm
    exact ⟨.nil, rfl, hr, h⟩
  -- a new member
  have hfresh : ∀ (hs : ∀ z, subTarget (leafEnv S z) (S.msg t) f off sv = .ok (newSub (leafEnv S z) (S.msg t) off f.msg)) (hh : holds f sv = false),
      ∃ m1, (((do let x ← hnewSub E (S.msg t) off f.msg
                  hdecodeMessage E hrec off f.msg b x
                  let a ← halloc (.wrap f.num x)
                  hsetSlot (.ptr O.a) f.slot (.ptr a)) : HM Unit) σ).2 = (messageItem (E.plain later) rec ((unpool S).msg t) f off b m').2 ∧
      Reuse S t m1 (messageItem (E.plain later) rec ((unpool S).msg t) f off b m').1 ∧
      HoldsPool S B (((do let x ← hnewSub E (S.msg t) off f.msg
                          hdecodeMessage E hrec off f.msg b x
                          let a ← halloc (.wrap f.num x)
                          hsetSlot (.ptr O.a) f.slot (.ptr a)) : HM Unit) σ).1 ((.msg t, .ptr O.a, m1) :: R) := by
    intro hs hh
    obtain ⟨σ1, x, z, h1, hz, h2⟩ := newSub_simP hE (S.msg t) off f.msg h
    rw [HM.bind_ok h1]
    obtain ⟨xv', h3, h4, h5, h6⟩ := messageItem_values hE H (b := b) hf hm hk hmap hO hr hz (hs z) h2
    rcases hx : hdecodeMessage E hrec off f.msg b (.ptr x) σ1 with ⟨σ2, r⟩
    rw [hx] at h3 h4 h5 h6
    simp only [ho, hh] at h3 h4 h5 h6
    cases r with
    | ok u =>
      rw [HM.bind_ok hx]
      obtain ⟨L, h7, h8, h9⟩ := h4
      have h10 := wrapPut_sim (f := f) hf hd hm ho (O.val sv) (R ++ L.map fun q => (.msg q.1, .ptr q.2.1, q.2.2)) σ2 (he ▸ h9.swap)
      rw [hO.set] at h10
      refine ⟨_, h10.1.trans h3, h6 (.inr rfl), L, ?_, h8, ?_⟩
      · rw [h7]
        exact ((Calm.bind (calm_alloc _) fun _ => calm_setSlot _ _ _) σ2).symm
      · simpa [subAssign, ho] using h10.2
    | err e =>
      simp only [Bind.bind, HM.bind, hx]
      exact ⟨_, h3, h5 (by simp) (by simp), h4.tail⟩
    | panic e =>
      simp only [Bind.bind, HM.bind, hx]
      exact ⟨_, h3, h5 (by simp) (by simp), h4.tail⟩
    | diverge =>
      simp only [Bind.bind, HM.bind, hx]
      exact ⟨_, h3, h5 (by simp) (by simp), h4.tail⟩
  unfold hmessageItem
  rw [HM.bind_ok (hO.hget h'.read)]
  simp only [ho, if_true]
  have h2 := h'.swap
  rw [hty] at h2
  rcases h2.openOneof' with ⟨rfl, rfl⟩ | ⟨n, rfl, rfl⟩ | ⟨a, n, g, x, w, rfl, rfl, hg, h3⟩
  · rw [HM.bind_ok (show hholds .nil f.num σ = (σ, .ok none) from rfl)]
    exact hfresh (fun z => by simp [subTarget, ho]) rfl
  · by_cases hn : n = f.num
    · subst hn
      rw [HM.bind_ok (show hholds (.wrapNil f.num) f.num σ = (σ, .ok (some .nil)) by simp [hholds]; rfl)]
      obtain ⟨sv', hg, hsv, hw, -⟩ := sim_getSlot hE.ok hf hm hO hr
      have hpan : SimRes false (Reuse S f.msg) (subTarget (leafEnv S (zeroMsg S f.msg)) (S.msg t) f off (.wrapNil f.num)) (subTarget (E.plain later) ((unpool S).msg t) f off sv') := by
        rw [subTarget_plain hE (z := zeroMsg S f.msg)]
        refine ((leafEnv_sim hE.ok (zeroMsg S f.msg)).sub t f hm hk hmap _ sv' hsv off off (fun _ => ?_)).1
        unfold UEnv.fresh
        have : ((unpool S).msg f.msg).pooled = false := by rw [unpool_msg]
        simp only [this, Bool.false_eq_true, if_false]
        rw [show zeroMsg (unpool S) f.msg = zeroMsg S f.msg from (samePlan_unpool S).zeroMsg f.msg]
        exact zeroMsg_reuse hE.ok f.msg
      have hpan' : subTarget (E.plain later) ((unpool S).msg t) f off sv' = .panic .nilDeref := by
        rw [show subTarget (leafEnv S (zeroMsg S f.msg)) (S.msg t) f off (.wrapNil f.num) = .panic .nilDeref by simp [subTarget, ho]] at hpan
        simpa [SimRes] using hpan
      have : messageItem (E.plain later) rec ((unpool S).msg t) f off b m' = (m', .panic .nilDeref) := by
        unfold messageItem
        rw [UM.bind_ok hg]
        exact UM.bind_panic (by rw [hpan']; rfl)
      rw [this]
      exact ⟨_, rfl, hr, h⟩
    · rw [HM.bind_ok (show hholds (.wrapNil n) f.num σ = (σ, .ok none) by simp [hholds, hn]; rfl)]
      exact hfresh (fun z => by simp [subTarget, ho, hn]) rfl
  · have hh : hholds (.ptr a) f.num σ = (σ, .ok (if n = f.num then some (.ptr a) else none)) := by
      unfold hholds
      simp only
      rw [HM.bind_ok (hread_ok h3.read)]
      rfl
    rw [HM.bind_ok hh]
    by_cases hn : n = f.num
    · subst hn
      simp only [if_true]
      have hgf : g = f := by
        have := member_of hd hm ho
        rw [this] at hg
        exact (Option.some.inj hg).symm
      subst hgf
      have hmem : hmember (.ptr a) σ = (σ, .ok x) := by
        unfold hmember
        simp only
        rw [HM.bind_ok (hread_ok h3.read)]
        rfl
      rw [HM.bind_ok hmem]
      rw [he] at h3
      obtain ⟨xv', h4, h5, h6, h7⟩ := messageItem_values hE H (b := b) (off := off) hf hm hk hmap hO hr (zeroMsg_reuse hE.ok _) (by simp [subTarget, ho]) h3.swap
      refine ⟨_, h4, h7 (.inl (by simp [holds])), ?_⟩
      have h8 := HoldsPool.sealOneof hg (he ▸ h5.swap)
      have h9 := HoldsPool.closeSlot hf hO (hty ▸ h8.swap)
      simpa [subAssign, ho] using h9
    · simp only [hn, if_false]
      exact hfresh (fun z => by simp [subTarget, ho, hn]) (by simp [holds, hn])

/-- A singular message field. -/
theorem messageItem_singleP {off : Nat} {b : Bytes} (hf : (S.msg t).foreign = false) (hm : f ∈ (S.msg t).fields)
    (hk : f.kind = .message) (hmap : f.map = none) (ho : f.oneof = false) (hc : f.card ≠ .repeated) :
    HSimP S B t p (hmessageItem E hrec (S.msg t) f off b p) (messageItem (E.plain later) rec ((unpool S).msg t) f off b) := by
  intro m m' R σ h hr
  have hd := schemaOK_msg hE.ok t
  have hc' : (f.card == .repeated) = false := by simpa using hc
  have hty : fieldTy (S.msg t) f = .msg f.msg := by simp [fieldTy, ho, hc, hk, fieldTy.isScalar, elemTy]
  rcases h.openSlot hf hd hm with ⟨rfl, rfl⟩ | ⟨O, s, sv, rfl, rfl, hO, h'⟩
  · obtain rfl : m' = .nil := isNil_iff.1 (reuse_nil hr).symm
    exact ⟨.nil, rfl, hr, h⟩
  unfold hmessageItem
  rw [HM.bind_ok (hO.hget h'.read)]
  simp only [ho, hc', Bool.false_eq_true, if_false]
  rw [hty] at h'
  have hnil : s.isNil = sv.isNil := h'.isNil (fun c e => by cases e) (.tail _ (.head _))
  cases hs : s.isNil with
  | true =>
    simp only [if_true]
    obtain ⟨σ1, x, z, h1, hz, h2⟩ := newSub_simP hE (S.msg t) off f.msg h'.drop2
    rw [HM.bind_ok h1]
    rw [HM.bind_ok (hO.hset h2.swap.read (.ptr x))]
    have h3 := h2.swap.write (O.cell (.ptr x))
    obtain ⟨xv', h4, h5, h6, h7⟩ := messageItem_values hE H (b := b) (off := off) hf hm hk hmap hO hr hz (by simp [subTarget, ho, hc, ← hnil, hs]) h3.swap
    refine ⟨_, h4, h7 (.inl (by simp [ho])), ?_⟩
    have h7 := HoldsPool.closeSlot hf hO (hty ▸ h5.swap)
    simpa [subAssign, ho, hc] using h7
  | false =>
    simp only [Bool.false_eq_true, if_false]
    obtain ⟨xv', h4, h5, h6, h7⟩ := messageItem_values hE H (b := b) (off := off) hf hm hk hmap hO hr (zeroMsg_reuse hE.ok _)
      (show _ = Res.ok sv by simp [subTarget, ho, hc, ← hnil, hs]) h'.swap
    refine ⟨_, h4, h7 (.inl (by simp [ho])), ?_⟩
    have h7 := HoldsPool.closeSlot hf hO (hty ▸ h5.swap)
    simpa [subAssign, ho, hc] using h7

omit hE H in
theorem Spec.HoldsPool.openList' {e : Ty} {s : HV} {v : Val} (h : HoldsPool S B σ ((.list e, s, v) :: R)) :
    (s = .nil ∧ v = .nil) ∨ ∃ (a len : Nat) (xs : List (HV × Val)) (sp : List Val), s = .slice a len ∧
      v = .list ((xs.map (·.2)).take len) sp ∧ len ≤ xs.length ∧ SpareRep e ((xs.map (·.2)).drop len) sp ∧
      HoldsPool S B σ (rawItem (.arr (xs.map (·.1))) a :: (xs.map (fun x => (e, x)) ++ R)) := by
  obtain ⟨L, h1, h2, h3⟩ := h
  rcases Holds.openList h3 with ⟨h, h', -⟩ | ⟨a, len, xs, sp, h4, h5, h6, h7, h8⟩
  · exact .inl ⟨h, h'⟩
  · exact .inr ⟨a, len, xs, sp, h4, h5, h6, h7, L, h1, h2, by simpa [List.append_assoc] using h8⟩

omit hE H in
theorem Spec.HoldsPool.sealList' {e : Ty} {a : Nat} {pre post : List (HV × Val)} {x : HV} {v : Val} {sp : List Val}
    (hs : SpareRep e (post.map (·.2)) sp)
    (h : HoldsPool S B σ (rawItem (.arr (pre.map (·.1) ++ x :: post.map (·.1))) a :: (e, x, v) :: ((pre ++ post).map (fun x => (e, x)) ++ R))) :
    HoldsPool S B σ ((.list e, .slice a (pre.length + 1), .list (pre.map (·.2) ++ [v]) sp) :: R) :=
  h.mapAll fun _ h => Holds.sealList' hs (by simpa [List.append_assoc] using h)

omit hE H in
theorem append_holeP {e : Ty} {s : HV} {v : Val} (he : e.nilable = true) (g : Growth) (x : HV) (h : HoldsPool S B σ ((.list e, s, v) :: R)) :
    ∃ (a : Nat) (pre post : List (HV × Val)) (sp : List Val) (σ' : HState), happend g s x σ = (σ', .ok (.slice a (pre.length + 1))) ∧
      (∀ w, appendVal v w = .ok (.list (pre.map (·.2) ++ [w]) sp)) ∧ SpareRep e (post.map (·.2)) sp ∧
      HoldsPool S B σ' (rawItem (.arr (pre.map (·.1) ++ x :: post.map (·.1))) a :: ((pre ++ post).map (fun x => (e, x)) ++ R)) := by
  obtain ⟨L, h1, h2, h3⟩ := h
  obtain ⟨a, pre, post, sp, σ', h4, h5, h6, h7⟩ := append_hole he g x h3
  refine ⟨a, pre, post, sp, σ', h4, h5, h6, L, ?_, h2, by simpa [List.append_assoc] using h7⟩
  have := calm_append g s x σ
  rw [h4] at this
  exact h1.trans this.symm

omit hE H in
theorem new_simP (hS : schemaOK S = true) (t : Nat) (h : HoldsPool S B σ R) :
    ∃ σ' a, hnew S t σ = (σ', .ok (.ptr a)) ∧ HoldsPool S B σ' ((.msg t, .ptr a, zeroMsg S t) :: R) := by
  obtain ⟨L, h1, h2, h3⟩ := h
  obtain ⟨σ', a, h4, h5⟩ := new_sim t h3
  exact ⟨σ', a, h4, L, h1.trans (congrArg (fun q => q.1.pool) h4), h2, h5⟩

/-- A repeated message field. -/
theorem messageItem_repeatedP {off : Nat} {b : Bytes} (hf : (S.msg t).foreign = false) (hm : f ∈ (S.msg t).fields)
    (hk : f.kind = .message) (hmap : f.map = none) (hc : f.card = .repeated) :
    HSimP S B t p (hmessageItem E hrec (S.msg t) f off b p) (messageItem (E.plain later) rec ((unpool S).msg t) f off b) := by
  intro m m' R σ h hr
  have hd := schemaOK_msg hE.ok t
  have ho : f.oneof = false := by
    cases ho : f.oneof with
    | false => rfl
    | true => rw [((hd.fields f hm).oneof ho).1] at hc; cases hc
  have hc' : (f.card == .repeated) = true := by simpa using hc
  have hty : fieldTy (S.msg t) f = .list (.msg f.msg) := by simp [fieldTy, ho, hc, hk, hmap, elemTy]
  rcases h.openSlot hf hd hm with ⟨rfl, rfl⟩ | ⟨O, s, sv, rfl, rfl, hO, h'⟩
  · obtain rfl : m' = .nil := isNil_iff.1 (reuse_nil hr).symm
    exact ⟨.nil, rfl, hr, h⟩
  unfold hmessageItem
  rw [HM.bind_ok (hO.hget h'.read)]
  simp only [ho, hc', Bool.false_eq_true, if_false, if_true]
  rw [hty] at h'
  -- a new element
  have hfresh : ∀ (hs : subTarget (leafEnv S (zeroMsg S f.msg)) (S.msg t) f off sv = .ok (zeroMsg S f.msg)),
      ∃ m1, (((do let x ← hnew E.S f.msg
                  let s ← happend E.extra s x
                  hsetSlot (.ptr O.a) f.slot s
                  hdecodeMessage E hrec off f.msg b x) : HM Unit) σ).2 = (messageItem (E.plain later) rec ((unpool S).msg t) f off b m').2 ∧
      Reuse S t m1 (messageItem (E.plain later) rec ((unpool S).msg t) f off b m').1 ∧
      HoldsPool S B (((do let x ← hnew E.S f.msg
                          let s ← happend E.extra s x
                          hsetSlot (.ptr O.a) f.slot s
                          hdecodeMessage E hrec off f.msg b x) : HM Unit) σ).1 ((.msg t, .ptr O.a, m1) :: R) := by
    intro hs
    simp only [hE.schema]
    obtain ⟨σ1, x, h1, h2⟩ := new_simP hE.ok f.msg h'
    rw [HM.bind_ok h1]
    have h3 : HoldsPool S B σ1 ((.list (.msg f.msg), s, sv) :: rawItem (O.cell s) O.a :: (.msg f.msg, .ptr x, zeroMsg S f.msg) :: (O.rest ++ R)) :=
      h2.perm (List.Perm.trans (List.Perm.trans (List.Perm.swap _ _ _) (List.Perm.cons _ (List.Perm.swap _ _ _))) (List.Perm.swap _ _ _))
    obtain ⟨a, pre, post, sp, σ2, h4, h5, h6, h7⟩ := append_holeP rfl E.extra (.ptr x) h3
    rw [HM.bind_ok h4]
    have h8 : HoldsPool S B σ2 (rawItem (O.cell s) O.a :: (.msg f.msg, .ptr x, zeroMsg S f.msg) :: rawItem (.arr (pre.map (·.1) ++ .ptr x :: post.map (·.1))) a ::
        ((pre ++ post).map (fun x => (Ty.msg f.msg, x)) ++ (O.rest ++ R))) := by
      refine h7.perm ?_
      refine List.Perm.trans (List.Perm.cons _ List.perm_middle) ?_
      refine List.Perm.trans (List.Perm.swap _ _ _) (List.Perm.cons _ ?_)
      refine List.Perm.trans (List.Perm.cons _ List.perm_middle) ?_
      exact List.Perm.swap _ _ _
    rw [HM.bind_ok (hO.hset h8.read (.slice a (pre.length + 1)))]
    have h9 := h8.write (O.cell (.slice a (pre.length + 1)))
    obtain ⟨xv', h10, h11, -, h12⟩ := messageItem_values hE H (b := b) (off := off) hf hm hk hmap hO hr (zeroMsg_reuse hE.ok _) hs h9.swap
    refine ⟨_, h10, h12 (.inl (by simp [ho])), ?_⟩
    have h13 := HoldsPool.sealList' (x := .ptr x) (v := xv')
      (R := rawItem (O.cell (.slice a (pre.length + 1))) O.a :: (O.rest ++ R)) h6 (h11.perm (by
        refine List.Perm.trans (List.Perm.cons _ (List.Perm.swap _ _ _)) ?_
        refine List.Perm.trans (List.Perm.swap _ _ _) (List.Perm.cons _ (List.Perm.cons _ ?_))
        exact List.perm_middle.symm))
    have h14 := HoldsPool.closeSlot hf hO (hty ▸ h13.swap)
    rw [subAssign_append ho hc (h5 _)]
    exact h14
  have hz : (leafEnv S (zeroMsg S f.msg)).S = S := rfl
  rcases h'.swap.openList' with ⟨rfl, rfl⟩ | ⟨a, len, xs, sp, rfl, rfl, hl, hsp, h2⟩
  · have : hreuse (S.msg t) .nil σ = (σ, .ok none) := by
      unfold hreuse
      split <;> rfl
    rw [HM.bind_ok this]
    exact hfresh (by simp [subTarget, ho, hc, hz])
  · by_cases hp : (S.msg t).pooled = true
    · have hre : hreuse (S.msg t) (.slice a len) σ = (σ, .ok (xs.map (·.1))[len]?) := by
        unfold hreuse hspare
        simp only [hp, if_true]
        rw [HM.bind_ok (hread_ok h2.read)]
        rfl
      rw [HM.bind_ok hre]
      cases hy : xs[len]? with
      | none =>
        simp only [List.getElem?_map, hy, Option.map_none]
        have : xs.length ≤ len := List.getElem?_eq_none_iff.mp hy
        rw [List.drop_eq_nil_of_le (by simpa using this)] at hsp
        have := SpareRep.empty hsp
        subst this
        exact hfresh (by simp [subTarget, ho, hc, hz])
      | some y =>
        obtain ⟨x, w⟩ := y
        have hsplit : xs = xs.take len ++ (x, w) :: xs.drop (len + 1) := by
          obtain ⟨h1, h2⟩ := List.getElem?_eq_some_iff.mp hy
          conv_lhs => rw [← List.take_append_drop len xs, List.drop_eq_getElem_cons h1, h2]
        have hdrop : (xs.map (·.2)).drop len = w :: (xs.drop (len + 1)).map (·.2) := by
          conv_lhs => rw [hsplit, List.map_append, List.drop_left' (by simp [Nat.min_eq_left hl])]
          rfl
        rw [hdrop] at hsp
        have h3 : HoldsPool S B σ ((.msg f.msg, x, w) :: rawItem (O.cell (.slice a len)) O.a :: rawItem (.arr (xs.map (·.1))) a ::
            ((xs.take len ++ xs.drop (len + 1)).map (fun x => (Ty.msg f.msg, x)) ++ (O.rest ++ R))) := by
          have hx : (xs.map (fun x => (Ty.msg f.msg, x)) : List VItem).Perm
              ((Ty.msg f.msg, x, w) :: (xs.take len ++ xs.drop (len + 1)).map (fun x => (Ty.msg f.msg, x))) := by
            conv_lhs => rw [hsplit]
            simp only [List.map_append, List.map_cons]
            exact List.perm_middle
          refine h2.perm ?_
          refine List.Perm.trans (List.Perm.cons _ (List.Perm.append_right _ hx)) ?_
          refine List.Perm.trans (List.Perm.swap _ _ _) (List.Perm.cons _ ?_)
          refine List.Perm.trans (List.Perm.cons _ List.perm_middle) ?_
          exact List.Perm.swap _ _ _
        have hnil : x.isNil = w.isNil := h3.isNil (fun c e => by cases e) (.head _)
        obtain ⟨k, hk2⟩ : ∃ k, w :: (xs.drop (len + 1)).map (·.2) = sp ++ List.replicate k .nil := by
          have := hsp
          simpa [SpareRep, Ty.keeps] using this
        have hshape : x = .nil ∨ ∃ x', x = .ptr x' := by
          obtain ⟨L, -, -, F, h4, -⟩ := h3
          cases h4 with
          | nil _ _ => exact .inl rfl
          | foreign _ _ _ _ => exact .inr ⟨_, rfl⟩
          | msg _ _ _ _ => exact .inr ⟨_, rfl⟩
        simp only [List.getElem?_map, hy, Option.map_some]
        rcases hshape with rfl | ⟨x', rfl⟩
        · refine hfresh ?_
          have hw : w.isNil = true := hnil ▸ rfl
          cases sp with
          | nil => simp [subTarget, ho, hc, hz]
          | cons z sp =>
            simp only [List.cons_append, List.cons.injEq] at hk2
            rw [hk2.1] at hw
            simp [subTarget, ho, hc, hz, hw]
        · have hw : w.isNil = false := by rw [← hnil]; rfl
          obtain ⟨sp', rfl⟩ : ∃ sp', sp = w :: sp' := by
            cases sp with
            | nil =>
              cases k with
              | zero => simp at hk2
              | succ k =>
                simp only [List.nil_append, List.replicate_succ, List.cons.injEq] at hk2
                rw [hk2.1] at hw
                cases hw
            | cons z sp =>
              simp only [List.cons_append, List.cons.injEq] at hk2
              exact ⟨sp, by rw [hk2.1]⟩
          show ∃ m1, ((hsetSlot (.ptr O.a) f.slot (.slice a (len + 1)) >>= fun _ => hdecodeMessage E hrec off f.msg b (.ptr x')) σ).2 = _ ∧ _ ∧
            HoldsPool S B ((hsetSlot (.ptr O.a) f.slot (.slice a (len + 1)) >>= fun _ => hdecodeMessage E hrec off f.msg b (.ptr x')) σ).1 _
          rw [HM.bind_ok (hO.hset h3.swap.read (.slice a (len + 1)))]
          have h9 := h3.swap.write (O.cell (.slice a (len + 1)))
          obtain ⟨xv', h10, h11, -, h12⟩ := messageItem_values hE H (b := b) (off := off) hf hm hk hmap hO hr (zeroMsg_reuse hE.ok _)
            (show _ = Res.ok w by simp [subTarget, ho, hc, hp, hw]) h9.swap
          refine ⟨_, h10, h12 (.inl (by simp [ho])), ?_⟩
          have hlen : (xs.take len).length = len := by simp [Nat.min_eq_left hl]
          have hmap1 : xs.map (·.1) = (xs.take len).map (·.1) ++ .ptr x' :: (xs.drop (len + 1)).map (·.1) := by
            conv_lhs => rw [hsplit]
            simp
          have h13 := HoldsPool.sealList' (e := .msg f.msg) (a := a) (pre := xs.take len) (post := xs.drop (len + 1)) (x := .ptr x') (sp := sp')
            (v := xv')
            (R := rawItem (O.cell (.slice a (len + 1))) O.a :: (O.rest ++ R)) (SpareRep.tail hsp) (h11.perm (by
              rw [hmap1]
              refine List.Perm.trans (List.Perm.cons _ (List.Perm.swap _ _ _)) ?_
              refine List.Perm.trans (List.Perm.swap _ _ _) (List.Perm.cons _ (List.Perm.cons _ ?_))
              exact List.perm_middle.symm))
          rw [hlen] at h13
          have h14 := HoldsPool.closeSlot hf hO (hty ▸ h13.swap)
          simpa [subAssign, ho, hc, List.map_take] using h14
    · have : hreuse (S.msg t) (.slice a len) σ = (σ, .ok none) := by
        unfold hreuse
        simp only [hp, Bool.false_eq_true, if_false]
        rfl
      rw [HM.bind_ok this]
      exact hfresh (by simp [subTarget, ho, hc, hz, hp])

theorem messageItem_simP {off : Nat} {b : Bytes} (hf : (S.msg t).foreign = false) (hm : f ∈ (S.msg t).fields)
    (hk : f.kind = .message) (hmap : f.map = none) :
    HSimP S B t p (hmessageItem E hrec (S.msg t) f off b p) (messageItem (E.plain later) rec ((unpool S).msg t) f off b) := by
  by_cases ho : f.oneof = true
  · exact messageItem_oneofP hE H hf hm hk hmap ho
  · by_cases hc : f.card = .repeated
    · exact messageItem_repeatedP hE H hf hm hk hmap hc
    · exact messageItem_singleP hE H hf hm hk hmap (by simpa using ho) hc

/-! ## Maps -/

omit hE H in
theorem PoolSim.lift {α β γ : Type} {post : α → β → List VItem → Prop} {r : Res γ} {x : γ → HM α} {u : γ → Res β} (h : HoldsPool S B σ R)
    (hk : ∀ c, r = .ok c → PoolSim S B post (x c) (u c) R σ) : PoolSim S B post (HM.lift r >>= x) (r >>= u) R σ := by
  cases r with
  | ok c => exact hk c rfl
  | err e => exact ⟨σ, rfl, h⟩
  | panic e => exact ⟨σ, rfl, h⟩
  | diverge => exact ⟨σ, rfl, h⟩

/-- A map value. -/
def ItemPost (S : Schema) (k : Kind) (t : Nat) (a : HV × Nat) (b : Val × Nat) (I : List VItem) : Prop :=
  a.2 = b.2 ∧ ∃ v, I = [(elemTy k t, a.1, v)] ∧ ReuseElem (Reuse S) k t v b.1

omit hE H in
theorem HoldsPool.addFlat {x : HV} {v : Val} (h : HoldsPool S B σ R) (ha : ∀ R, Holds S B σ R → Holds S B σ ((.flat, x, v) :: R)) :
    HoldsPool S B σ ((.flat, x, v) :: R) := h.mapAll fun _ h => ha _ h

omit hE H in
theorem scalar_solid {k : Kind} (hk : fieldTy.isScalar k = true) : k ≠ .message ∧ k ≠ .group := by cases k <;> simp_all [fieldTy.isScalar]

theorem mapItem_simP {k : Kind} {d : Bytes} {base i : Nat} {old : BitVec 64} {oldv : Val} (hold : fieldTy.isScalar k = true → old = oldv.bits)
    (h : HoldsPool S B σ R) : PoolSim S B (ItemPost S k t) (hmapItem E hrec k t d base i old) (mapItem (E.plain later) rec k t d base i oldv) R σ := by
  have hA : (E.plain later).A = E.A := rfl
  have hal : (E.plain later).aliasing = E.aliasing := rfl
  have hsc : ∀ {k : Kind} (hk : fieldTy.isScalar k = true) {x : HV} {v : Val} {j : Nat}, (∀ R, Holds S B σ R → Holds S B σ ((.flat, x, v) :: R)) →
      PoolSim S B (ItemPost S k t) (pure (x, j)) (.ok (v, j)) R σ := by
    intro k hk x v j ha
    refine PoolSim.pure (I := [(elemTy k t, x, v)]) ⟨rfl, v, rfl, (reuseElem_scalar (scalar_solid hk)).2 rfl⟩ ?_
    rw [elemTy_flat hk]
    exact HoldsPool.addFlat h ha
  unfold hmapItem mapItem
  cases k with
  | string =>
    simp only [hA]
    refine PoolSim.lift h fun c _ => PoolSim.lift h fun b _ => ?_
    exact hsc rfl fun R h => string_sim hE.quiet _ _ h
  | bytes =>
    simp only [hA, hal]
    refine PoolSim.lift h fun c _ => PoolSim.lift h fun c' _ => ?_
    split
    · exact ⟨σ, rfl, h⟩
    · refine PoolSim.lift h fun b _ => ?_
      obtain ⟨L, h1, h2, h3⟩ := h
      obtain ⟨σ', v, h4, h5⟩ := newBytes_sim hE.quiet (base + c'.1) b h3
      have h6 : σ'.pool = σ.pool := by
        have := calm_newBytes E (base + c'.1) b σ
        rw [show E.newBytes (base + c'.1) b σ = (σ', .ok v) from h4] at this
        exact this
      exact ⟨σ', (v, c'.2), [(.bytes, v, _)], HM.bind_ok h4, ⟨rfl, _, rfl, (reuseElem_scalar ⟨by simp, by simp⟩).2 rfl⟩, L, h1.trans h6.symm, h2, h5⟩
  | message =>
    simp only [hA]
    refine PoolSim.lift h fun c _ => PoolSim.lift h fun b _ => ?_
    obtain ⟨σ1, x, h1, h2⟩ := new_simP hE.ok t h
    have hS : zeroMsg (E.plain later).S t = zeroMsg S t := by
      show zeroMsg (unpool E.S) t = _
      rw [hE.schema]
      exact (samePlan_unpool S).zeroMsg t
    rw [hS]
    obtain ⟨v1, h3, h4, h5⟩ := decodeMessage_simP hE H (off := base + c.1) (b := b) _ _ _ _ h2 (zeroMsg_reuse hE.ok t)
    rcases hx : hdecodeMessage E hrec (base + c.1) t b (.ptr x) σ1 with ⟨σ2, r⟩
    rcases hy : decodeMessage (E.plain later) rec (base + c.1) t b (zeroMsg S t) with ⟨x', r'⟩
    rw [hx, hy] at h3
    rw [hx] at h5
    rw [hy] at h4
    simp only at h3 h4 h5
    subst h3
    have hrun : ∀ (y : HM (HV × Nat)), ((do let v ← hnew E.S t; hdecodeMessage E hrec (base + c.1) t b v; pure (v, c.2)) : HM (HV × Nat)) σ
        = (hdecodeMessage E hrec (base + c.1) t b (.ptr x) >>= fun _ => pure (.ptr x, c.2)) σ1 := by
      intro _
      rw [hE.schema, HM.bind_ok h1]
    cases r with
    | ok u =>
      refine ⟨σ2, (.ptr x, c.2), [(.msg t, .ptr x, v1)], ?_, ⟨rfl, v1, rfl, reuseElem_msg (.inl rfl) h4⟩, h5⟩
      rw [hrun (pure (.nil, 0)), HM.bind_ok hx]
      rfl
    | err e =>
      refine ⟨σ2, ?_, h5.tail⟩
      rw [hrun (pure (.nil, 0))]
      simp only [Bind.bind, HM.bind, hx]
    | panic e =>
      refine ⟨σ2, ?_, h5.tail⟩
      rw [hrun (pure (.nil, 0))]
      simp only [Bind.bind, HM.bind, hx]
    | diverge =>
      refine ⟨σ2, ?_, h5.tail⟩
      rw [hrun (pure (.nil, 0))]
      simp only [Bind.bind, HM.bind, hx]
  | group => exact ⟨σ, rfl, h⟩
  | _ =>
    have hb := hold rfl
    subst hb
    simp only [hA]
    refine PoolSim.lift h fun c _ => ?_
    exact hsc rfl fun R h => h.addNum

theorem entryLoop_simP {md : MapDesc} (hkey : mapKeyKind md.key = true) {d : Bytes} {base post : Nat} : ∀ (n i : Nat) (key : Val) (x : HV) (v v' : Val) (σ : HState),
    HoldsPool S B σ ((elemTy md.val md.valMsg, x, v) :: R) → ReuseElem (Reuse S) md.val md.valMsg v v' →
    PoolSim S B (fun a b I => a.1 = b.1 ∧ ∃ v, I = [(elemTy md.val md.valMsg, a.2, v)] ∧ ReuseElem (Reuse S) md.val md.valMsg v b.2)
      (hentryLoop E hrec md d base post n i key x) (entryLoop (E.plain later) rec md d base post n i key v') R σ
  | 0, _, _, _, _, _, σ, h, _ => ⟨σ, rfl, h.tail⟩
  | n + 1, i, key, x, v, v', σ, h, hv => by
    unfold hentryLoop entryLoop
    by_cases hi : i < post
    · simp only [hi, if_true]
      refine PoolSim.lift h.tail fun c _ => ?_
      obtain ⟨wire, j⟩ := c
      simp only
      by_cases h1 : (wire >>> 3).setWidth 32 = (1 : BitVec 32)
      · simp only [h1, if_true]
        have hkey' := mapItem_key (U := ⟨E.S, E.R, E.A, false, [], fun _ _ => .nil⟩) (U' := { E.plain later with aliasing := false })
          (r := fun _ _ _ => UM.lift (.panic .typeConfusion)) (r' := rec) (t := 0) (d := d) (base := base) (i := j) (old := key) hkey rfl rfl rfl
        rw [hkey']
        refine PoolSim.lift h.tail fun c _ => ?_
        exact entryLoop_simP hkey n _ _ _ _ _ σ h hv
      · simp only [h1, if_false]
        by_cases h2 : (wire >>> 3).setWidth 32 = (2 : BitVec 32)
        · simp only [h2, if_true]
          have h3 := mapItem_simP hE H (k := md.val) (t := md.valMsg) (d := d) (base := base) (i := j) (old := x.bits) (oldv := v') (σ := σ) (R := R)
            (fun hs => by
              rw [← (reuseElem_scalar (scalar_solid hs)).1 hv]
              obtain ⟨L, -, -, h⟩ := h
              exact Holds.elemBits hs h) h.tail
          refine PoolSim.bind h3 ?_
          rintro σ' ⟨a, j1⟩ ⟨b, j2⟩ I ⟨hj, v1, rfl, hv1⟩ h4
          simp only at hj hv1 ⊢
          subst hj
          exact entryLoop_simP hkey n _ _ _ _ _ σ' h4 hv1
        · simp only [h2, if_false]
          have hA : (E.plain later).A = E.A := rfl
          rw [hA]
          refine PoolSim.lift h.tail fun c _ => ?_
          exact entryLoop_simP hkey n _ _ _ _ _ σ h hv
    · simp only [hi, if_false]
      exact PoolSim.pure (I := [(elemTy md.val md.valMsg, x, v)]) ⟨rfl, v, rfl, hv⟩ h

/-- A map field. -/
theorem mapEntry_simP {md : MapDesc} {d : Bytes} {base i post : Nat} (hf : (S.msg t).foreign = false) (hm : f ∈ (S.msg t).fields)
    (hmap : f.map = some md) :
    HSimP S B t p (hmapEntry E hrec f md d base i post p) (mapEntry (E.plain later) rec f md d base i post) := by
  intro m m' R σ h hr
  have hd := schemaOK_msg hE.ok t
  have hfm := (hd.fields f hm).map md hmap
  have ho : f.oneof = false := by
    cases ho : f.oneof with
    | false => rfl
    | true => have := ((hd.fields f hm).oneof ho).1; rw [hfm.1] at this; cases this
  have hty : fieldTy (S.msg t) f = .map (elemTy md.val md.valMsg) := by simp [fieldTy, ho, hfm.1, hmap]
  rcases h.openSlot hf hd hm with ⟨rfl, rfl⟩ | ⟨O, s, sv, rfl, rfl, hO, h'⟩
  · obtain rfl : m' = .nil := isNil_iff.1 (reuse_nil hr).symm
    exact ⟨.nil, rfl, hr, h⟩
  rw [hty] at h'
  -- the map
  obtain ⟨σ1, s1, es, h1, h2, h3⟩ : ∃ σ1 s1 es, hmakeMap (.ptr O.a) f.slot σ = (σ1, .ok s1) ∧ (if sv.isNil then .map [] else sv) = .map es ∧
      HoldsPool S B σ1 (rawItem (O.cell s1) O.a :: (.map (elemTy md.val md.valMsg), s1, .map es) :: (O.rest ++ R)) := by
    obtain ⟨L, hL1, hL2, h''⟩ := id h'
    rcases Holds.openMap (Holds.swap h'') with ⟨rfl, rfl, h2⟩ | ⟨a, es, rfl, rfl, -⟩
    · have h3 := Holds.alloc h2 (.map [])
      refine ⟨{ σ.grow (Cell.map []) with heap := (σ.grow (Cell.map [])).heap.set O.a (O.cell (.ptr σ.next)) },
        .ptr σ.next, [], ?_, rfl, L, hL1, hL2, ?_⟩
      · unfold hmakeMap
        rw [HM.bind_ok (hO.hget h'.read)]
        show (halloc (.map []) >>= fun a => hsetSlot (.ptr O.a) f.slot (.ptr a) >>= fun _ => pure (HV.ptr a)) σ = _
        rw [HM.bind_ok (halloc_ok _ _), HM.bind_ok (hO.hset h3.swap.read _)]
        rfl
      · have h4 := (h3.swap.write (O.cell (.ptr σ.next))).swap
        exact (Holds.sealMap (es := []) h4).swap
    · refine ⟨σ, .ptr a, _, ?_, rfl, h'⟩
      unfold hmakeMap
      rw [HM.bind_ok (hO.hget h'.read)]
      rfl
  obtain ⟨sv', hg, hsv, hw, hset⟩ := sim_getSlot hE.ok hf hm hO hr
  have hset1 : ∀ w, setSlot f.slot w m' = ((setSlot f.slot w m').1, .ok ()) := fun w => Prod.ext rfl (hw w)
  have hset2 : ∀ w w', setSlot f.slot w (setSlot f.slot w' m').1 = setSlot f.slot w m' := by
    intro w w'
    cases m' <;> simp [setSlot]
  -- the map of values
  rw [reuse_slot ho] at hsv
  unfold ReuseField at hsv
  simp only [hmap] at hsv
  obtain ⟨es', h2', hes⟩ : ∃ es', (if sv'.isNil then .map [] else sv') = .map es' ∧
      List.Forall₂ (fun e e' => e.1 = e'.1 ∧ ReuseElem (Reuse S) md.val md.valMsg e.2 e'.2) es es' := by
    rcases hsv with ⟨rfl, rfl⟩ | ⟨e1, e2, rfl, rfl, he⟩
    · cases h2
      exact ⟨[], rfl, .nil⟩
    · cases h2
      exact ⟨e2, rfl, he⟩
  have hslot : ∀ {e1 e2}, List.Forall₂ (fun e e' => e.1 = e'.1 ∧ ReuseElem (Reuse S) md.val md.valMsg e.2 e'.2) e1 e2 →
      (VRel.reuse S).slot t f (.map e1) (.map e2) := by
    intro e1 e2 he
    rw [reuse_slot ho]
    unfold ReuseField
    simp only [hmap]
    exact .inr ⟨e1, e2, rfl, rfl, he⟩
  unfold hmapEntry mapEntry
  rw [HM.bind_ok h1, UM.bind_ok hg]
  simp only [h2']
  rw [UM.bind_ok (hset1 (.map es'))]
  have hzero : ReuseElem (Reuse S) md.val md.valMsg (zeroScalar md.val) (zeroScalar md.val) := by
    by_cases hk : md.val = .message ∨ md.val = .group
    · rcases hk with hk | hk <;> rw [hk]
      · exact reuseElem_nilnil (.inl rfl) _
      · exact reuseElem_nilnil (.inr rfl) _
    · exact (reuseElem_scalar ⟨fun e => hk (.inl e), fun e => hk (.inr e)⟩).2 rfl
  have h4 := entryLoop_simP hE H hfm.2.2.1 (d := d) (base := base) (post := post) (d.length + 1) i (zeroScalar md.key) _ _ _ σ1
    (h3.mapAll (J := (elemTy md.val md.valMsg, hzeroScalar md.val, zeroScalar md.val) :: rawItem (O.cell s1) O.a ::
      (.map (elemTy md.val md.valMsg), s1, .map es) :: (O.rest ++ R)) fun P h => h.addZeroScalar md.val md.valMsg) hzero
  have hclose : ∀ σ', HoldsPool S B σ' (rawItem (O.cell s1) O.a :: (.map (elemTy md.val md.valMsg), s1, .map es) :: (O.rest ++ R)) →
      HoldsPool S B σ' ((.msg t, .ptr O.a, O.val (.map es)) :: R) := fun σ' h => HoldsPool.closeSlot hf hO (hty ▸ h)
  have hmade : Reuse S t (O.val (.map es)) (setSlot f.slot (.map es') m').1 := hset _ _ (hslot hes)
  cases hr2 : entryLoop (E.plain later) rec md d base post (d.length + 1) i (zeroScalar md.key) (zeroScalar md.val) with
  | ok c =>
    rw [hr2] at h4
    obtain ⟨σ2, a, I, h5, ⟨h6, v1, rfl, hv1⟩, h7⟩ := h4
    rw [HM.bind_ok h5, UM.bind_ok (show UM.lift (.ok c) (setSlot f.slot (.map es') m').1 = ((setSlot f.slot (.map es') m').1, .ok c) from rfl)]
    have h8 : HoldsPool S B σ2 ((.map (elemTy md.val md.valMsg), s1, .map es) :: (elemTy md.val md.valMsg, a.2, v1) :: rawItem (O.cell s1) O.a :: (O.rest ++ R)) :=
      h7.perm (List.Perm.trans (List.Perm.cons _ (List.Perm.swap _ _ _)) (List.Perm.swap _ _ _))
    obtain ⟨σ3, h9, h10⟩ := mapPut_simP (k := toKey c.1) h8
    simp only [h6]
    rw [h9]
    simp only [mapPut]
    rw [hset2, hset1]
    exact ⟨_, rfl, hset _ _ (hslot (forall₂_mapInsert hv1 hes)), HoldsPool.closeSlot hf hO (hty ▸ h10.swap)⟩
  | err e =>
    rw [hr2] at h4
    obtain ⟨σ', h5, h6⟩ := h4
    have : ∀ k : Val × HV → HM Unit, (hentryLoop E hrec md d base post (d.length + 1) i (zeroScalar md.key) (hzeroScalar md.val) >>= k) σ1 = (σ', .err e) := by
      intro k
      simp only [Bind.bind, HM.bind, h5]
    rw [this]
    exact ⟨_, rfl, hmade, hclose _ h6⟩
  | panic e =>
    rw [hr2] at h4
    obtain ⟨σ', h5, h6⟩ := h4
    have : ∀ k : Val × HV → HM Unit, (hentryLoop E hrec md d base post (d.length + 1) i (zeroScalar md.key) (hzeroScalar md.val) >>= k) σ1 = (σ', .panic e) := by
      intro k
      simp only [Bind.bind, HM.bind, h5]
    rw [this]
    exact ⟨_, rfl, hmade, hclose _ h6⟩
  | diverge =>
    rw [hr2] at h4
    obtain ⟨σ', h5, h6⟩ := h4
    have : ∀ k : Val × HV → HM Unit, (hentryLoop E hrec md d base post (d.length + 1) i (zeroScalar md.key) (hzeroScalar md.val) >>= k) σ1 = (σ', .diverge) := by
      intro k
      simp only [Bind.bind, HM.bind, h5]
    rw [this]
    exact ⟨_, rfl, hmade, hclose _ h6⟩

/-! ## Groups, numbers, packed lists, records -/

omit H in
theorem groupLoop_simP {wire : BitVec 64} {d : Bytes} {base start : Nat} (hw : (wire &&& 7).toNat ≠ 4) : ∀ n i : Nat,
    HSimP S B t p (hgroupLoop E hrec f wire d base start p n i) (groupLoop (E.plain later) rec f wire d base start n i)
  | 0, _ => HSimP.lift _
  | n + 1, i => by
    have hA : (E.plain later).A = E.A := rfl
    unfold hgroupLoop groupLoop
    refine HSimP.lift_bind fun c _ => ?_
    obtain ⟨-, j⟩ := c
    simp only [hw, if_false, hA]
    refine HSimP.lift_bind fun b _ => HSimP.lift_bind fun k _ => ?_
    split
    · exact HSimP.lift _
    · exact groupLoop_simP hw n _

omit hE H in
theorem numeric_direct {A : Arch} {k : Kind} {b : Bytes} {i : Nat} {v : BitVec 64} (h : direct A k b i = some v) : numeric k = true := by
  cases k <;> first | rfl | cases h

omit H in
theorem direct_simP {proto3 : Bool} {b : Bytes} {i : Nat} (hf : (S.msg t).foreign = false) (hm : f ∈ (S.msg t).fields)
    (h3 : proto3 = true → (S.msg t).proto3 = true) :
    HSimP S B t p (hdirect E f proto3 b i p) (if !f.oneof && f.card != .repeated && proto3 && !f.synthetic then
      match direct E.A f.kind b i with
      | some v => setSlot f.slot (.num v)
      | none => pure ()
      else pure ()) := by
  refine HSimP.leaf (direct_sim hf (schemaOK_msg hE.ok t) hm h3) (calm_direct _ _ _ _ _ _) ?_
  split
  · rename_i hc
    simp only [Bool.and_eq_true, Bool.not_eq_true', bne_iff_ne, ne_eq] at hc
    obtain ⟨⟨⟨ho, hr⟩, hp⟩, hs⟩ := hc
    cases hv : direct E.A f.kind b i with
    | none => exact Sim.pure trivial
    | some v =>
      have hl := leafEnv_sim hE.ok .nil
      exact hl.set t hf f hm _ _ (hl.num t f hm ho (by simpa using hr) (numeric_direct hv) v)
  · exact Sim.pure trivial

omit H in
theorem num_simP {proto3 : Bool} {b : Bytes} {i : Nat} (hf : (S.msg t).foreign = false) (hm : f ∈ (S.msg t).fields)
    (h3 : proto3 = true → (S.msg t).proto3 = true) (hk : numeric f.kind = true) :
    HSimP S B t p (hdirect E f proto3 b i p >>= fun _ => HM.lift (readNum E.A f.kind b i) >>= fun c => hstore E (S.msg t) f p (.num c.1) >>= fun _ => pure c.2)
      ((if !f.oneof && f.card != .repeated && proto3 && !f.synthetic then
      match direct E.A f.kind b i with
      | some v => setSlot f.slot (.num v)
      | none => pure ()
      else pure ()) >>= fun _ => UM.lift (readNum E.A f.kind b i) >>= fun c => store f (.num c.1) >>= fun _ => pure c.2) := by
  refine HSimP.bind (direct_simP hE hf hm h3) fun _ => HSimP.lift_bind fun c _ => HSimP.bind ?_ fun _ => HSimP.pure _
  refine store_simP hE.ok hf hm ?_ (fun e => by cases e) (fun σ R h => h.addNum) fun ho hc => ?_
  · revert hk
    cases f.kind <;> simp [numeric, fieldTy.isScalar]
  · exact (leafEnv_sim hE.ok .nil).num t f hm ho hc hk c.1

theorem fieldItem_simP {proto3 : Bool} {wire : BitVec 64} {b : Bytes} {base i : Nat} (hw : (wire &&& 7).toNat ≠ 4) (hf : (S.msg t).foreign = false)
    (hm : f ∈ (S.msg t).fields) (h3 : proto3 = true → (S.msg t).proto3 = true) :
    HSimP S B t p (hfieldItem E hrec (S.msg t) f proto3 wire b base i p) (fieldItem (E.plain later) rec ((unpool S).msg t) f proto3 wire b base i) := by
  have hA : (E.plain later).A = E.A := rfl
  have hd := schemaOK_msg hE.ok t
  unfold hfieldItem fieldItem
  simp only [hA]
  have hnum := num_simP (E := E) (B := B) (p := p) (b := b) (i := i) hE hf hm h3
  cases hk : f.kind with
  | string =>
    simp only
    refine HSimP.lift_bind fun c _ => HSimP.lift_bind fun s _ => HSimP.bind ?_ fun _ => HSimP.pure _
    refine store_simP hE.ok hf hm (by rw [hk]; rfl) (string_solid E _ _) (fun σ R h => string_sim hE.quiet _ _ h) fun ho hc => ?_
    exact (leafEnv_sim hE.ok .nil).str t f hm ho hc (.inl hk) _ _ rfl
  | bytes =>
    simp only
    refine HSimP.lift_bind fun c _ => HSimP.lift_bind fun s _ => HSimP.bind ?_ fun _ => HSimP.pure _
    refine HSimP.leaf (storeBytes_sim hE.quiet hf hd hm hk) (calm_storeBytes _ _ _ _ _) ?_
    refine sim_store (leafEnv_sim hE.ok .nil) hf hm ?_ (.inl rfl) fun ho hc => ?_
    · simp [FieldDesc.hasMessage, hk]
    · exact (leafEnv_sim hE.ok .nil).str t f hm ho hc (.inr hk) _ _ rfl
  | group => exact groupLoop_simP hE hw _ _
  | message =>
    simp only
    refine HSimP.lift_bind fun c _ => ?_
    unfold hsubItem
    cases hmap : f.map with
    | some md =>
      simp only
      exact HSimP.bind (mapEntry_simP hE H hf hm hmap) fun _ => HSimP.pure _
    | none =>
      simp only
      rw [HM.bind_assoc]
      exact HSimP.lift_bind fun s _ => HSimP.bind (messageItem_simP hE H hf hm hk hmap) fun _ => HSimP.pure _
  | _ =>
    have h := hnum (by rw [hk]; rfl)
    simp only
    rw [← hk]
    by_cases hc : (!f.oneof && f.card != .repeated && proto3 && !f.synthetic) = true
    · simp only [hc, if_true] at h ⊢
      cases hv : direct E.A f.kind b i with
      | none =>
        simp only [hv] at h ⊢
        exact h
      | some v =>
        simp only [hv] at h ⊢
        exact h
    · simp only [hc, Bool.false_eq_true, if_false] at h ⊢
      exact h

theorem packedLoop_simP {wire : BitVec 64} {b : Bytes} {base post : Nat} (hw : (wire &&& 7).toNat ≠ 4) (hf : (S.msg t).foreign = false)
    (hm : f ∈ (S.msg t).fields) : ∀ n i : Nat,
    HSimP S B t p (hpackedLoop E hrec (S.msg t) f wire b base post p n i) (packedLoop (E.plain later) rec ((unpool S).msg t) f wire b base post n i)
  | 0, _ => HSimP.lift _
  | n + 1, i => by
    unfold hpackedLoop packedLoop
    split
    · exact HSimP.bind (fieldItem_simP hE H hw hf hm (fun h => by cases h)) fun j => packedLoop_simP hw hf hm n j
    · exact HSimP.pure _

theorem fieldCase_simP {wire : BitVec 64} {b : Bytes} {base i : Nat} (hw : (wire &&& 7).toNat ≠ 4) (hf : (S.msg t).foreign = false)
    (hm : f ∈ (S.msg t).fields) :
    HSimP S B t p (hfieldCase E hrec (S.msg t) f wire b base i p) (fieldCase (E.plain later) rec ((unpool S).msg t) f wire b base i) := by
  have hA : (E.plain later).A = E.A := rfl
  have hp3 : ((unpool S).msg t).proto3 = (S.msg t).proto3 := (samePlan_unpool S).proto3 t
  have hd := schemaOK_msg hE.ok t
  unfold hfieldCase fieldCase
  simp only [hA, hp3]
  by_cases hl : (f.isList && protoWireType f.kind != 2) = true
  · simp only [hl, if_true]
    by_cases h1 : (wire &&& 7).toNat = protoWireType f.kind
    · simp only [h1, if_true]
      exact fieldItem_simP hE H hw hf hm (fun h => by cases h)
    · simp only [h1, if_false]
      by_cases h2 : (wire &&& 7).toNat = 2
      · simp only [h2, if_true]
        refine HSimP.lift_bind fun c _ => HSimP.lift_bind fun s _ => HSimP.bind ?_ fun _ => packedLoop_simP hE H hw hf hm _ _
        simp only [Bool.and_eq_true] at hl
        refine HSimP.leaf (prealloc_sim hf hd hm fun hc => ?_) (calm_prealloc _ _ _ _) (sim_prealloc (leafEnv_sim hE.ok .nil) hf hm hl.1 _)
        have hk := elementCount_scalar hc
        have hrep : f.card = .repeated ∧ f.map = none := by
          have := hl.1
          simpa [FieldDesc.isList] using this
        have ho : f.oneof = false := by
          cases ho : f.oneof with
          | false => rfl
          | true => have := ((hd.fields f hm).oneof ho).1; rw [hrep.1] at this; cases this
        simp [fieldTy, ho, hrep.1, hrep.2, elemTy_flat hk]
      · simp only [h2, if_false]
        exact HSimP.lift _
  · simp only [hl, Bool.false_eq_true, if_false]
    split
    · exact HSimP.lift _
    · exact fieldItem_simP hE H hw hf hm (fun h => h)

omit H in
theorem runtimePartial_simP {b : Bytes} (hf : (S.msg t).foreign = false) (hb : ExtRecord E.A (S.msg t) b) :
    HSimP S B t p (hruntimePartial E t b p) (runtimePartial (E.plain later) t b) := by
  have hz := zeroMsg_reuse hE.ok t
  refine HSimP.leaf (u := runtimePartial (HEnv.toU { E with pick := fun _ => none } later) t b) ?_ (calm_runtimePartial _ _ _ _) ?_
  · exact runtimePartial_sim hE.quiet hf hb
  · intro m m' hm
    unfold runtimePartial
    simp only [HEnv.toU, HEnv.plain]
    rcases reuse_cases hf hm with ⟨s, u, e, s', u', e', rfl, rfl⟩ | ⟨rfl, hn⟩
    · cases hr : E.R.unmarshalPartial t b with
      | none => exact .inr ⟨hm, rfl⟩
      | some v =>
        obtain ⟨s, u, e, h1, rfl⟩ := hE.ext t b v hb hr
        refine ⟨?_, (), rfl, trivial⟩
        have h2 : Reuse S t (zeroMsg S t) (zeroMsg S t) := hz
        rw [h1] at h2
        exact (reuse_msg hf).2 ⟨rfl, rfl, ((reuse_msg hf).1 h2).2.2⟩
    · cases m with
      | msg s u e => exact absurd rfl (hn _ _ _)
      | _ => exact .inr ⟨hm, rfl⟩

omit H in
theorem unknownCase_simP {wire : BitVec 64} {k : Nat} {b : Bytes} {i : Nat} (hf : (S.msg t).foreign = false) (hw : decodeVarint 64 b i = .ok (wire, k))
    (hno : (S.msg t).fields.find? (fun f => f.num == ((wire >>> 3).setWidth 32 : BitVec 32).toNat) = none) :
    HSimP S B t p (hunknownCase E t ((wire >>> 3).setWidth 32 : BitVec 32).toNat b i p)
      (unknownCase (E.plain later) t ((wire >>> 3).setWidth 32 : BitVec 32).toNat b i) := by
  have hA : (E.plain later).A = E.A := rfl
  have hS : (E.plain later).S = unpool S := by
    show unpool E.S = _
    rw [hE.schema]
  have hku : ((unpool S).msg t).keepUnknown = (S.msg t).keepUnknown := (samePlan_unpool S).keepUnknown t
  unfold hunknownCase unknownCase hkeepUnknown
  simp only [hA, hS, hE.schema, (samePlan_unpool S).extRanges, hku]
  refine HSimP.lift_bind fun j hj => ?_
  split
  · rename_i hx
    refine HSimP.lift_bind fun s hs => HSimP.bind (runtimePartial_simP hE hf ⟨b, i, j, k, wire, hw, hj, hs, ?_, ?_⟩) fun _ => HSimP.pure _
    · intro f hfm
      simpa using List.find?_eq_none.1 hno f hfm
    · obtain ⟨r, hr, h⟩ := List.any_eq_true.1 hx
      exact ⟨r, hr, by simpa using h⟩
  · refine HSimP.lift_bind fun s _ => ?_
    split
    · exact HSimP.bind (appendUnknown_simP hE.ok hf) fun _ => HSimP.pure _
    · exact HSimP.bind (HSimP.pure _) fun _ => HSimP.pure _

theorem recordStep_simP {b : Bytes} {base i : Nat} {has : List (BitVec 64)} (hf : (S.msg t).foreign = false) :
    HSimP S B t p (hrecordStep E hrec t b base i has p) (recordStep (E.plain later) rec t b base i has) := by
  have hS : (E.plain later).S = unpool S := by
    show unpool E.S = _
    rw [hE.schema]
  unfold hrecordStep recordStep
  simp only [hS, hE.schema, (samePlan_unpool S).fields, (samePlan_unpool S).markField]
  refine HSimP.lift_bind fun c hc => ?_
  obtain ⟨wire, j⟩ := c
  simp only
  split
  · exact HSimP.lift _
  · rename_i hw
    split
    · exact HSimP.lift _
    · cases hfd : (S.msg t).fields.find? (fun f => f.num == ((wire >>> 3).setWidth 32 : BitVec 32).toNat) with
      | some f =>
        simp only
        exact HSimP.bind (fieldCase_simP hE H hw hf (List.mem_of_find?_eq_some hfd)) fun j => HSimP.lift_bind fun has _ => HSimP.pure _
      | none =>
        simp only
        exact HSimP.bind (unknownCase_simP hE hf hc hfd) fun j => HSimP.pure _

theorem recordLoop_simP {b : Bytes} {base : Nat} (hf : (S.msg t).foreign = false) : ∀ (n i : Nat) (has : List (BitVec 64)),
    HSimP S B t p (hrecordLoop E hrec t b base p n i has) (recordLoop (E.plain later) rec t b base n i has)
  | 0, _, _ => HSimP.lift _
  | n + 1, i, has => by
    unfold hrecordLoop recordLoop
    split
    · exact HSimP.bind (recordStep_simP hE H hf) fun c => recordLoop_simP hf n _ _
    · exact HSimP.pure _

theorem unmarshalBody_simP : HRecP S B (hunmarshalBody E hrec) (unmarshalBody (E.plain later) rec) := by
  intro base t b p hf
  have hS : (E.plain later).S = unpool S := by
    show unpool E.S = _
    rw [hE.schema]
  unfold hunmarshalBody unmarshalBody
  simp only [hS, hE.schema, (samePlan_unpool S).noFields, (samePlan_unpool S).fields, (samePlan_unpool S).checkRequired]
  refine HSimP.bind (recordLoop_simP hE H hf _ _ _) fun c => HSimP.lift_bind fun _ _ => ?_
  split
  · exact HSimP.lift _
  · exact HSimP.pure _

omit H in
theorem unmarshalN_simP : ∀ n, HRecP S B (hunmarshalN E n) (unmarshalN (E.plain later) n)
  | 0 => fun _ _ _ _ _ => HSimP.lift _
  | n + 1 => unmarshalBody_simP hE (unmarshalN_simP n)

omit H in
theorem unmarshalVT_simP {b : Bytes} (hf : (S.msg t).foreign = false) : HSimP S B t p (hunmarshalVT E t b p) (unmarshalVT (E.plain later) t b) :=
  unmarshalN_simP hE _ _ _ _ _ hf

end

end Vtp
