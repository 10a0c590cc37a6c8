import Verif.Lemmas.HeapSimDec
/-! # Decoding in memory and decoding of values: messages -/

namespace Vtp
open Spec

section
variable {S : Schema} {B : Bufs} {σ : HState} {R : List VItem} {t : Nat} {p : HV} {f : FieldDesc}
variable {E : HEnv} {later : Bytes}

/-! ## Unknown fields -/

theorem appendUnknown_sim {b : Bytes} (hf : (S.msg t).foreign = false) : SimU S B t p (happendUnknown E p b) (appendUnknown b) := by
  intro m R σ h
  rcases h.openMsg hf with ⟨rfl, rfl, -⟩ | ⟨a, its, u, uv, e, rfl, rfl, ht, h'⟩
  · exact ⟨rfl, h⟩
  · have h1 : Holds S B σ ((.mem, u, uv) :: rawItem (.msg (its.map (·.2.1)) u e) a :: (its ++ R)) := by
      refine h'.perm (List.Perm.trans (List.Perm.cons _ List.perm_middle) (List.Perm.swap _ _ _))
    obtain ⟨σ', u', uv', h2, h3, h4⟩ := appendMem_sim E.extra b h1
    have h5 : happendUnknown E (.ptr a) b σ = ({ σ' with heap := σ'.heap.set a (.msg (its.map (·.2.1)) u' e) }, .ok ()) := by
      unfold happendUnknown
      simp only
      rw [HM.bind_ok (hread_ok h'.read)]
      simp only
      rw [HM.bind_ok h2, HM.bind_ok (hread_ok h4.swap.read)]
      rfl
    rw [h5]
    refine ⟨rfl, ?_⟩
    have h6 := h4.swap.write (.msg (its.map (·.2.1)) u' e)
    have h7 := Holds.sealMsg hf ht (h6.perm (List.Perm.cons _ List.perm_middle.symm))
    rw [h3] at h7
    exact h7

/-! ## New messages -/

theorem Spec.Holds.addZeroScalar (k : Kind) (t : Nat) (h : Holds S B σ R) : Holds S B σ ((elemTy k t, hzeroScalar k, zeroScalar k) :: R) := by
  refine h.map fun F hr => ⟨F, le_rfl, ?_⟩
  cases k <;> first | exact .num hr | exact .str hr | exact .nil rfl hr

theorem Spec.Holds.addZeroField (d : MsgDesc) (f : FieldDesc) (h : Holds S B σ R) : Holds S B σ ((fieldTy d f, hzeroField f, zeroField f) :: R) := by
  by_cases hc : (f.oneof || f.card == .repeated || f.presence) = true
  · simp only [hzeroField, zeroField, hc, if_true]
    exact h.addNil (fieldTy_nilable d f)
  · have hty : fieldTy d f = elemTy f.kind f.msg := by
      simp only [Bool.or_eq_true, not_or, Bool.not_eq_true] at hc
      simp [fieldTy, hc.1.1, hc.1.2, hc.2]
    simp only [hzeroField, zeroField, hc, Bool.false_eq_true, if_false, hty]
    exact h.addZeroScalar _ _

theorem Spec.Holds.addZeroSlots (d : MsgDesc) (l : List Nat) (h : Holds S B σ R) :
    Holds S B σ (l.map (fun s => (slotTy d s, hzeroSlot d s, zeroSlot d s)) ++ R) := by
  induction l with
  | nil => exact h
  | cons s l ih =>
    simp only [List.map_cons, List.cons_append]
    cases hfd : d.fields.find? (fun f => f.slot == s) with
    | none =>
      simp only [slotTy, hzeroSlot, zeroSlot, hfd]
      exact Holds.addNil rfl ih
    | some f =>
      simp only [slotTy, hzeroSlot, zeroSlot, hfd]
      exact ih.addZeroField d f

theorem new_sim (t : Nat) (h : Holds S B σ R) :
    ∃ σ' a, hnew S t σ = (σ', .ok (.ptr a)) ∧ Holds S B σ' ((.msg t, .ptr a, zeroMsg S t) :: R) := by
  refine ⟨_, _, rfl, ?_⟩
  unfold hzeroCell
  by_cases hf : (S.msg t).foreign = true
  · simp only [hf, if_true]
    obtain ⟨F, h1, hg⟩ := h.alloc (.foreign (zeroMsg S t))
    cases h1 with
    | raw hc hI => exact ⟨_, .foreign hf hc (fun e => nomatch e) hI, hg⟩
  · simp only [hf, Bool.false_eq_true, if_false]
    have h1 : Holds S B σ ((.mem, .nil, .nil) :: R) := h.addNil rfl
    have h2 := (h1.addZeroSlots (S.msg t) (List.range (S.msg t).nslots)).alloc (.msg ((List.range (S.msg t).nslots).map (hzeroSlot (S.msg t))) .nil [])
    have h3 := Holds.sealMsg (t := t) (its := (List.range (S.msg t).nslots).map (fun s => (slotTy (S.msg t) s, hzeroSlot (S.msg t) s, zeroSlot (S.msg t) s)))
      (u := .nil) (uv := .nil) (e := []) (R := R) (σ := (σ.grow (.msg ((List.range (S.msg t).nslots).map (hzeroSlot (S.msg t))) .nil [])))
      (a := σ.next) (by simpa using hf) (by rw [List.map_map]; rfl) (by rw [List.map_map]; exact h2)
    rw [List.map_map] at h3
    exact h3

/-- A decoder in memory does what one of values does. -/
def HRecSim (S : Schema) (B : Bufs) (hrec : HSubDec) (rec : SubDec) : Prop :=
  ∀ off t b p, (S.msg t).foreign = false → SimU S B t p (hrec off t b p) (rec off t b)

variable (hE : HSimEnv S B E later)
include hE

theorem newSub_sim (d : MsgDesc) (off t : Nat) (h : Holds S B σ R) :
    ∃ σ' a, hnewSub E d off t σ = (σ', .ok (.ptr a)) ∧ Holds S B σ' ((.msg t, .ptr a, newSub (E.toU later) d off t) :: R) := by
  have h1 : hnewSub E d off t = hnew S t := by
    unfold hnewSub
    rw [hE.schema, hE.pick off]
    split
    · rfl
    · rfl
  have h2 : newSub (E.toU later) d off t = zeroMsg S t := by
    unfold newSub HEnv.toU
    simp only [hE.schema]
    split <;> rfl
  rw [h1, h2]
  exact new_sim t h

variable {hrec : HSubDec} {rec : SubDec} (H : HRecSim S B hrec rec)
include H

theorem decodeMessage_sim {off : Nat} {b : Bytes} : SimU S B t p (hdecodeMessage E hrec off t b p) (decodeMessage (E.toU later) rec off t b) := by
  intro m R σ h
  unfold hdecodeMessage decodeMessage HEnv.toU
  simp only [hE.schema]
  by_cases hf : (S.msg t).foreign = true
  · simp only [hf, if_true]
    obtain ⟨F, h1, hg⟩ := h
    cases h1 with
    | nil hn hI => exact ⟨rfl, _, .nil hn hI, hg⟩
    | msg hf' _ _ _ => rw [hf] at hf'; cases hf'
    | foreign _ hc hv hI =>
      have hn : m.isNil = false := by cases m <;> first | rfl | exact absurd rfl hv
      simp only [hn, Bool.false_eq_true, if_false]
      cases hr : E.R.unmarshal t b with
      | none => exact ⟨rfl, _, .foreign hf hc hv hI, hg⟩
      | some v =>
        refine ⟨rfl, ?_⟩
        obtain ⟨F', h2, hg'⟩ := Holds.write (S := S) (σ := σ) ⟨_, .raw hc hI, hg⟩ (.foreign v)
        cases h2 with
        | raw hc' hI' => exact ⟨_, .foreign hf hc' (hE.run t b v hr) hI', hg'⟩
  · simp only [hf, Bool.false_eq_true, if_false]
    exact H off t b p (by simpa using hf) m R σ h

/-! ## Message fields -/

omit hE H in
theorem messageItem_val {UE : UEnv} {rec : SubDec} {d d' : MsgDesc} {off : Nat} {b : Bytes} {O : Obj} {sv x : Val} (hO : O.OK d' f) (hs : subTarget UE d f off sv = .ok x) :
    messageItem UE rec d f off b (O.val sv) = if f.oneof && !holds f sv then
      (match (decodeMessage UE rec off f.msg b x).2 with
        | .ok () => (O.val (subAssign f sv (decodeMessage UE rec off f.msg b x).1), .ok ())
        | r => (O.val sv, r))
      else (O.val (subAssign f sv (decodeMessage UE rec off f.msg b x).1), (decodeMessage UE rec off f.msg b x).2) := by
  unfold messageItem
  rw [UM.bind_ok (hO.get sv), UM.bind_ok (show UM.lift (subTarget UE d f off sv) (O.val sv) = (O.val sv, .ok x) by rw [hs]; rfl)]
  rcases hd : decodeMessage UE rec off f.msg b x with ⟨x', r⟩
  simp only
  split
  · cases r with
    | ok u =>
      rw [UM.bind_ok (show UM.lift (.ok u) (O.val sv) = (O.val sv, .ok u) from rfl)]
      exact hO.set _ _
    | err e => rfl
    | panic e => rfl
    | diverge => rfl
  · rw [UM.bind_ok (hO.set _ _)]
    rfl

omit hE H in
theorem Spec.Holds.openOneof {d : MsgDesc} {slot : Nat} {s : HV} {v : Val} (h : Holds S B σ ((.oneof d slot, s, v) :: R)) :
    (s = .nil ∧ v = .nil) ∨ (∃ n, s = .wrapNil n ∧ v = .wrapNil n) ∨ ∃ a n g x w, s = .ptr a ∧ v = .wrap n w ∧ d.member slot n = some g ∧
      Holds S B σ (rawItem (.wrap n x) a :: (elemTy g.kind g.msg, x, w) :: R) := by
  obtain ⟨F, h1, hg⟩ := h
  cases h1 with
  | nil _ hI => exact .inl ⟨rfl, rfl⟩
  | wrapNil _ => exact .inr (.inl ⟨_, rfl, rfl⟩)
  | oneof hc hm hI => exact .inr (.inr ⟨_, _, _, _, _, rfl, rfl, hm, _, .raw hc hI, hg⟩)

omit hE H in
theorem Spec.Holds.sealOneof {d : MsgDesc} {slot : Nat} {a : Addr} {n : Nat} {g : FieldDesc} {x : HV} {w : Val} (hm : d.member slot n = some g)
    (h : Holds S B σ (rawItem (.wrap n x) a :: (elemTy g.kind g.msg, x, w) :: R)) : Holds S B σ ((.oneof d slot, .ptr a, .wrap n w) :: R) := by
  obtain ⟨F, h1, hg⟩ := h
  cases h1 with
  | raw hc hI => exact ⟨_, .oneof hc hm hI, hg⟩

/-- A message field that is a member of a oneof. -/
theorem messageItem_oneof {off : Nat} {b : Bytes} (hf : (S.msg t).foreign = false) (hd : MsgFacts (S.msg t)) (hm : f ∈ (S.msg t).fields)
    (hk : f.kind = .message) (ho : f.oneof = true) :
    SimU S B t p (hmessageItem E hrec (S.msg t) f off b p) (messageItem (E.toU later) rec (S.msg t) f off b) := by
  intro m R σ h
  have he : elemTy f.kind f.msg = .msg f.msg := by rw [hk]; rfl
  have hty : fieldTy (S.msg t) f = .oneof (S.msg t) f.slot := by simp [fieldTy, ho]
  rcases h.openSlot hf hd hm with ⟨rfl, rfl⟩ | ⟨O, s, sv, rfl, rfl, hO, h'⟩
  · exact ⟨rfl, h⟩
  -- a new member
  have hfresh : ∀ (hs : subTarget (E.toU later) (S.msg t) f off sv = .ok (newSub (E.toU later) (S.msg t) off f.msg)) (hh : holds f sv = false),
      (((do let x ← hnewSub E (S.msg t) off f.msg
            hdecodeMessage E hrec off f.msg b x
            let a ← halloc (.wrap f.num x)
            hsetSlot (.ptr O.a) f.slot (.ptr a)) : HM Unit) σ).2 = (messageItem (E.toU later) rec (S.msg t) f off b (O.val sv)).2 ∧
      Holds S B (((do let x ← hnewSub E (S.msg t) off f.msg
                      hdecodeMessage E hrec off f.msg b x
                      let a ← halloc (.wrap f.num x)
                      hsetSlot (.ptr O.a) f.slot (.ptr a)) : HM Unit) σ).1
        ((.msg t, .ptr O.a, (messageItem (E.toU later) rec (S.msg t) f off b (O.val sv)).1) :: R) := by
    intro hs hh
    rw [messageItem_val hO hs]
    simp only [ho, hh, Bool.not_false, Bool.and_true, if_true]
    obtain ⟨σ1, x, h1, h2⟩ := newSub_sim hE (S.msg t) off f.msg h
    rw [HM.bind_ok h1]
    obtain ⟨h3, h4⟩ := decodeMessage_sim hE H (off := off) (b := b) _ _ _ h2
    rcases hx : hdecodeMessage E hrec off f.msg b (.ptr x) σ1 with ⟨σ2, r⟩
    rcases hy : decodeMessage (E.toU later) rec off f.msg b (newSub (E.toU later) (S.msg t) off f.msg) with ⟨x', r'⟩
    rw [hx, hy] at h3 h4
    simp only at h3 h4
    subst h3
    cases r with
    | ok u =>
      rw [HM.bind_ok hx]
      have h5 := wrapPut_sim (f := f) hf hd hm ho (O.val sv) R σ2 (he ▸ h4.swap)
      rw [hO.set] at h5
      simpa [subAssign, ho] using h5
    | err e => 
      simp only [Bind.bind, HM.bind, hx]
      exact ⟨trivial, h4.tail⟩
    | panic e =>
      simp only [Bind.bind, HM.bind, hx]
      exact ⟨trivial, h4.tail⟩
    | diverge =>
      simp only [Bind.bind, HM.bind, hx]
      exact ⟨trivial, h4.tail⟩
  unfold hmessageItem
  rw [HM.bind_ok (hO.hget h'.read)]
  simp only [ho, if_true]
  have h2 := h'.swap
  rw [hty] at h2
  rcases h2.openOneof with ⟨rfl, rfl⟩ | ⟨n, rfl, rfl⟩ | ⟨a, n, g, x, w, rfl, rfl, hg, h3⟩
  · rw [HM.bind_ok (show hholds .nil f.num σ = (σ, .ok none) from rfl)]
    exact hfresh (by simp [subTarget, ho]) rfl
  · by_cases hn : n = f.num
    · subst hn
      rw [HM.bind_ok (show hholds (.wrapNil f.num) f.num σ = (σ, .ok (some .nil)) by simp [hholds]; rfl)]
      have : messageItem (E.toU later) rec (S.msg t) f off b (O.val (.wrapNil f.num)) = (O.val (.wrapNil f.num), .panic .nilDeref) := by
        unfold messageItem
        rw [UM.bind_ok (hO.get _)]
        exact UM.bind_panic (by simp [subTarget, ho, UM.lift])
      rw [this]
      exact ⟨rfl, h⟩
    · rw [HM.bind_ok (show hholds (.wrapNil n) f.num σ = (σ, .ok none) by simp [hholds, hn]; rfl)]
      exact hfresh (by simp [subTarget, ho, hn]) rfl
  · have hh : hholds (.ptr a) f.num σ = (σ, .ok (if n = f.num then some (.ptr a) else none)) := by
      unfold hholds
      simp only
      rw [HM.bind_ok (hread_ok h3.read)]
      rfl
    rw [HM.bind_ok hh]
    by_cases hn : n = f.num
    · subst hn
      simp only [if_true]
      have hgf : g = f := by
        have := member_of hd hm ho
        rw [this] at hg
        exact (Option.some.inj hg).symm
      subst hgf
      have hmem : hmember (.ptr a) σ = (σ, .ok x) := by
        unfold hmember
        simp only
        rw [HM.bind_ok (hread_ok h3.read)]
        rfl
      rw [HM.bind_ok hmem]
      rw [messageItem_val (x := w) hO (by simp [subTarget, ho])]
      simp only [ho, holds, BEq.rfl, Bool.not_true, Bool.and_false, Bool.false_eq_true, if_false]
      rw [he] at h3
      obtain ⟨h4, h5⟩ := decodeMessage_sim hE H (off := off) (b := b) _ _ _ h3.swap
      refine ⟨h4, ?_⟩
      have h6 := Holds.sealOneof hg (he ▸ h5.swap)
      have h7 := Holds.closeSlot hf hO (hty ▸ h6.swap)
      simpa [subAssign, ho] using h7
    · simp only [hn, if_false]
      exact hfresh (by simp [subTarget, ho, hn]) (by simp [holds, hn])

/-- A singular message field. -/
theorem messageItem_single {off : Nat} {b : Bytes} (hf : (S.msg t).foreign = false) (hd : MsgFacts (S.msg t)) (hm : f ∈ (S.msg t).fields)
    (hk : f.kind = .message) (ho : f.oneof = false) (hc : f.card ≠ .repeated) :
    SimU S B t p (hmessageItem E hrec (S.msg t) f off b p) (messageItem (E.toU later) rec (S.msg t) f off b) := by
  intro m R σ h
  have hc' : (f.card == .repeated) = false := by simpa using hc
  have hty : fieldTy (S.msg t) f = .msg f.msg := by simp [fieldTy, ho, hc, hk, fieldTy.isScalar, elemTy]
  rcases h.openSlot hf hd hm with ⟨rfl, rfl⟩ | ⟨O, s, sv, rfl, rfl, hO, h'⟩
  · exact ⟨rfl, h⟩
  unfold hmessageItem
  rw [HM.bind_ok (hO.hget h'.read)]
  simp only [ho, hc', Bool.false_eq_true, if_false]
  rw [hty] at h'
  have hnil : s.isNil = sv.isNil := h'.swap.isNil (fun c e => by cases e)
  cases hs : s.isNil with
  | true =>
    simp only [if_true]
    obtain ⟨σ1, x, h1, h2⟩ := newSub_sim hE (S.msg t) off f.msg h'.drop2
    rw [HM.bind_ok h1]
    rw [HM.bind_ok (hO.hset h2.swap.read (.ptr x))]
    rw [messageItem_val (x := newSub (E.toU later) (S.msg t) off f.msg) hO (by simp [subTarget, ho, hc, ← hnil, hs])]
    simp only [ho, Bool.false_and, Bool.false_eq_true, if_false]
    have h3 := h2.swap.write (O.cell (.ptr x))
    obtain ⟨h4, h5⟩ := decodeMessage_sim hE H (off := off) (b := b) _ _ _ h3.swap
    refine ⟨h4, ?_⟩
    have h7 := Holds.closeSlot hf hO (hty ▸ h5.swap)
    simpa [subAssign, ho, hc] using h7
  | false =>
    simp only [Bool.false_eq_true, if_false]
    rw [messageItem_val (x := sv) hO (by simp [subTarget, ho, hc, ← hnil, hs])]
    simp only [ho, Bool.false_and, Bool.false_eq_true, if_false]
    obtain ⟨h4, h5⟩ := decodeMessage_sim hE H (off := off) (b := b) _ _ _ h'.swap
    refine ⟨h4, ?_⟩
    have h7 := Holds.closeSlot hf hO (hty ▸ h5.swap)
    simpa [subAssign, ho, hc] using h7

omit hE H in
theorem subAssign_append {v w r : Val} (ho : f.oneof = false) (hc : f.card = .repeated) (h : appendVal v w = .ok r) : subAssign f v w = r := by
  cases v <;> simp_all [subAssign, appendVal]

/-- A repeated message field. -/
theorem messageItem_repeated {off : Nat} {b : Bytes} (hf : (S.msg t).foreign = false) (hd : MsgFacts (S.msg t)) (hm : f ∈ (S.msg t).fields)
    (hk : f.kind = .message) (hmap : f.map = none) (hc : f.card = .repeated) :
    SimU S B t p (hmessageItem E hrec (S.msg t) f off b p) (messageItem (E.toU later) rec (S.msg t) f off b) := by
  intro m R σ h
  have ho : f.oneof = false := by
    cases ho : f.oneof with
    | false => rfl
    | true => rw [((hd.fields f hm).oneof ho).1] at hc; cases hc
  have hc' : (f.card == .repeated) = true := by simpa using hc
  have hty : fieldTy (S.msg t) f = .list (.msg f.msg) := by simp [fieldTy, ho, hc, hk, hmap, elemTy]
  rcases h.openSlot hf hd hm with ⟨rfl, rfl⟩ | ⟨O, s, sv, rfl, rfl, hO, h'⟩
  · exact ⟨rfl, h⟩
  unfold hmessageItem
  rw [HM.bind_ok (hO.hget h'.read)]
  simp only [ho, hc', Bool.false_eq_true, if_false, if_true]
  rw [hty] at h'
  -- a new element
  have hfresh : ∀ (hs : subTarget (E.toU later) (S.msg t) f off sv = .ok (zeroMsg S f.msg)),
      (((do let x ← hnew E.S f.msg
            let s ← happend E.extra s x
            hsetSlot (.ptr O.a) f.slot s
            hdecodeMessage E hrec off f.msg b x) : HM Unit) σ).2 = (messageItem (E.toU later) rec (S.msg t) f off b (O.val sv)).2 ∧
      Holds S B (((do let x ← hnew E.S f.msg
                      let s ← happend E.extra s x
                      hsetSlot (.ptr O.a) f.slot s
                      hdecodeMessage E hrec off f.msg b x) : HM Unit) σ).1
        ((.msg t, .ptr O.a, (messageItem (E.toU later) rec (S.msg t) f off b (O.val sv)).1) :: R) := by
    intro hs
    rw [messageItem_val hO hs]
    simp only [ho, Bool.false_and, Bool.false_eq_true, if_false, hE.schema]
    obtain ⟨σ1, x, h1, h2⟩ := new_sim f.msg h'
    rw [HM.bind_ok h1]
    have h3 : Holds S B σ1 ((.list (.msg f.msg), s, sv) :: rawItem (O.cell s) O.a :: (.msg f.msg, .ptr x, zeroMsg S f.msg) :: (O.rest ++ R)) :=
      h2.perm (List.Perm.trans (List.Perm.trans (List.Perm.swap _ _ _) (List.Perm.cons _ (List.Perm.swap _ _ _))) (List.Perm.swap _ _ _))
    obtain ⟨a, pre, post, sp, σ2, h4, h5, h6, h7⟩ := append_hole rfl E.extra (.ptr x) h3
    rw [HM.bind_ok h4]
    have h8 : Holds S B σ2 (rawItem (O.cell s) O.a :: (.msg f.msg, .ptr x, zeroMsg S f.msg) :: rawItem (.arr (pre.map (·.1) ++ .ptr x :: post.map (·.1))) a ::
        ((pre ++ post).map (fun x => (Ty.msg f.msg, x)) ++ (O.rest ++ R))) := by
      refine h7.perm ?_
      refine List.Perm.trans (List.Perm.cons _ List.perm_middle) ?_
      refine List.Perm.trans (List.Perm.swap _ _ _) (List.Perm.cons _ ?_)
      refine List.Perm.trans (List.Perm.cons _ List.perm_middle) ?_
      exact List.Perm.swap _ _ _
    rw [HM.bind_ok (hO.hset h8.read (.slice a (pre.length + 1)))]
    have h9 := h8.write (O.cell (.slice a (pre.length + 1)))
    obtain ⟨h10, h11⟩ := decodeMessage_sim hE H (off := off) (b := b) _ _ _ h9.swap
    refine ⟨h10, ?_⟩
    have h12 := Holds.sealList' (x := .ptr x) (v := (decodeMessage (E.toU later) rec off f.msg b (zeroMsg S f.msg)).1)
      (R := rawItem (O.cell (.slice a (pre.length + 1))) O.a :: (O.rest ++ R)) h6 (h11.perm (by
        refine List.Perm.trans (List.Perm.cons _ (List.Perm.swap _ _ _)) ?_
        refine List.Perm.trans (List.Perm.swap _ _ _) (List.Perm.cons _ (List.Perm.cons _ ?_))
        exact List.perm_middle.symm))
    have h13 := Holds.closeSlot hf hO (hty ▸ h12.swap)
    rw [subAssign_append ho hc (h5 _)]
    exact h13
  have hz : (E.toU later).S = S := hE.schema
  rcases h'.swap.openList with ⟨rfl, rfl, -⟩ | ⟨a, len, xs, sp, rfl, rfl, hl, hsp, h2⟩
  · have : hreuse (S.msg t) .nil σ = (σ, .ok none) := by
      unfold hreuse
      split <;> rfl
    rw [HM.bind_ok this]
    exact hfresh (by simp [subTarget, ho, hc, hz])
  · by_cases hp : (S.msg t).pooled = true
    · have hre : hreuse (S.msg t) (.slice a len) σ = (σ, .ok (xs.map (·.1))[len]?) := by
        unfold hreuse hspare
        simp only [hp, if_true]
        rw [HM.bind_ok (hread_ok h2.read)]
        rfl
      rw [HM.bind_ok hre]
      cases hy : xs[len]? with
      | none =>
        simp only [List.getElem?_map, hy, Option.map_none]
        have : xs.length ≤ len := List.getElem?_eq_none_iff.mp hy
        rw [List.drop_eq_nil_of_le (by simpa using this)] at hsp
        have := SpareRep.empty hsp
        subst this
        exact hfresh (by simp [subTarget, ho, hc, hz])
      | some y =>
        obtain ⟨x, w⟩ := y
        have hsplit : xs = xs.take len ++ (x, w) :: xs.drop (len + 1) := by
          obtain ⟨h1, h2⟩ := List.getElem?_eq_some_iff.mp hy
          conv_lhs => rw [← List.take_append_drop len xs, List.drop_eq_getElem_cons h1, h2]
        have hdrop : (xs.map (·.2)).drop len = w :: (xs.drop (len + 1)).map (·.2) := by
          conv_lhs => rw [hsplit, List.map_append, List.drop_left' (by simp [Nat.min_eq_left hl])]
          rfl
        rw [hdrop] at hsp
        have h3 : Holds S B σ ((.msg f.msg, x, w) :: rawItem (O.cell (.slice a len)) O.a :: rawItem (.arr (xs.map (·.1))) a ::
            ((xs.take len ++ xs.drop (len + 1)).map (fun x => (Ty.msg f.msg, x)) ++ (O.rest ++ R))) := by
          have hx : (xs.map (fun x => (Ty.msg f.msg, x)) : List VItem).Perm
              ((Ty.msg f.msg, x, w) :: (xs.take len ++ xs.drop (len + 1)).map (fun x => (Ty.msg f.msg, x))) := by
            conv_lhs => rw [hsplit]
            simp only [List.map_append, List.map_cons]
            exact List.perm_middle
          refine h2.perm ?_
          refine List.Perm.trans (List.Perm.cons _ (List.Perm.append_right _ hx)) ?_
          refine List.Perm.trans (List.Perm.swap _ _ _) (List.Perm.cons _ ?_)
          refine List.Perm.trans (List.Perm.cons _ List.perm_middle) ?_
          exact List.Perm.swap _ _ _
        have hnil : x.isNil = w.isNil := h3.isNil (fun c e => by cases e)
        obtain ⟨k, hk2⟩ : ∃ k, w :: (xs.drop (len + 1)).map (·.2) = sp ++ List.replicate k .nil := by
          have := hsp
          simpa [SpareRep, Ty.keeps] using this
        have hshape : x = .nil ∨ ∃ x', x = .ptr x' := by
          obtain ⟨F, h4, -⟩ := h3
          cases h4 with
          | nil _ _ => exact .inl rfl
          | foreign _ _ _ _ => exact .inr ⟨_, rfl⟩
          | msg _ _ _ _ => exact .inr ⟨_, rfl⟩
        simp only [List.getElem?_map, hy, Option.map_some]
        rcases hshape with rfl | ⟨x', rfl⟩
        · refine hfresh ?_
          have hw : w.isNil = true := hnil ▸ rfl
          cases sp with
          | nil => simp [subTarget, ho, hc, hz]
          | cons z sp =>
            simp only [List.cons_append, List.cons.injEq] at hk2
            rw [hk2.1] at hw
            simp [subTarget, ho, hc, hz, hw]
        · have hw : w.isNil = false := by rw [← hnil]; rfl
          obtain ⟨sp', rfl⟩ : ∃ sp', sp = w :: sp' := by
            cases sp with
            | nil =>
              cases k with
              | zero => simp at hk2
              | succ k =>
                simp only [List.nil_append, List.replicate_succ, List.cons.injEq] at hk2
                rw [hk2.1] at hw
                cases hw
            | cons z sp =>
              simp only [List.cons_append, List.cons.injEq] at hk2
              exact ⟨sp, by rw [hk2.1]⟩
          show ((hsetSlot (.ptr O.a) f.slot (.slice a (len + 1)) >>= fun _ => hdecodeMessage E hrec off f.msg b (.ptr x')) σ).2 = _ ∧
            Holds S B ((hsetSlot (.ptr O.a) f.slot (.slice a (len + 1)) >>= fun _ => hdecodeMessage E hrec off f.msg b (.ptr x')) σ).1 _
          rw [HM.bind_ok (hO.hset h3.swap.read (.slice a (len + 1)))]
          rw [messageItem_val (x := w) hO (by simp [subTarget, ho, hc, hp, hw])]
          simp only [ho, Bool.false_and, Bool.false_eq_true, if_false]
          have h9 := h3.swap.write (O.cell (.slice a (len + 1)))
          obtain ⟨h10, h11⟩ := decodeMessage_sim hE H (off := off) (b := b) _ _ _ h9.swap
          refine ⟨h10, ?_⟩
          have hlen : (xs.take len).length = len := by simp [Nat.min_eq_left hl]
          have hmap1 : xs.map (·.1) = (xs.take len).map (·.1) ++ .ptr x' :: (xs.drop (len + 1)).map (·.1) := by
            conv_lhs => rw [hsplit]
            simp
          have h12 := Holds.sealList' (e := .msg f.msg) (a := a) (pre := xs.take len) (post := xs.drop (len + 1)) (x := .ptr x') (sp := sp')
            (v := (decodeMessage (E.toU later) rec off f.msg b w).1)
            (R := rawItem (O.cell (.slice a (len + 1))) O.a :: (O.rest ++ R)) (SpareRep.tail hsp) (h11.perm (by
              rw [hmap1]
              refine List.Perm.trans (List.Perm.cons _ (List.Perm.swap _ _ _)) ?_
              refine List.Perm.trans (List.Perm.swap _ _ _) (List.Perm.cons _ (List.Perm.cons _ ?_))
              exact List.perm_middle.symm))
          rw [hlen] at h12
          have h13 := Holds.closeSlot hf hO (hty ▸ h12.swap)
          simpa [subAssign, ho, hc, List.map_take] using h13
    · have : hreuse (S.msg t) (.slice a len) σ = (σ, .ok none) := by
        unfold hreuse
        simp only [hp, Bool.false_eq_true, if_false]
        rfl
      rw [HM.bind_ok this]
      exact hfresh (by simp [subTarget, ho, hc, hz, hp])

theorem messageItem_sim {off : Nat} {b : Bytes} (hf : (S.msg t).foreign = false) (hd : MsgFacts (S.msg t)) (hm : f ∈ (S.msg t).fields)
    (hk : f.kind = .message) (hmap : f.map = none) :
    SimU S B t p (hmessageItem E hrec (S.msg t) f off b p) (messageItem (E.toU later) rec (S.msg t) f off b) := by
  by_cases ho : f.oneof = true
  · exact messageItem_oneof hE H hf hd hm hk ho
  · by_cases hc : f.card = .repeated
    · exact messageItem_repeated hE H hf hd hm hk hmap hc
    · exact messageItem_single hE H hf hd hm hk (by simpa using ho) hc

end

end Vtp
