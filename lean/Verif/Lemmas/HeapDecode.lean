import Verif.Lemmas.HeapOps
/-! # What decoding does to ownership -/

namespace Vtp
open Spec

theorem tri_never {C : Ctx} {α : Type} {I : List Item} {x : HM α} {J : α → List Item} {K : List Item} : Tri C (never :: I) x J K :=
  fun _ _ _ _ ho _ => absurd ho not_never

theorem slotTy_eq {d : MsgDesc} (hd : MsgFacts d) {f : FieldDesc} (h : f ∈ d.fields) : slotTy d f.slot = fieldTy d f := by
  unfold slotTy
  cases hc : d.fields.find? (fun g => g.slot == f.slot) with
  | none =>
    rw [List.find?_eq_none] at hc
    have := hc f h
    simp at this
  | some g =>
    have hg := List.mem_of_find?_eq_some hc
    have hs := List.find?_some hc
    simp only [beq_iff_eq] at hs
    by_cases he : g.num = f.num
    · have : g = f := by
        have := hd.nodup
        exact List.inj_on_of_nodup_map this hg h he
      rw [this]
    · obtain ⟨h1, h2⟩ := hd.share g hg f h he hs
      simp [fieldTy, h1, h2, hs]

theorem slotTys_length (d : MsgDesc) : (slotTys d).length = d.nslots := by simp [slotTys]

theorem slotTys_getD {d : MsgDesc} {i : Nat} (h : i < d.nslots) : (slotTys d).getD i .flat = slotTy d i := by
  simp [slotTys, List.getD_eq_getElem?_getD, h]

theorem slotTys_set {d : MsgDesc} {i : Nat} (h : i < d.nslots) : (slotTys d).set i (slotTy d i) = slotTys d := by
  have : slotTy d i = (slotTys d)[i]'(by rw [slotTys_length]; exact h) := by simp [slotTys]
  rw [this, List.set_getElem_self]

section
variable {C : Ctx}

theorem ent_sealHole {e : Ty} {a len i : Nat} {xs : List HV} {x : HV} (hl : len ≤ xs.length) (hi : xs[i]? = some x) (I : List Item) :
    Ent C ((.raw (.arr xs), .ptr a) :: ((xs.eraseIdx i).map (fun x => (e, x)) ++ I)) ((.hole e i x, .slice a len) :: I) := by
  intro h F ho
  cases ho with
  | raw hc hI => exact ⟨_, le_rfl, .hole hc hl hi hI⟩

theorem tri_growHole {g : Growth} {xs : List HV} {x : HV} {len i : Nat} {e : Ty} (he : e.nilable = true) (hl : len ≤ xs.length) (hi : xs[i]? = some x) {K : List Item} :
    Tri C ((xs.eraseIdx i).map fun x => (e, x)) (hgrowArr g xs len) (fun v => [(.hole e i x, v)]) K := by
  have hlt := (List.getElem?_eq_some_iff.mp hi).1
  refine tri_state (x := fun σ => (do
    let a ← halloc (.arr (xs ++ List.replicate (g σ.next) .nil))
    pure (HV.slice a len) : HM HV)) fun σ => ?_
  refine Tri.bind (tri_alloc.sure (R := ((xs ++ List.replicate (g σ.next) HV.nil).eraseIdx i).map (fun x => (e, x))) ?_ (fun _ => Ent.refl _)) fun a => Tri.pure ?_
  · refine (ent_nils he (g σ.next) _).trans (Ent.perm ?_)
    rw [List.eraseIdx_append_of_lt_length hlt, List.map_append]
    items
  · have := ent_sealHole (C := C) (e := e) (a := a) (len := len) (i := i) (x := x) (xs := xs ++ List.replicate (g σ.next) HV.nil) (by simp; omega)
      (by rw [List.getElem?_append_left hlt, hi]) []
    simpa using this

/-- `append` of an element which is accounted for elsewhere. -/
theorem tri_appendHole {g : Growth} {s x : HV} {e : Ty} (he : e.nilable = true) :
    Tri C [(.list e, s)] (happend g s x) (fun v => [(.hole e s.len x, v)]) [(.list e, s)] := by
  cases s with
  | nil => exact (tri_growHole (xs := [x]) (i := 0) he (by simp) rfl).pre (Ent.rest _ _)
  | slice a len =>
    refine tri_openList fun xs hlen => ?_
    rw [happend]
    refine tri_read ?_
    rw [happendTo]
    split_ifs with hc
    · have hs : (xs.set len x).eraseIdx len = xs.take len ++ xs.drop (len + 1) := by
        rw [List.eraseIdx_set_eq, List.eraseIdx_eq_take_drop_succ]
      refine Tri.bind ((tri_write (c := .arr xs)).sure (R := ((xs.set len x).eraseIdx len).map (fun x => (e, x))) ?_ (fun _ => Ent.refl _)) fun _ => Tri.pure ?_
      · refine Ent.cons ?_
        rw [hs]
        have h1 : xs.map (fun x => (e, x)) = (xs.take len).map (fun x => (e, x)) ++ (e, xs[len]) :: (xs.drop (len + 1)).map (fun x => (e, x)) := by
          exact map_split e hc
        rw [h1]
        simp only [List.map_append]
        refine (Ent.perm ?_).trans (Ent.rest (e, xs[len]) _)
        items
      · have := ent_sealHole (C := C) (e := e) (a := a) (len := len + 1) (i := len) (x := x) (xs := xs.set len x) (by simpa using Nat.succ_le_of_lt hc) (by simp [hc]) []
        simpa [HV.len] using this
    · have hle : len = xs.length := by omega
      refine (tri_growHole (xs := xs ++ [x]) (i := len) he (by simp; omega) (by simp [hle])).pre ((Ent.rest _ _).trans (Ent.perm ?_))
      rw [List.eraseIdx_append_of_length_le (by omega)]
      simp [hle]
  | bytes => exact tri_absurd fun h R F ho => nomatch ho
  | num n => exact tri_absurd fun h R F ho => nomatch ho
  | str n => exact tri_absurd fun h R F ho => nomatch ho
  | view => exact tri_absurd fun h R F ho => nomatch ho
  | ptr => exact tri_absurd fun h R F ho => nomatch ho
  | wrapNil => exact tri_absurd fun h R F ho => nomatch ho

/-- A message of type `d`. -/
abbrev theMsg (d : MsgDesc) (p : HV) : Item := (.obj (slotTys d), p)

/-- A message of type `d` whose struct field `i` is `s`, which is accounted for elsewhere. -/
abbrev theHole (d : MsgDesc) (p : HV) (i : Nat) (s : HV) : Item := (.obj ((slotTys d).set i (.is s)), p)

variable {d : MsgDesc} {f : FieldDesc} {p : HV}

theorem tri_slot (hd : MsgFacts d) (hf : f ∈ d.fields) :
    Tri C [theMsg d p] (hgetSlot p f.slot) (fun s => [theHole d p f.slot s, (fieldTy d f, s)]) [theMsg d p] := by
  have h := tri_getSlot (C := C) (tys := slotTys d) (p := p) (i := f.slot) (by rw [slotTys_length]; exact (hd.fields f hf).slot)
  rw [slotTys_getD (hd.fields f hf).slot, slotTy_eq hd hf] at h
  exact h

theorem tri_set {v : HV} (hd : MsgFacts d) (hf : f ∈ d.fields) :
    Tri C [theMsg d p] (hsetSlot p f.slot v) (fun _ => [theHole d p f.slot v]) [theMsg d p] :=
  tri_setSlot (by rw [slotTys_length]; exact (hd.fields f hf).slot) fun hp h => by subst hp; exact .nil rfl .done

theorem tri_setHole {s v : HV} (hd : MsgFacts d) (hf : f ∈ d.fields) :
    Tri C [theHole d p f.slot s] (hsetSlot p f.slot v) (fun _ => [theHole d p f.slot v]) [theMsg d p] := by
  have h := tri_setSlot (C := C) (tys := (slotTys d).set f.slot (.is s)) (p := p) (v := v) (i := f.slot) (K := [theMsg d p])
    (by rw [List.length_set, slotTys_length]; exact (hd.fields f hf).slot) fun hp h => by subst hp; exact .nil rfl .done
  rw [List.set_set] at h
  exact h

theorem ent_closeSlot {s : HV} (hd : MsgFacts d) (hf : f ∈ d.fields) : Ent C [theHole d p f.slot s, (fieldTy d f, s)] [theMsg d p] := by
  have h := ent_close (C := C) (tys := slotTys d) (p := p) (s := s) (i := f.slot) (ty := fieldTy d f) (by rw [slotTys_length]; exact (hd.fields f hf).slot)
  rw [← slotTy_eq hd hf, slotTys_set (hd.fields f hf).slot, slotTy_eq hd hf] at h
  exact h

theorem tri_put {v : HV} (hd : MsgFacts d) (hf : f ∈ d.fields) :
    Tri C [theMsg d p, (fieldTy d f, v)] (hsetSlot p f.slot v) (fun _ => [theMsg d p]) [theMsg d p] :=
  (tri_set hd hf).use (R := [(fieldTy d f, v)]) (Ent.refl _) (fun _ => ent_closeSlot hd hf) (Ent.first _ _)

theorem tri_putHole {s v : HV} (hd : MsgFacts d) (hf : f ∈ d.fields) :
    Tri C [theHole d p f.slot s, (fieldTy d f, v)] (hsetSlot p f.slot v) (fun _ => [theMsg d p]) [theMsg d p] :=
  (tri_setHole hd hf).use (R := [(fieldTy d f, v)]) (Ent.refl _) (fun _ => ent_closeSlot hd hf) (Ent.first _ _)

theorem elemTy_flat {k : Kind} {t : Nat} (h : fieldTy.isScalar k = true) : elemTy k t = .flat := by
  cases k <;> simp_all [fieldTy.isScalar, elemTy]

theorem scalar_noMsg {f : FieldDesc} (h : fieldTy.isScalar f.kind = true) : f.hasMessage = false := by
  unfold FieldDesc.hasMessage
  revert h
  cases f.kind <;> simp [fieldTy.isScalar]

theorem scalar_noMap (hd : MsgFacts d) (hf : f ∈ d.fields) (h : f.kind ≠ .message) : f.map = none := by
  cases hm : f.map with
  | none => rfl
  | some md => exact absurd ((hd.fields f hf).map md hm).2.1 h

theorem tri_store {E : HEnv} {v : HV} (hd : MsgFacts d) (hf : f ∈ d.fields) (hk : fieldTy.isScalar f.kind = true) :
    Tri C [theMsg d p, (.flat, v)] (hstore E d f p v) (fun _ => [theMsg d p]) [theMsg d p] := by
  have hflat := elemTy_flat (t := f.msg) hk
  have ff := hd.fields f hf
  rw [hstore]
  split_ifs with ho hr hp
  · refine Tri.bind ((tri_allocWrap (d := d) (slot := f.slot) (f := f) (v := v) (member_of hd hf ho)).sure (R := [theMsg d p]) ?_ (fun _ => Ent.refl _)) fun a => ?_
    · rw [hflat]
      exact Ent.perm (by items)
    · have hty : fieldTy d f = .oneof d f.slot := by simp [fieldTy, ho]
      rw [← hty]
      exact (tri_put hd hf).pre (Ent.perm (by items))
  · have hr' : f.card = .repeated := by simpa using hr
    have hm : f.map = none := scalar_noMap hd hf (by rintro h; simp [h, fieldTy.isScalar] at hk)
    have hty : fieldTy d f = .list .flat := by simp [fieldTy, ho, hr', hm, hflat]
    refine Tri.bind ((tri_slot hd hf).use (R := [(.flat, v)]) (Ent.refl _) (fun _ => Ent.refl _) (Ent.first _ _)) fun s => ?_
    rw [hty]
    refine Tri.bind ((tri_append (e := .flat) rfl).use (R := [theHole d p f.slot s]) (Ent.perm (by items)) (fun _ => Ent.refl _) ?_) fun s' => ?_
    · refine Ent.trans (Ent.perm (J := [theHole d p f.slot s, (fieldTy d f, s)]) ?_) (ent_closeSlot hd hf)
      rw [hty]
      items
    · refine (tri_putHole (s := s) hd hf).pre ?_
      rw [hty]
      exact Ent.perm (by items)
  · simp only [Bool.and_eq_true, Bool.not_eq_true'] at hp
    have hr' : f.card ≠ .repeated := by simpa using hr
    have hpres := ff.implicit hr' hp.1 (by simpa using ho) hp.2 (scalar_noMsg hk)
    have hty : fieldTy d f = .flat := by simp [fieldTy, ho, hr, hpres, hflat]
    rw [← hty]
    exact tri_put hd hf
  · have hr' : f.card ≠ .repeated := by simpa using hr
    have hpres : f.presence = true := by
      cases h3 : d.proto3 with
      | false => exact ff.proto2 hr' h3
      | true =>
        simp only [h3, Bool.true_and, Bool.not_eq_true', Bool.not_eq_false] at hp
        exact (ff.synth hp).2
    have hty : fieldTy d f = .box := by simp [fieldTy, ho, hr, hpres, hk]
    refine Tri.bind (tri_allocBox.sure (R := [theMsg d p]) (Ent.perm (by items)) (fun _ => Ent.refl _)) fun a => ?_
    rw [← hty]
    exact (tri_put hd hf).pre (Ent.perm (by items))

/-- If the memory of others must not be written to: a condition for decoding a field of singular bytes without aliasing. -/
def FieldLock (C : Ctx) (E : HEnv) (f : FieldDesc) : Prop :=
  C.lock → E.aliasing = false → f.kind = .bytes → f.oneof = false → f.card ≠ .repeated → ∀ a, ¬ C.B.byt a

/-- What decoding is judged against. -/
structure DecOK (C : Ctx) (E : HEnv) : Prop where
  schema : E.S = C.S
  ok : schemaOK C.S = true
  buf : E.aliasing = true → C.B.str E.buf ∧ C.B.byt E.buf
  lock : ∀ t f, f ∈ (C.S.msg t).fields → FieldLock C E f

variable {E : HEnv} (hE : DecOK C E)
include hE

theorem ent_string (off : Nat) (b : Bytes) (I : List Item) : Ent C I ((.flat, E.string off b) :: I) := by
  intro h F ho
  refine ⟨F, le_rfl, ?_⟩
  rw [HEnv.string]
  split_ifs with ha
  · exact .view (hE.buf ha).1 ho
  · exact .str ho

theorem tri_newBytes {off : Nat} {b : Bytes} {K : List Item} : Tri C [] (E.newBytes off b) (fun v => [(.bytes, v)]) K := by
  rw [HEnv.newBytes]
  split_ifs with ha
  · exact Tri.pure fun h F ho => ⟨F, le_rfl, .lent (hE.buf ha).2 ho⟩
  · exact tri_copyBytes (.inl rfl)

theorem tri_storeBytes {off : Nat} {b : Bytes} (hd : MsgFacts d) (hf : f ∈ d.fields) (hk : f.kind = .bytes) (hl : FieldLock C E f) :
    Tri C [theMsg d p] (hstoreBytes E f p off b) (fun _ => [theMsg d p]) [theMsg d p] := by
  have hel : elemTy f.kind f.msg = .bytes := by rw [hk]; rfl
  have ff := hd.fields f hf
  rw [hstoreBytes]
  split_ifs with ho hr ha
  · refine Tri.bind ((tri_newBytes hE).sure (R := [theMsg d p]) (Ent.refl _) (fun _ => Ent.refl _)) fun v => ?_
    refine Tri.bind ((tri_allocWrap (d := d) (slot := f.slot) (f := f) (v := v) (member_of hd hf ho)).sure (R := [theMsg d p]) ?_ (fun _ => Ent.refl _)) fun a => ?_
    · rw [hel]
      exact Ent.refl _
    · have hty : fieldTy d f = .oneof d f.slot := by simp [fieldTy, ho]
      rw [← hty]
      exact (tri_put hd hf).pre (Ent.perm (by items))
  · have hr' : f.card = .repeated := by simpa using hr
    have hm : f.map = none := scalar_noMap hd hf (by rw [hk]; exact fun h => nomatch h)
    have hty : fieldTy d f = .list .bytes := by simp [fieldTy, ho, hr', hm, hel]
    refine Tri.bind (tri_slot hd hf) fun s => ?_
    refine Tri.bind ((tri_newBytes hE).sure (R := [theHole d p f.slot s, (fieldTy d f, s)]) (Ent.refl _) (fun _ => Ent.refl _)) fun v => ?_
    rw [hty]
    refine Tri.bind ((tri_append (e := .bytes) rfl).use (R := [theHole d p f.slot s]) (Ent.perm (by items)) (fun _ => Ent.refl _) ?_) fun s' => ?_
    · refine Ent.trans (Ent.perm (J := [theHole d p f.slot s, (fieldTy d f, s)]) ?_) (ent_closeSlot hd hf)
      rw [hty]
      items
    · refine (tri_putHole (s := s) hd hf).pre ?_
      rw [hty]
      exact Ent.perm (by items)
  all_goals have hty : fieldTy d f = .bytes := by simp [fieldTy, ho, hr, hk, fieldTy.isScalar, elemTy]
  · refine (tri_put hd hf).pre fun h F ho' => ?_
    refine ⟨F, le_rfl, ?_⟩
    rw [hty]
    exact OwnL.perm (List.Perm.swap _ _ _) (.lent (hE.buf ha).2 ho')
  · refine Tri.bind (tri_slot hd hf) fun s => ?_
    rw [hty]
    refine Tri.bind ((tri_appendBytes (hl · (by simpa using ha) hk (by simpa using ho) (by simpa using hr))).use (R := [theHole d p f.slot s]) (Ent.perm (by items)) (fun _ => Ent.refl _) ?_) fun s' => ?_
    · refine Ent.trans (Ent.perm (J := [theHole d p f.slot s, (fieldTy d f, s)]) ?_) (ent_closeSlot hd hf)
      rw [hty]
      items
    · refine Tri.bind (J := fun v => [theHole d p f.slot s, (.bytes, v)]) ?_ fun v => ?_
      · rw [hnonNil]
        split_ifs
        · exact (tri_copyBytes (.inl rfl)).sure (R := [theHole d p f.slot s]) (Ent.rest _ _) fun _ => Ent.perm (by items)
        · exact Tri.pure (Ent.perm (by items))
      · refine (tri_putHole (s := s) hd hf).pre ?_
        rw [hty]
        exact Ent.refl _

/-- A decoder for sub-messages keeps ownership. -/
def RecOK (C : Ctx) (rec : HSubDec) : Prop :=
  ∀ off t b x, (C.S.msg t).foreign = false → Tri C [(.msg t, x)] (rec off t b x) (fun _ => [(.msg t, x)]) [(.msg t, x)]

variable {rec : HSubDec} (hrec : RecOK C rec)
include hrec

theorem tri_decodeMessage {off t : Nat} {b : Bytes} {x : HV} :
    Tri C [(.msg t, x)] (hdecodeMessage E rec off t b x) (fun _ => [(.msg t, x)]) [(.msg t, x)] := by
  rw [hdecodeMessage.eq_def]
  split_ifs with hf
  · rw [hE.schema] at hf
    cases x with
    | nil => exact Tri.fail (r := .panic .nilDeref) (fun _ h => nomatch h) (Ent.refl _)
    | ptr a =>
      dsimp only
      cases E.R.unmarshal t b with
      | none => exact Tri.fail (r := .err .foreign) (fun _ h => nomatch h) (Ent.refl _)
      | some v =>
        intro R σ F P ho hinv
        cases ho with
        | msg hf' _ _ _ => rw [hf] at hf'; cases hf'
        | foreign _ hc hI =>
          refine (tri_write (K := [never])).sure (R := []) (Ent.refl _) (fun _ => ?_) R σ _ P (.raw hc hI) hinv
          intro h F ho
          cases ho with
          | raw hc hI => exact ⟨_, le_rfl, .foreign hf hc hI⟩
    | bytes => exact tri_absurd fun h R F ho => nomatch ho
    | num n => exact tri_absurd fun h R F ho => nomatch ho
    | str n => exact tri_absurd fun h R F ho => nomatch ho
    | view => exact tri_absurd fun h R F ho => nomatch ho
    | slice => exact tri_absurd fun h R F ho => nomatch ho
    | wrapNil => exact tri_absurd fun h R F ho => nomatch ho
  · rw [hE.schema] at hf
    exact hrec off t b x (by simpa using hf)

omit hrec in
theorem tri_newSub {off t : Nat} {K : List Item} : Tri C [] (hnewSub E d off t) (fun v => [(.msg t, v)]) K := by
  rw [hnewSub, hE.schema]
  split_ifs
  · exact tri_poolGet
  · exact tri_new

theorem tri_messageItem {off : Nat} {b : Bytes} (hd : MsgFacts d) (hf : f ∈ d.fields) (hk : f.kind = .message) (hm : f.map = none) :
    Tri C [theMsg d p] (hmessageItem E rec d f off b p) (fun _ => [theMsg d p]) [theMsg d p] := by
  have hel : elemTy f.kind f.msg = .msg f.msg := by rw [hk]; rfl
  rw [hmessageItem]
  refine Tri.bind (tri_slot hd hf) fun s => ?_
  split_ifs with ho hr hn
  · have hty : fieldTy d f = .oneof d f.slot := by simp [fieldTy, ho]
    have hmem := member_of hd hf ho
    have hback : Ent C [(.oneof d f.slot, s), theHole d p f.slot s] [theMsg d p] := by
      refine Ent.trans (Ent.perm (J := [theHole d p f.slot s, (fieldTy d f, s)]) ?_) (ent_closeSlot hd hf)
      rw [hty]
      items
    rw [hty]
    refine Tri.bind ((tri_holds hmem).use (R := [theHole d p f.slot s]) (Ent.perm (by items)) (fun _ => Ent.refl _) hback) fun o => ?_
    rw [hel]
    have hnew : Tri C [(.oneof d f.slot, s), theHole d p f.slot s] (do
        let x ← hnewSub E d off f.msg
        hdecodeMessage E rec off f.msg b x
        let a ← halloc (.wrap f.num x)
        hsetSlot p f.slot (.ptr a)) (fun _ => [theMsg d p]) [theMsg d p] := by
      refine Tri.bind ((tri_newSub hE).sure (R := [theMsg d p]) hback (fun _ => Ent.refl _)) fun x => ?_
      refine Tri.bind ((tri_decodeMessage hE hrec).use (R := [theMsg d p]) (Ent.refl _) (fun _ => Ent.refl _) (Ent.rest _ _)) fun _ => ?_
      refine Tri.bind ((tri_allocWrap (v := x) hmem).sure (R := [theMsg d p]) ?_ (fun _ => Ent.refl _)) fun a => ?_
      · rw [hel]
        exact Ent.refl _
      · rw [← hty]
        exact (tri_put hd hf).pre (Ent.perm (by items))
    match o with
    | none => exact hnew
    | some w =>
      have hold : Tri C [(.wrap f.num (.msg f.msg), w), (.is s, w), theHole d p f.slot s] (do
          let x ← hmember w
          hdecodeMessage E rec off f.msg b x) (fun _ => [theMsg d p]) [theMsg d p] := by
        have hb2 : Ent C [(.wrap f.num (.msg f.msg), w), (.is s, w), theHole d p f.slot s] [theMsg d p] := by
          refine Ent.trans (Ent.perm (List.Perm.swap _ _ _)) (ent_is fun hw => ?_)
          subst hw
          have := ent_wrapOneof (C := C) (w := w) hmem
          rw [hel] at this
          exact (this.frame _).trans hback
        refine Tri.bind (tri_member.use (R := [(.is s, w), theHole d p f.slot s]) (Ent.refl _) (fun _ => Ent.refl _) hb2) fun x => ?_
        refine (tri_decodeMessage hE hrec).use (R := [(.wrap f.num (.is x), w), (.is s, w), theHole d p f.slot s]) (Ent.perm (by items)) (fun _ => ?_) ?_
        all_goals
          refine Ent.trans (Ent.perm (J := [(.wrap f.num (.is x), w), (.msg f.msg, x)] ++ [(.is s, w), theHole d p f.slot s]) (by items)) ?_
          exact (ent_closeWrap.frame _).trans hb2
      cases w with
      | nil => exact Tri.bind (J := fun _ => [never]) (Tri.fail (r := .panic .nilDeref) (fun _ h => nomatch h) hback) fun _ => tri_never
      | _ => exact hold.pre (Ent.perm (List.Perm.swap _ _ _))
  · have hr' : f.card = .repeated := by simpa using hr
    have hty : fieldTy d f = .list (.msg f.msg) := by simp [fieldTy, ho, hr', hm, hel]
    have hback : Ent C [(.list (.msg f.msg), s), theHole d p f.slot s] [theMsg d p] := by
      refine Ent.trans (Ent.perm (J := [theHole d p f.slot s, (fieldTy d f, s)]) ?_) (ent_closeSlot hd hf)
      rw [hty]
      items
    have hfin : ∀ i x s', Ent C [(.msg f.msg, x), (.hole (.msg f.msg) i x, s'), theHole d p f.slot s'] [theMsg d p] := by
      intro i x s'
      refine Ent.trans (Ent.perm (J := [(.hole (.msg f.msg) i x, s'), (.msg f.msg, x)] ++ [theHole d p f.slot s']) (by items)) ?_
      refine (ent_closeHole.frame _).trans ?_
      refine Ent.trans (Ent.perm (J := [theHole d p f.slot s', (fieldTy d f, s')]) ?_) (ent_closeSlot hd hf)
      rw [hty]
      items
    have happ : Tri C [(.list (.msg f.msg), s), theHole d p f.slot s] (do
        let x ← hnew E.S f.msg
        let s ← happend E.extra s x
        hsetSlot p f.slot s
        hdecodeMessage E rec off f.msg b x) (fun _ => [theMsg d p]) [theMsg d p] := by
      rw [hE.schema]
      refine Tri.bind (tri_new.sure (R := [(.list (.msg f.msg), s), theHole d p f.slot s]) (Ent.refl _) (fun _ => Ent.refl _)) fun x => ?_
      refine Tri.bind ((tri_appendHole (x := x) rfl).use (R := [(.msg f.msg, x), theHole d p f.slot s]) (Ent.perm (by items)) (fun _ => Ent.refl _) ?_) fun s' => ?_
      · exact Ent.trans (Ent.perm (J := (.msg f.msg, x) :: [(.list (.msg f.msg), s), theHole d p f.slot s]) (by items)) ((Ent.rest _ _).trans hback)
      · refine Tri.bind ((tri_setHole (s := s) (v := s') hd hf).use (R := [(.msg f.msg, x), (.hole (.msg f.msg) s.len x, s')]) (Ent.perm (by items)) (fun _ => Ent.refl _) (Ent.first _ _)) fun _ => ?_
        refine (tri_decodeMessage hE hrec).use (R := [(.hole (.msg f.msg) s.len x, s'), theHole d p f.slot s']) (Ent.perm (by items)) (fun _ => hfin _ _ _) (hfin _ _ _)
    rw [hty]
    have hspr : Tri C [theHole d p f.slot s, (.list (.msg f.msg), s)] (hreuse d s)
        (fun y => spareItems (.msg f.msg) s y ++ [theHole d p f.slot s]) [theMsg d p] := by
      rw [hreuse]
      split_ifs
      · exact tri_spare.use (R := [theHole d p f.slot s]) (Ent.perm (by items)) (fun _ => Ent.refl _) hback
      · exact Tri.pure (Ent.perm (List.Perm.swap _ _ _))
    refine Tri.bind hspr fun y => ?_
    have hother : ∀ v, y = some v → Tri C (spareItems (.msg f.msg) s y ++ [theHole d p f.slot s]) (do
        let x ← hnew E.S f.msg
        let s ← happend E.extra s x
        hsetSlot p f.slot s
        hdecodeMessage E rec off f.msg b x) (fun _ => [theMsg d p]) [theMsg d p] := by
      rintro v rfl
      exact happ.pre (ent_closeHole.frame _)
    rcases y with _ | (_ | _ | _ | _ | _ | _ | x | _)
    · exact happ
    case some.ptr =>
      refine Tri.bind ((tri_setHole (s := s) (v := s.longer) hd hf).use (R := [(.msg f.msg, .ptr x), (.hole (.msg f.msg) s.len (.ptr x), s)])
        (Ent.perm (by rw [spareItems]; items)) (fun _ => Ent.refl _) (Ent.first _ _)) fun _ => ?_
      refine (tri_decodeMessage hE hrec).use (R := [(.hole (.msg f.msg) s.len (.ptr x), s), theHole d p f.slot s.longer]) (Ent.perm (by items)) (fun _ => ?_) ?_
      all_goals
        exact Ent.trans (Ent.cons (ent_longer.frame [theHole d p f.slot s.longer])) (hfin _ _ _)
    all_goals exact hother _ rfl
  all_goals
    have hns : fieldTy.isScalar f.kind = false := by rw [hk]; rfl
    have hty : fieldTy d f = .msg f.msg := by simp [fieldTy, ho, hr, hns, hel]
    have hfin : ∀ x, Ent C [(.msg f.msg, x), theHole d p f.slot x] [theMsg d p] := by
      intro x
      refine Ent.trans (Ent.perm (J := [theHole d p f.slot x, (fieldTy d f, x)]) ?_) (ent_closeSlot hd hf)
      rw [hty]
      items
  · refine Tri.bind ((tri_newSub hE).sure (R := [theHole d p f.slot s]) (Ent.first _ _) (fun _ => Ent.refl _)) fun x => ?_
    refine Tri.bind ((tri_setHole (s := s) (v := x) hd hf).use (R := [(.msg f.msg, x)]) (Ent.perm (by items)) (fun _ => Ent.refl _) (Ent.first _ _)) fun _ => ?_
    exact (tri_decodeMessage hE hrec).use (R := [theHole d p f.slot x]) (Ent.perm (by items)) (fun _ => hfin x) (hfin x)
  · rw [hty]
    exact (tri_decodeMessage hE hrec).use (R := [theHole d p f.slot s]) (Ent.perm (by items)) (fun _ => hfin s) (hfin s)

theorem tri_mapItem {k : Kind} {t : Nat} {b : Bytes} {base i : Nat} {old : BitVec 64} :
    Tri C [] (hmapItem E rec k t b base i old) (fun r => [(elemTy k t, r.1)]) [] := by
  have hnum : ∀ {α : Type} (x : Res α) (g : α → BitVec 64 × Nat), Tri C [] (HM.lift x >>= fun a => pure (HV.num (g a).1, (g a).2))
      (fun r : HV × Nat => [(.flat, r.1)]) [] := fun x g => Tri.lift_bind (Ent.refl _) fun a _ => Tri.pure ent_flatNum
  cases k with
  | string =>
    rw [hmapItem]
    refine Tri.lift_bind (Ent.refl _) fun ⟨i, post⟩ _ => ?_
    refine Tri.lift_bind (Ent.refl _) fun s _ => ?_
    exact Tri.pure (ent_string hE _ _ _)
  | bytes =>
    rw [hmapItem]
    refine Tri.lift_bind (Ent.refl _) fun ⟨n, _⟩ _ => ?_
    refine Tri.lift_bind (Ent.refl _) fun ⟨i, post⟩ _ => ?_
    dsimp only
    split_ifs
    · exact Tri.fail (r := .panic .makeLen) (fun _ h => nomatch h) (Ent.refl _)
    · refine Tri.lift_bind (Ent.refl _) fun s _ => ?_
      exact Tri.bind (tri_newBytes hE) fun v => Tri.pure (Ent.refl _)
  | message =>
    rw [hmapItem]
    refine Tri.lift_bind (Ent.refl _) fun ⟨i, post⟩ _ => ?_
    refine Tri.lift_bind (Ent.refl _) fun s _ => ?_
    rw [hE.schema]
    refine Tri.bind tri_new fun v => ?_
    exact Tri.bind ((tri_decodeMessage hE hrec).use (R := []) (Ent.refl _) (fun _ => Ent.refl _) (Ent.empty _)) fun _ => Tri.pure (Ent.refl _)
  | group =>
    rw [hmapItem]
    exact Tri.fail (r := .panic .typeConfusion) (fun _ h => nomatch h) (Ent.refl _)
  | int64 => exact hnum _ id
  | uint64 => exact hnum _ id
  | int32 => exact hnum _ fun a : BitVec 32 × Nat => (a.1.signExtend 64, a.2)
  | enum => exact hnum _ fun a : BitVec 32 × Nat => (a.1.signExtend 64, a.2)
  | uint32 => exact hnum _ fun a : BitVec 32 × Nat => (a.1.setWidth 64, a.2)
  | _ => exact hnum _ id

theorem tri_entryLoop {md : MapDesc} {b : Bytes} {base post : Nat} : ∀ (n i : Nat) (key : Val) (val : HV),
    Tri C [(elemTy md.val md.valMsg, val)] (hentryLoop E rec md b base post n i key val) (fun r => [(elemTy md.val md.valMsg, r.2)]) []
  | 0, _, _, _ => Tri.fail (r := .diverge) (fun _ h => nomatch h) (Ent.empty _)
  | n + 1, i, key, val => by
    rw [hentryLoop]
    by_cases hi : i < post
    · rw [if_pos hi]
      refine Tri.lift_bind (Ent.empty _) fun ⟨wire, j⟩ _ => ?_
      dsimp only
      split_ifs
      · refine Tri.lift_bind (Ent.empty _) fun ⟨key, j⟩ _ => ?_
        exact tri_entryLoop n j key val
      · refine Tri.bind ((tri_mapItem hE hrec).use (R := []) (Ent.empty _) (fun _ => Ent.refl _) (Ent.refl _)) fun ⟨v, j⟩ => ?_
        exact tri_entryLoop n j key v
      · refine Tri.lift_bind (Ent.empty _) fun j _ => ?_
        exact tri_entryLoop n j key val
    · rw [if_neg hi]
      exact Tri.pure (Ent.refl _)

omit hE hrec in
theorem tri_makeMap {e : Ty} (hd : MsgFacts d) (hf : f ∈ d.fields) (hty : fieldTy d f = .map e) :
    Tri C [theMsg d p] (hmakeMap p f.slot) (fun s => [theHole d p f.slot s, (.map e, s)]) [theMsg d p] := by
  rw [hmakeMap]
  refine Tri.bind (tri_slot hd hf) fun s => ?_
  split_ifs
  · have hm : Tri C [] (halloc (.map [])) (fun a => [(.map e, .ptr a)]) [never] := Tri.alloc fun h a F R hc ho => .map hc ho
    refine Tri.bind (hm.sure (R := [theHole d p f.slot s]) (Ent.first _ _) (fun _ => Ent.refl _)) fun a => ?_
    refine Tri.bind ((tri_setHole (s := s) (v := .ptr a) hd hf).use (R := [(.map e, .ptr a)]) (Ent.perm (by items)) (fun _ => Ent.refl _) (Ent.first _ _)) fun _ => ?_
    exact Tri.pure (Ent.refl _)
  · rw [hty]
    exact Tri.pure (Ent.refl _)

theorem tri_mapEntry {md : MapDesc} {b : Bytes} {base i post : Nat} (hd : MsgFacts d) (hf : f ∈ d.fields) (hm : f.map = some md) :
    Tri C [theMsg d p] (hmapEntry E rec f md b base i post p) (fun _ => [theMsg d p]) [theMsg d p] := by
  obtain ⟨hr, -, -, -⟩ := (hd.fields f hf).map md hm
  have ho : f.oneof = false := by
    cases h : f.oneof with
    | false => rfl
    | true => exact absurd hr (by rw [((hd.fields f hf).oneof h).1]; exact fun h => nomatch h)
  have hty : fieldTy d f = .map (elemTy md.val md.valMsg) := by simp [fieldTy, ho, hr, hm]
  rw [hmapEntry]
  refine Tri.bind (tri_makeMap hd hf hty) fun s => ?_
  have hback : Ent C [(.map (elemTy md.val md.valMsg), s), theHole d p f.slot s] [theMsg d p] := by
    refine Ent.trans (Ent.perm (J := [theHole d p f.slot s, (fieldTy d f, s)]) ?_) (ent_closeSlot hd hf)
    rw [hty]
    items
  refine Tri.bind ((tri_entryLoop hE hrec (b.length + 1) i _ _).use (R := [(.map (elemTy md.val md.valMsg), s), theHole d p f.slot s]) ?_ (fun _ => Ent.refl _) hback) fun ⟨k, v⟩ => ?_
  · exact (ent_zeroScalar md.val md.valMsg _).trans (Ent.cons (Ent.perm (List.Perm.swap _ _ _)))
  · exact tri_mapPut.use (R := [theHole d p f.slot s]) (Ent.perm (by items)) (fun _ => hback) hback

theorem tri_groupLoop {wire : BitVec 64} {b : Bytes} {base start : Nat} (hd : MsgFacts d) (hf : f ∈ d.fields) (hk : f.kind = .group) : ∀ n i : Nat,
    Tri C [theMsg d p] (hgroupLoop E rec f wire b base start p n i) (fun _ => [theMsg d p]) [theMsg d p]
  | 0, _ => Tri.fail (r := .diverge) (fun _ h => nomatch h) (Ent.refl _)
  | n + 1, i => by
    have ff := hd.fields f hf
    have ho : f.oneof = false := by
      cases h : f.oneof with
      | false => rfl
      | true => exact absurd hk (ff.oneof h).2.2.2
    have hr : f.card ≠ .repeated := fun h => (ff.rep h).2.1 hk
    have hty : fieldTy d f = .msg f.msg := by simp [fieldTy, ho, hr, hk, fieldTy.isScalar, elemTy]
    rw [hgroupLoop]
    refine Tri.lift_bind (Ent.refl _) fun ⟨_, j⟩ _ => ?_
    dsimp only
    split_ifs
    · refine Tri.lift_bind (Ent.refl _) fun s _ => ?_
      refine Tri.bind (tri_slot hd hf) fun v => ?_
      have hback : Ent C [(.msg f.msg, v), theHole d p f.slot v] [theMsg d p] := by
        refine Ent.trans (Ent.perm (J := [theHole d p f.slot v, (fieldTy d f, v)]) ?_) (ent_closeSlot hd hf)
        rw [hty]
        items
      rw [hty]
      refine Tri.bind ((tri_decodeMessage hE hrec).use (R := [theHole d p f.slot v]) (Ent.perm (by items)) (fun _ => hback) hback) fun _ => Tri.pure (Ent.refl _)
    · refine Tri.lift_bind (Ent.refl _) fun s _ => ?_
      refine Tri.lift_bind (Ent.refl _) fun k _ => ?_
      split_ifs
      · exact Tri.fail (r := .err .invalidLength) (fun _ h => nomatch h) (Ent.refl _)
      · exact tri_groupLoop hd hf hk n _

omit hE hrec in
theorem tri_direct {proto3 : Bool} {b : Bytes} {i : Nat} (hd : MsgFacts d) (hf : f ∈ d.fields) (hk : fieldTy.isScalar f.kind = true)
    (h3 : proto3 = true → d.proto3 = true) :
    Tri C [theMsg d p] (hdirect E f proto3 b i p) (fun _ => [theMsg d p]) [theMsg d p] := by
  rw [hdirect]
  split_ifs with hc
  · simp only [Bool.and_eq_true, Bool.not_eq_true', bne_iff_ne, ne_eq] at hc
    obtain ⟨⟨⟨ho, hr⟩, hp⟩, hs⟩ := hc
    have hpres := (hd.fields f hf).implicit hr (h3 hp) ho hs (scalar_noMsg hk)
    have hty : fieldTy d f = .flat := by simp [fieldTy, ho, hr, hpres, elemTy_flat hk]
    cases direct E.A f.kind b i with
    | none => exact Tri.pure (Ent.refl _)
    | some v =>
      refine (tri_put hd hf).pre ?_
      rw [hty]
      exact ent_flatNum.trans (Ent.perm (List.Perm.swap _ _ _))
  · exact Tri.pure (Ent.refl _)

theorem tri_fieldItem {proto3 : Bool} {wire : BitVec 64} {b : Bytes} {base i : Nat} (hd : MsgFacts d) (hf : f ∈ d.fields)
    (h3 : proto3 = true → d.proto3 = true) (hl : FieldLock C E f) :
    Tri C [theMsg d p] (hfieldItem E rec d f proto3 wire b base i p) (fun _ => [theMsg d p]) [theMsg d p] := by
  have hnum : ∀ k, fieldTy.isScalar f.kind = true → Tri C [theMsg d p] (do
      hdirect E f proto3 b i p
      let (v, i) ← HM.lift (readNum E.A k b i)
      hstore E d f p (.num v)
      pure i) (fun _ => [theMsg d p]) [theMsg d p] := by
    intro k hk
    refine Tri.bind (tri_direct hd hf hk h3) fun _ => ?_
    refine Tri.lift_bind (Ent.refl _) fun ⟨v, j⟩ _ => ?_
    exact Tri.bind ((tri_store hd hf hk).pre (ent_flatNum.trans (Ent.perm (List.Perm.swap _ _ _)))) fun _ => Tri.pure (Ent.refl _)
  rw [hfieldItem.eq_def]
  cases hk : f.kind with
  | string =>
    dsimp only
    refine Tri.lift_bind (Ent.refl _) fun ⟨j, post⟩ _ => ?_
    refine Tri.lift_bind (Ent.refl _) fun s _ => ?_
    exact Tri.bind ((tri_store hd hf (by rw [hk]; rfl)).pre ((ent_string hE _ _ _).trans (Ent.perm (List.Perm.swap _ _ _)))) fun _ => Tri.pure (Ent.refl _)
  | bytes =>
    dsimp only
    refine Tri.lift_bind (Ent.refl _) fun ⟨j, post⟩ _ => ?_
    refine Tri.lift_bind (Ent.refl _) fun s _ => ?_
    exact Tri.bind (tri_storeBytes hE hd hf hk hl) fun _ => Tri.pure (Ent.refl _)
  | group => exact tri_groupLoop hE hrec hd hf hk _ _
  | message =>
    dsimp only
    refine Tri.lift_bind (Ent.refl _) fun ⟨j, post⟩ _ => ?_
    refine Tri.bind (J := fun _ => [theMsg d p]) ?_ fun _ => Tri.pure (Ent.refl _)
    rw [hsubItem]
    cases hm : f.map with
    | some md => exact tri_mapEntry hE hrec hd hf hm
    | none =>
      dsimp only
      refine Tri.lift_bind (Ent.refl _) fun s _ => ?_
      exact tri_messageItem hE hrec hd hf hk hm
  | _ => exact hnum _ (by rw [hk]; rfl)

theorem tri_packedLoop {wire : BitVec 64} {b : Bytes} {base post : Nat} (hd : MsgFacts d) (hf : f ∈ d.fields) (hl : FieldLock C E f) : ∀ n i : Nat,
    Tri C [theMsg d p] (hpackedLoop E rec d f wire b base post p n i) (fun _ => [theMsg d p]) [theMsg d p]
  | 0, _ => Tri.fail (r := .diverge) (fun _ h => nomatch h) (Ent.refl _)
  | n + 1, i => by
    rw [hpackedLoop]
    split_ifs
    · exact Tri.bind (tri_fieldItem hE hrec hd hf (fun h => nomatch h) hl) fun j => tri_packedLoop hd hf hl n j
    · exact Tri.pure (Ent.refl _)

omit hE hrec in
theorem tri_prealloc {count : Nat} {e : Ty} (hd : MsgFacts d) (hf : f ∈ d.fields) (hty : fieldTy d f = .list e) (he : e.nilable = true) :
    Tri C [theMsg d p] (hprealloc d f count p) (fun _ => [theMsg d p]) [theMsg d p] := by
  rw [hprealloc]
  by_cases hc : count ≠ 0
  · rw [if_pos hc]
    refine Tri.bind (tri_slot hd hf) fun s => ?_
    have hback : Ent C [(.list e, s), theHole d p f.slot s] [theMsg d p] := by
      refine Ent.trans (Ent.perm (J := [theHole d p f.slot s, (fieldTy d f, s)]) ?_) (ent_closeSlot hd hf)
      rw [hty]
      items
    rw [hty]
    refine Tri.bind (tri_lenCap.use (R := [theHole d p f.slot s]) (Ent.perm (by items)) (fun _ => Ent.refl _) hback) fun ⟨len, cap⟩ => ?_
    dsimp only
    by_cases hl : len = 0 ∧ (d.pooled = true → cap < count)
    · rw [if_pos hl]
      refine Tri.bind ((tri_makeSlice he).sure (R := [theHole d p f.slot s]) (Ent.rest _ _) (fun _ => Ent.refl _)) fun s' => ?_
      refine (tri_putHole (s := s) hd hf).pre ?_
      rw [hty]
      exact Ent.perm (by items)
    · rw [if_neg hl]
      exact Tri.pure hback
  · rw [if_neg hc]
    exact Tri.pure (Ent.refl _)

theorem tri_fieldCase {wire : BitVec 64} {b : Bytes} {base i : Nat} (hd : MsgFacts d) (hf : f ∈ d.fields) (hlk : FieldLock C E f) :
    Tri C [theMsg d p] (hfieldCase E rec d f wire b base i p) (fun _ => [theMsg d p]) [theMsg d p] := by
  rw [hfieldCase]
  by_cases hl : (f.isList && protoWireType f.kind != 2) = true
  · rw [if_pos hl]
    simp only [FieldDesc.isList, Bool.and_eq_true, beq_iff_eq, Option.isNone_iff_eq_none] at hl
    dsimp only
    split_ifs
    · exact tri_fieldItem hE hrec hd hf (fun h => nomatch h) hlk
    · refine Tri.lift_bind (Ent.refl _) fun ⟨j, post⟩ _ => ?_
      refine Tri.lift_bind (Ent.refl _) fun s _ => ?_
      have ho : f.oneof = false := by
        cases h : f.oneof with
        | false => rfl
        | true => exact absurd hl.1.1 (by rw [((hd.fields f hf).oneof h).1]; exact fun h => nomatch h)
      have hty : fieldTy d f = .list (elemTy f.kind f.msg) := by simp [fieldTy, ho, hl.1.1, hl.1.2]
      exact Tri.bind (tri_prealloc hd hf hty (elemTy_nilable _ _)) fun _ => tri_packedLoop hE hrec hd hf hlk _ _
    · exact Tri.fail (r := .err (.wrongWireType f.num)) (fun _ h => nomatch h) (Ent.refl _)
  · rw [if_neg hl]
    split_ifs
    · exact Tri.fail (r := .err (.wrongWireType f.num)) (fun _ h => nomatch h) (Ent.refl _)
    · exact tri_fieldItem hE hrec hd hf id hlk

omit hE hrec in
/-- Emptying a message. -/
theorem tri_empty {t : Nat} {a : Addr} {e : Bytes} {c : Cell} {K : List Item} :
    Tri C [(.raw c, .ptr a)] (hwrite a (.msg ((List.range (C.S.msg t).nslots).map (hzeroSlot (C.S.msg t))) .nil e)) (fun _ => [theMsg (C.S.msg t) (.ptr a)]) K := by
  refine (tri_write (c := c)).sure (R := []) (Ent.refl _) fun _ => ?_
  have h1 := (ent_zeroSlots (C := C) (C.S.msg t) (List.range (C.S.msg t).nslots) [(.mem, .nil)])
  exact Ent.trans (Ent.cons ((ent_nil (ty := .mem) rfl).trans h1)) (ent_seal (tys := slotTys (C.S.msg t)) (by simp [slotTys]) [])

omit hE hrec in
theorem tri_runtimePartial {t : Nat} {b : Bytes} (hS : E.S = C.S) :
    Tri C [theMsg (C.S.msg t) p] (hruntimePartial E t b p) (fun _ => [theMsg (C.S.msg t) p]) [theMsg (C.S.msg t) p] := by
  rw [hruntimePartial.eq_def]
  cases p with
  | nil => exact Tri.fail (r := .panic .nilDeref) (fun _ h => nomatch h) (Ent.refl _)
  | ptr a =>
    refine tri_open fun slots u e hl => ?_
    have hback : Ent C ((.raw (.msg slots u e), .ptr a) :: ((slotTys (C.S.msg t)).zip slots ++ [(.mem, u)])) [theMsg (C.S.msg t) (.ptr a)] := ent_seal hl []
    refine tri_read ?_
    dsimp only
    split
    · rw [hS]
      refine Tri.bind (J := fun _ => [theMsg (C.S.msg t) (.ptr a)]) ((tri_empty (c := .msg slots u e) (t := t)).pre (Ent.first _ _)) fun _ => ?_
      exact tri_appendUnknown
    · exact Tri.fail (r := .panic .typeConfusion) (fun _ h => nomatch h) hback
    · exact Tri.fail (r := .err .foreign) (fun _ h => nomatch h) hback
  | bytes => exact tri_absurd fun h R F ho => nomatch ho
  | num n => exact tri_absurd fun h R F ho => nomatch ho
  | str n => exact tri_absurd fun h R F ho => nomatch ho
  | view => exact tri_absurd fun h R F ho => nomatch ho
  | slice => exact tri_absurd fun h R F ho => nomatch ho
  | wrapNil => exact tri_absurd fun h R F ho => nomatch ho

omit hE hrec in
theorem tri_unknownCase {t num : Nat} {b : Bytes} {i : Nat} (hS : E.S = C.S) :
    Tri C [theMsg (C.S.msg t) p] (hunknownCase E t num b i p) (fun _ => [theMsg (C.S.msg t) p]) [theMsg (C.S.msg t) p] := by
  rw [hunknownCase]
  refine Tri.lift_bind (Ent.refl _) fun j _ => ?_
  refine Tri.lift_bind (Ent.refl _) fun s _ => ?_
  dsimp only
  split
  · exact Tri.bind (J := fun _ => [theMsg (C.S.msg t) p]) (tri_runtimePartial hS) fun _ => Tri.pure (Ent.refl _)
  refine Tri.bind (J := fun _ => [theMsg (C.S.msg t) p]) ?_ fun _ => Tri.pure (Ent.refl _)
  rw [hkeepUnknown]
  split_ifs
  · exact tri_appendUnknown
  · exact Tri.pure (Ent.refl _)

theorem tri_recordStep {t : Nat} {b : Bytes} {base i : Nat} {has : List (BitVec 64)} (ht : (C.S.msg t).foreign = false) :
    Tri C [theMsg (C.S.msg t) p] (hrecordStep E rec t b base i has p) (fun _ => [theMsg (C.S.msg t) p]) [theMsg (C.S.msg t) p] := by
  have hd := schemaOK_msg hE.ok t
  rw [hrecordStep, hE.schema]
  refine Tri.lift_bind (Ent.refl _) fun ⟨wire, j⟩ _ => ?_
  dsimp only
  split_ifs
  · exact Tri.fail (r := .err .endGroupForNonGroup) (fun _ h => nomatch h) (Ent.refl _)
  · exact Tri.fail (r := .err .illegalTag) (fun _ h => nomatch h) (Ent.refl _)
  · split
    · rename_i f hf
      have hm := List.mem_of_find?_eq_some hf
      refine Tri.bind (tri_fieldCase hE hrec hd hm (hE.lock t f hm)) fun j => ?_
      exact Tri.lift_bind (Ent.refl _) fun _ _ => Tri.pure (Ent.refl _)
    · exact Tri.bind (tri_unknownCase hE.schema) fun j => Tri.pure (Ent.refl _)

theorem tri_recordLoop {t : Nat} {b : Bytes} {base : Nat} (ht : (C.S.msg t).foreign = false) : ∀ (n i : Nat) (has : List (BitVec 64)),
    Tri C [theMsg (C.S.msg t) p] (hrecordLoop E rec t b base p n i has) (fun _ => [theMsg (C.S.msg t) p]) [theMsg (C.S.msg t) p]
  | 0, _, _ => Tri.fail (r := .diverge) (fun _ h => nomatch h) (Ent.refl _)
  | n + 1, i, has => by
    rw [hrecordLoop]
    split_ifs
    · exact Tri.bind (tri_recordStep hE hrec ht) fun ⟨j, has⟩ => tri_recordLoop ht n j has
    · exact Tri.pure (Ent.refl _)

theorem tri_unmarshalBody : RecOK C (hunmarshalBody E rec) := by
  intro base t b p ht
  refine Tri.conseq (I := [theMsg (C.S.msg t) p]) (J := fun _ => [theMsg (C.S.msg t) p]) (K := [theMsg (C.S.msg t) p]) ?_
    (ent_msg ht p []) (fun _ => ent_obj ht p []) (ent_obj ht p [])
  rw [hunmarshalBody]
  refine Tri.bind (tri_recordLoop hE hrec ht _ _ _) fun ⟨i, has⟩ => ?_
  refine Tri.lift_bind (Ent.refl _) fun _ _ => ?_
  split_ifs
  · exact Tri.fail (r := .err .unexpectedEOF) (fun _ h => nomatch h) (Ent.refl _)
  · exact Tri.pure (Ent.refl _)

omit hrec in
theorem tri_unmarshalN : ∀ n, RecOK C (hunmarshalN E n)
  | 0 => fun _ _ _ _ _ => Tri.fail (r := .diverge) (fun _ h => nomatch h) (Ent.refl _)
  | n + 1 => tri_unmarshalBody hE (tri_unmarshalN n)

omit hrec in
/-- Decoding keeps ownership, whatever comes of it. -/
theorem tri_unmarshalVT {t : Nat} {b : Bytes} (ht : (C.S.msg t).foreign = false) :
    Tri C [(.msg t, p)] (hunmarshalVT E t b p) (fun _ => [(.msg t, p)]) [(.msg t, p)] := tri_unmarshalN hE _ _ _ _ _ ht

end

end Vtp
