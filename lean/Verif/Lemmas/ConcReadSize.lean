import Verif.Lemmas.ConcRead
/-! # `SizeVT` on memory -/

namespace Vtp.Conc
open Spec

variable {S : Schema} {B : Bufs} {h : Heap} {F : Addr → Prop} {R : Runtime} {n : Nat}

/-- A method of sub-messages gives what the one on values does. -/
def RecSize (S : Schema) (B : Bufs) (h : Heap) (F : Addr → Prop) (n : Nat) (rec : Nat → HV → Prog Nat) (rec' : Nat → Val → Nat) : Prop :=
  ∀ t x v, (S.msg t).foreign = false → At S B h F (.msg t) x v → v.depth < n → Gives (Sees B h F) (rec t x) (.ok (rec' t v))

variable {rec : Nat → HV → Prog Nat} {rec' : Nat → Val → Nat} (H : RecSize S B h F n rec rec')
include H

theorem gives_messageSize {t : Nat} {x : HV} {v : Val} (hx : At S B h F (.msg t) x v) (hv : v.depth < n) :
    Gives (Sees B h F) (hmessageSize ⟨S, R⟩ rec t x) (.ok (messageSize ⟨S, R⟩ rec' t v)) := by
  unfold hmessageSize messageSize
  by_cases hf : (S.msg t).foreign = true
  · rw [if_pos hf, if_pos hf]; exact .bind_ok (hx.foreign hf) (.pure _)
  · rw [if_neg hf, if_neg hf]; exact H t x v (by simpa using hf) hx hv

theorem gives_mapEntrySize {md : MapDesc} (hg : md.val ≠ .group) {k : Key} {x : HV} {v : Val} (hx : At S B h F (elemTy md.val md.valMsg) x v) (hv : v.depth < n) :
    Gives (Sees B h F) (hmapEntrySize ⟨S, R⟩ rec md k x) (.ok (mapEntrySize ⟨S, R⟩ rec' md (k, v))) := by
  unfold hmapEntrySize mapEntrySize
  by_cases hm : md.val = .message
  · rw [if_pos hm]
    simp only [hm] at hx ⊢
    rw [hx.isNil (by simp [elemTy])]
    cases hn : v.isNil with
    | true => exact .bind_ok (.pure _) (.pure _)
    | false => exact .bind_ok (gives_messageSize H hx hv) (.pure _)
  · rw [if_neg hm]
    refine .bind_ok (gives_sizeScalar hm hg hx) ?_
    show _ = _
    cases hk : md.val <;> simp_all

section
variable {d : MsgDesc} {o : Bool} {f : FieldDesc} (hf : FieldIs d o f) {x : HV} {v : Val} (hx : At S B h F (valTy o f) x v)
  (hn : isBoxed o f = true → v.isNil = false) {k : Kind} (hk : f.kind = k) (hm : k ≠ .message) (hg : k ≠ .group)
include hf hx hn hk hm hg

omit H in
theorem gives_single (hr : f.card ≠ .repeated) (key n : Nat) (hs : sizeScalar k v = n) :
    Gives (Sees B h F) (do
      match ← hpresent o f x with
      | some y => do
        let n ← hsizeScalar k y
        pure (key + n)
      | none => pure 0) (.ok (if (!o && !(f.hasMessage || (!o && f.presence)) && isZeroVal k v) = true then 0 else key + n)) := by
  subst hk; subst hs
  obtain ⟨y, h1, h2⟩ := gives_present hf hr hm hg hx hn
  refine .bind_ok h2 ?_
  by_cases hc : (!o && !(f.hasMessage || (!o && f.presence)) && isZeroVal f.kind v) = true
  · simp only [hc, if_true]; exact .pure _
  · simp only [hc, Bool.false_eq_true, if_false]
    exact .bind_ok (gives_sizeScalar hm hg h1) (.pure _)

omit H hn hg in
theorem at_list (hr : f.card = .repeated) : At S B h F (.list (elemTy k f.msg)) x v := by
  have h1 := hx
  rw [valTy_list hf hr (mapNone hf.facts (hk ▸ hm)), hk] at h1
  exact h1

omit H hn in
theorem gives_sumScalar (hr : f.card = .repeated) (key : Nat) :
    Gives (Sees B h F) (do
      let c ← hlen x
      hsumElems (fun e => do
        let n ← hsizeScalar k e
        pure (key + n)) x 0 c) (.ok (v.elems.map fun e => key + sizeScalar k e).sum) :=
  gives_sumElems_all (at_list hf hx hk hm hr) fun _ _ _ hy => .bind_ok (gives_sizeScalar hm hg hy) (.pure _)

end

theorem gives_sizeFieldBody {d : MsgDesc} {o : Bool} {f : FieldDesc} (hf : FieldIs d o f) {x : HV} {v : Val} (hx : At S B h F (valTy o f) x v)
    (hn : isBoxed o f = true → v.isNil = false) (hv : v.depth < n) :
    Gives (Sees B h F) (hsizeFieldBody ⟨S, R⟩ rec o f x) (.ok (sizeFieldBody ⟨S, R⟩ rec' o f v)) := by
  have hel : ∀ e ∈ v.elems, e.depth < n := fun e he => lt_of_le_of_lt (depth_elems he) hv
  unfold hsizeFieldBody sizeFieldBody
  cases hk : f.kind <;> simp only
  case group =>
    have hr : f.card ≠ .repeated := fun hr => (hf.facts.rep hr).2.1 hk
    rw [valTy_msg hf hr (by simp [FieldDesc.hasMessage, hk])] at hx
    exact .bind_ok (gives_messageSize H hx hv) (.pure _)
  case message =>
    cases hm : f.map with
    | some md =>
      rw [valTy_map hf hm] at hx
      refine .bind_ok hx.mapLen ?_
      exact gives_sumEntries hx (g' := fun e => mapEntrySize ⟨S, R⟩ rec' md e + keySize f.num (protoWireType .message) + sizeOfVarint (u64 (mapEntrySize ⟨S, R⟩ rec' md e)))
        (fun e he y hy => by
          refine Gives.bind_ok (gives_mapEntrySize (R := R) (k := e.1) H (hf.facts.map md hm).2.2.2 hy (lt_of_le_of_lt (depth_entries he) hv)) ?_
          exact .pure _) _ 0 (by omega)
    | none =>
      simp only
      by_cases hr : f.card = .repeated
      · have hr' : (f.card == .repeated) = true := by simp [hr]
        rw [valTy_list hf hr hm, hk] at hx
        simp only [hr', if_true]
        exact gives_sumElems_all hx fun e he y hy => .bind_ok (gives_messageSize H hy (hel e he)) (.pure _)
      · have hr' : (f.card == .repeated) = false := by simp [hr]
        rw [valTy_msg hf hr (by simp [FieldDesc.hasMessage, hk])] at hx
        simp only [hr', Bool.false_eq_true, if_false]
        exact .bind_ok (gives_messageSize H hx hv) (.pure _)
  all_goals
    by_cases hp : f.packed = true
    · have hr := (hf.facts.packed hp).1
      have hr' : (f.card == .repeated) = true := by simp [hr]
      have hl := at_list hf hx hk (by decide) hr
      simp only [hp, hr', if_true]
      first
      | exact .bind_ok hl.len (.pure _)
      | exact .bind_ok hl.len (.bind_ok (gives_sumElems hl (fun e he y hy => gives_sizeScalar (by decide) (by decide) hy) _ 0 (by omega)) (.pure _))
      | exact gives_sumScalar hf hx hk (by decide) (by decide) hr _
    · simp only [hp, Bool.false_eq_true, if_false]
      by_cases hr : f.card = .repeated
      · have hr' : (f.card == .repeated) = true := by simp [hr]
        have hl := at_list hf hx hk (by decide) hr
        simp only [hr', if_true]
        first
        | exact .bind_ok hl.len (.pure _)
        | exact gives_sumScalar hf hx hk (by decide) (by decide) hr _
      · have hr' : (f.card == .repeated) = false := by simp [hr]
        simp only [hr', Bool.false_eq_true, if_false]
        exact gives_single hf hx hn hk (by decide) (by decide) hr _ _ rfl

theorem gives_sizeField {d : MsgDesc} {o : Bool} {f : FieldDesc} (hf : FieldIs d o f) {x : HV} {v : Val} (hx : At S B h F (valTy o f) x v) (hv : v.depth < n) :
    Gives (Sees B h F) (hsizeField ⟨S, R⟩ rec o f x) (.ok (sizeField ⟨S, R⟩ rec' o f v)) := by
  unfold hsizeField sizeField
  by_cases hr : f.card = .repeated
  · have hr' : (f.card == .repeated) = true := by simp [hr]
    simp only [hr', if_true]
    refine .bind_ok (gives_fieldLen hf hr hx) ?_
    split
    · refine gives_sizeFieldBody H hf hx (fun hb => ?_) hv
      simp [isBoxed, (hf.facts.rep hr).1] at hb
    · exact .pure _
  · have hr' : (f.card == .repeated) = false := by simp [hr]
    have hnil : x.isNil = v.isNil := hx.isNil (by
      rw [valTy_single hf hr]
      intro c
      split
      · simp
      · cases f.kind <;> simp [elemTy])
    simp only [hr', Bool.false_eq_true, if_false, hnil]
    by_cases hnu : (f.hasMessage || !o && f.presence) = true
    · simp only [hnu, if_true]
      cases hvn : v.isNil with
      | false =>
        simp only [Bool.not_false, if_true]
        exact gives_sizeFieldBody H hf hx (fun _ => hvn) hv
      | true =>
        simp only [Bool.not_true, Bool.false_eq_true, if_false]
        split <;> exact .pure _
    · simp only [hnu, Bool.false_eq_true, if_false]
      refine gives_sizeFieldBody H hf hx (fun hb => ?_) hv
      simp only [isBoxed, Bool.and_eq_true] at hb
      simp [hb.1.1, hb.1.2] at hnu

omit H in
theorem member_is {d : MsgDesc} (hd : MsgFacts d) {slot m : Nat} {f : FieldDesc} (hf : d.member slot m = some f) : FieldIs d true f ∧ f.num = m ∧ f.slot = slot := by
  have h1 := List.mem_of_find?_eq_some hf
  have h2 := List.find?_some hf
  simp only [Bool.and_eq_true, beq_iff_eq] at h2
  exact ⟨⟨hd.fields f h1, fun _ => h2.1.1⟩, h2.2, h2.1.2⟩

theorem gives_sizeOneof {d : MsgDesc} (hd : MsgFacts d) {slot : Nat} {x : HV} {v : Val} (hx : At S B h F (.oneof d slot) x v) (hv : v.depth < n) :
    Gives (Sees B h F) (hsizeOneof ⟨S, R⟩ rec d slot x) (.ok (sizeOneof ⟨S, R⟩ rec' d slot v)) := by
  rcases hx.oneof with ⟨rfl, rfl⟩ | ⟨m, rfl, rfl⟩ | ⟨a, m, y, w, f, rfl, ha, hc, rfl, hm, hy⟩
  · exact .pure _
  · exact .pure _
  · refine .bind_ok (.read hc) ?_
    simp only [hm, sizeOneof]
    refine gives_sizeField H (member_is hd hm).1 hy ?_
    rw [Val.depth] at hv; omega

/-- The fields of a message in memory. -/
def MsgAt (S : Schema) (B : Bufs) (h : Heap) (F : Addr → Prop) (t : Nat) (a : Addr) (vs : List Val) : Prop :=
  ∃ s u e, Sees B h F a (.msg s u e) ∧ ∀ f ∈ (S.msg t).fields, At S B h F (fieldTy (S.msg t) f) (s.getD f.slot .nil) (slotOf vs f)

omit H in
theorem MsgAt.slot {t : Nat} {a : Addr} {vs : List Val} (hm : MsgAt S B h F t a vs) {f : FieldDesc} (hf : f ∈ (S.msg t).fields) :
    ∃ x, Gives (Sees B h F) (hgetSlot (.ptr a) f.slot) (.ok x) ∧ At S B h F (fieldTy (S.msg t) f) x (slotOf vs f) := by
  obtain ⟨s, u, e, hc, h1⟩ := hm
  exact ⟨_, gives_getSlot hc _, h1 f hf⟩

theorem gives_sizeFields {t : Nat} (hd : MsgFacts (S.msg t)) {a : Addr} {vs : List Val} (hm : MsgAt S B h F t a vs) (hv : Val.depthList vs < n) :
    ∀ (fs : List FieldDesc) (seen : List Nat), (∀ f ∈ fs, f ∈ (S.msg t).fields) →
      Gives (Sees B h F) (hsizeFields ⟨S, R⟩ rec (S.msg t) (.ptr a) seen fs) (.ok (sizeFields ⟨S, R⟩ rec' (S.msg t) vs seen fs)) := by
  intro fs
  induction fs with
  | nil => intro seen _; exact .pure _
  | cons f fs ih =>
    intro seen hfs
    have ih' := fun seen => ih seen (fun g hg => hfs g (List.mem_cons_of_mem _ hg))
    have hfm := hfs f (List.mem_cons_self ..)
    obtain ⟨x, h1, h2⟩ := hm.slot hfm
    have hsd : (slotOf vs f).depth < n := lt_of_le_of_lt (depth_slotOf vs f) hv
    unfold hsizeFields sizeFields
    by_cases ho : f.oneof = true
    · rw [if_pos ho, if_pos ho]
      split
      · exact ih' _
      · have h3 : At S B h F (.oneof (S.msg t) f.slot) x (slotOf vs f) := by rw [fieldTy, if_pos ho] at h2; exact h2
        exact .bind_ok h1 (.bind_ok (gives_sizeOneof H hd h3 hsd) (.bind_ok (ih' _) (.pure _)))
    · rw [if_neg ho, if_neg ho]
      rw [fieldTy_valTy (by simpa using ho)] at h2
      exact .bind_ok h1 (.bind_ok (gives_sizeField H ⟨hd.fields f hfm, fun hc => by cases hc⟩ h2 hsd) (.bind_ok (ih' _) (.pure _)))

omit H in
theorem gives_sizeN (hS : schemaOK S = true) : ∀ n, RecSize S B h F n (hsizeN ⟨S, R⟩ n) (sizeN ⟨S, R⟩ n) := by
  intro n
  induction n with
  | zero => intro t x v _ _ hv; omega
  | succ n ih =>
    intro t x v hf hx hv
    rcases hx.msg (schemaOK_msg hS t) hf with ⟨rfl, rfl⟩ | ⟨a, s, u, e, vs, uv, rfl, ha, hc, rfl, hu, hs⟩
    · exact .pure _
    · unfold hsizeN sizeN
      simp only [HV.isNil, Bool.false_eq_true, if_false]
      rw [Val.depth] at hv
      refine .bind_ok (gives_sizeFields ih (schemaOK_msg hS t) (vs := vs) ⟨s, u, e, hc, hs⟩ (by omega) _ [] (fun _ hg => hg)) ?_
      split
      · exact .bind_ok (gives_getUnknown hc) (.bind_ok (hu.bytes (.inr (.inr rfl))) (.pure _))
      · exact .pure _

end Vtp.Conc
