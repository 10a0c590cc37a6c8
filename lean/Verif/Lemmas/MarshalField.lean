import Verif.Lemmas.Marshal
import Verif.Lemmas.Schema
/-!
# Fields and messages
-/

namespace Vtp
open Spec

theorem sum_const {α : Type} (l : List α) (c : Nat) : (l.map fun _ => c).sum = l.length * c := by
  induction l with
  | nil => simp
  | cons a as ih => simp [ih, Nat.succ_mul]; omega

theorem Runs.block {w : Writer} {b : Bytes} {l : Nat} (h : Runs w (some b) l) (num : Nat) (hn : num < 2 ^ 29) :
    Runs (Writer.seq w (Writer.seq (Writer.varint (u64 l)) (Writer.key num 2))) (some (tag num 2 ++ delimited b))
      (keySize num 2 + sizeOfVarint (u64 l) + l) := by
  have hl := h.1
  refine (h.seq ((Runs.varint (u64 l)).seq (Runs.key num 2 hn (by omega)))).cast ?_ (by omega)
  rw [optAppend_some, optAppend_some, u64, BitVec.toNat_ofNat, delimited, hl]
  simp [lenPrefix]

section
variable {E : Env} {okv : Nat → Val → Bool} {rM : Nat → Val → Bytes → Res (Bytes × Nat)}
  {rE : Nat → Val → Option Bytes} {rS : Nat → Val → Nat}

/-- The tag of a field, or of the packed block. -/
def wtOf (f : FieldDesc) : Nat := if f.packed then 2 else protoWireType f.kind

theorem runs_fixedBlock (num : Nat) (hn : num < 2 ^ 29) (k : Kind) (xs : List Val) (n : Nat)
    (hs : ∀ x ∈ xs, scalarOK k x = true) (hk : ∀ x, sizeScalar k x = n) :
    Runs (Writer.seq (Writer.each (marshalScalar k) xs.reverse)
      (Writer.seq (Writer.varint (u64 (xs.length * n))) (Writer.key num 2)))
      (some (tag num 2 ++ delimited (xs.map (scalar k)).flatten))
      (keySize num 2 + sizeOfVarint (u64 (xs.length * n)) + xs.length * n) := by
  have h := Runs.eachReverse (f := marshalScalar k) (e := fun x => some (scalar k x)) (n := fun _ => n) xs
    (fun x hx => (runs_scalar (hs x hx)).cast rfl (hk x))
  rw [concat_some, sum_const] at h
  exact h.block num hn

theorem runs_varBlock (num : Nat) (hn : num < 2 ^ 29) (k : Kind) (xs : List Val)
    (hs : ∀ x ∈ xs, scalarOK k x = true) (hk : varintKind k = true) :
    Runs (fun s =>
        (packedVarints (xs.map (wireVarint k)) s.buf (s.i - ((xs.map (sizeScalar k)).sum : Nat)) >>= fun buf =>
        Writer.seq (Writer.varint (u64 (xs.map (sizeScalar k)).sum)) (Writer.key num 2)
          ⟨buf, s.i - ((xs.map (sizeScalar k)).sum : Nat)⟩))
      (some (tag num 2 ++ delimited (xs.map (scalar k)).flatten))
      (keySize num 2 + sizeOfVarint (u64 (xs.map (sizeScalar k)).sum) + (xs.map (sizeScalar k)).sum) := by
  have e1 : (xs.map (sizeScalar k)).sum = ((xs.map (wireVarint k)).map sizeOfVarint).sum := by
    rw [List.map_map]
    congr 1
    apply List.map_congr_left
    intro x hx
    simp [wireVarint_size hk (hs x hx)]
  have e2 : (xs.map (scalar k)).flatten = ((xs.map (wireVarint k)).map fun v => Spec.varint v.toNat).flatten := by
    rw [List.map_map]
    congr 1
    apply List.map_congr_left
    intro x _
    simp [wireVarint_scalar hk]
  have h := (Runs.packed (xs.map (wireVarint k)) _ e1).block num hn
  rw [← e2] at h
  refine cast (congrArg (fun w => Runs w _ _) ?_) h
  funext s
  simp only [Writer.seq]
  cases packedVarints (xs.map (wireVarint k)) s.buf (s.i - ((xs.map (sizeScalar k)).sum : Nat)) <;> simp

theorem runs_packedBody (oneof : Bool) (f : FieldDesc) (hn : f.num < 2 ^ 29) (v : Val) (hp : f.packed = true)
    (hk : numeric f.kind = true) (hs : ∀ x ∈ v.elems, scalarOK f.kind x = true) :
    Runs (marshalFieldBody E rM oneof f v) (some (tag f.num 2 ++ delimited (v.elems.map (scalar f.kind)).flatten))
      (sizeFieldBody E rS oneof f v) := by
  have hf := fun n => runs_fixedBlock f.num hn f.kind v.elems n hs
  have hv := runs_varBlock f.num hn f.kind v.elems hs
  cases hkind : f.kind <;> simp [hkind, numeric] at hk <;> rw [hkind] at hf hv <;>
    simp only [marshalFieldBody, sizeFieldBody, hkind, hp, if_true]
  case bool => exact hf 1 (fun _ => rfl)
  case sfixed32 => exact hf 4 (fun _ => rfl)
  case fixed32 => exact hf 4 (fun _ => rfl)
  case float => exact hf 4 (fun _ => rfl)
  case sfixed64 => exact hf 8 (fun _ => rfl)
  case fixed64 => exact hf 8 (fun _ => rfl)
  case double => exact hf 8 (fun _ => rfl)
  all_goals exact hv rfl

/-- A scalar field that is not packed: each element is a record. -/
theorem runs_repeatedScalar (oneof : Bool) (f : FieldDesc) (hn : f.num < 2 ^ 29) (v : Val) (hp : f.packed = false)
    (hr : f.card = .repeated) (hk : f.hasMessage = false) (hs : ∀ x ∈ v.elems, scalarOK f.kind x = true) :
    Runs (marshalFieldBody E rM oneof f v) (concat (v.elems.map (record E rE f.num f.kind f.msg)))
      (sizeFieldBody E rS oneof f v) := by
  have h := Runs.eachReverse (f := fun x => Writer.seq (marshalScalar f.kind x) (Writer.key f.num (protoWireType f.kind)))
    (e := record E rE f.num f.kind f.msg) (n := fun x => keySize f.num (protoWireType f.kind) + sizeScalar f.kind x)
    v.elems (fun x hx => runs_record_scalar f.num hn f.msg (hs x hx))
  have hc : ∀ c, (v.elems.map fun _ => c).sum = c * v.elems.length := by
    intro c; rw [sum_const, Nat.mul_comm]
  cases hkind : f.kind <;> simp [FieldDesc.hasMessage, hkind] at hk <;> rw [hkind] at h <;>
    simp only [marshalFieldBody, sizeFieldBody, hkind, hp, hr, if_true, beq_self_eq_true] <;>
    (first | exact h | (refine h.cast rfl ?_; exact hc _))

/-- One scalar value of a field with explicit presence or in a oneof, or a non-zero implicit one. -/
theorem runs_singleScalar (oneof : Bool) (f : FieldDesc) (hn : f.num < 2 ^ 29) (v : Val) (hp : f.packed = false)
    (hr : f.card ≠ .repeated) (hk : f.hasMessage = false) (hs : scalarOK f.kind v = true) :
    Runs (marshalFieldBody E rM oneof f v)
      (if !oneof && !f.presence && isZeroVal f.kind v then some [] else record E rE f.num f.kind f.msg v)
      (sizeFieldBody E rS oneof f v) := by
  have h := runs_record_scalar (E := E) (rE := rE) f.num hn f.msg hs
  have hr' : (f.card == .repeated) = false := by simpa using hr
  have hnull : (!oneof && !(f.hasMessage || !oneof && f.presence)) = (!oneof && !f.presence) := by
    rw [hk]; cases oneof <;> cases f.presence <;> rfl
  cases hz : (!oneof && !f.presence && isZeroVal f.kind v)
  · cases hkind : f.kind <;> simp [FieldDesc.hasMessage, hkind] at hk <;> rw [hkind] at h hz <;>
      simp only [marshalFieldBody, sizeFieldBody, hkind, hp, hr', hnull, hz] <;> exact h
  · cases hkind : f.kind <;> simp [FieldDesc.hasMessage, hkind] at hk <;> rw [hkind] at hz <;>
      simp only [marshalFieldBody, sizeFieldBody, hkind, hp, hr', hnull, hz, if_true] <;> exact Runs.skip

theorem elemOK_scalar {rec : Nat → Val → Bool} {k : Kind} {t : Nat} {v : Val} (hk : k ≠ .message) (hg : k ≠ .group)
    (h : elemOK rec k t v = true) : scalarOK k v = true := by
  cases k <;> simp_all [elemOK]

theorem hasMessage_false {f : FieldDesc} (hm : f.kind ≠ .message) (hg : f.kind ≠ .group) : f.hasMessage = false := by
  simp [FieldDesc.hasMessage, hm, hg]

theorem isNil_iff {v : Val} : v.isNil = true ↔ v = .nil := by cases v <;> simp [Val.isNil]

/-- A field outside a oneof. -/
theorem runs_field (hR : RuntimeEnc E.R) (H : SubRuns E okv rM rE rS) {d : MsgDesc} {f : FieldDesc} (hd : FieldFacts d f)
    (v : Val) (hv : fieldOK okv f v = true) :
    Runs (marshalField E rM false f v) (field E rE f v) (sizeField E rS false f v) := by
  have hn := hd.small
  unfold field
  cases hmap : f.map with
  | some md =>
    obtain ⟨hr, hkind, hkk, hvk⟩ := hd.map md hmap
    have hp : f.packed = false := by
      cases hp : f.packed
      · rfl
      · have := (hd.packed hp).2.1; rw [hmap] at this; cases this
    simp only [marshalField, sizeField, hr, beq_self_eq_true, if_true, FieldDesc.len, hmap, Option.isSome]
    have hall : ∀ e ∈ v.entries, scalarOK md.key e.1.toVal = true ∧ elemOK okv md.val md.valMsg e.2 = true := by
      intro e he
      cases v <;> simp [Val.entries] at he
      simp only [fieldOK, hmap, Bool.and_eq_true, List.all_eq_true] at hv
      exact hv.2 e he
    have h := Runs.each (f := marshalEntry E rM f.num 2 md) (e := entry E rE f.num md)
      (n := fun e => mapEntrySize E rS md e + keySize f.num 2 + sizeOfVarint (u64 (mapEntrySize E rS md e)))
      v.entries (fun e he => runs_entry hR H f.num hn md e (hall e he).1 (hall e he).2 (by simpa using hvk))
    split
    · simp only [marshalFieldBody, sizeFieldBody, hkind, hmap, hp, protoWireType]
      exact h
    · rename_i hlen
      have : v.entries = [] := by simpa using hlen
      rw [this]
      exact Runs.skip
  | none =>
    by_cases hr : f.card = .repeated
    · have hgrp := (hd.rep hr).2.1
      simp only [marshalField, sizeField, hr, beq_self_eq_true, if_true, FieldDesc.len, hmap, Option.isSome,
        Bool.false_eq_true, if_false]
      have hall : ∀ x ∈ v.elems, elemOK okv f.kind f.msg x = true := by
        intro x hx
        cases v <;> simp [Val.elems] at hx
        simp only [fieldOK, hmap, hr, beq_self_eq_true, if_true, Bool.and_eq_true, List.all_eq_true] at hv
        exact hv.1 x hx
      cases hp : f.packed
      · simp only [Bool.false_eq_true, if_false]
        have body : Runs (marshalFieldBody E rM false f v) (concat (v.elems.map (record E rE f.num f.kind f.msg)))
            (sizeFieldBody E rS false f v) := by
          by_cases hm : f.kind = .message
          · have h := Runs.eachReverse
              (f := fun x => Writer.seq (Writer.measured (marshalSub E rM f.msg x)) (Writer.key f.num 2))
              (e := record E rE f.num .message f.msg)
              (n := fun x => keySize f.num 2 + messageSize E rS f.msg x + sizeOfVarint (u64 (messageSize E rS f.msg x)))
              v.elems (fun x hx => runs_record_msg hR H f.num hn f.msg x (by
                have := hall x hx; simpa [elemOK, hm] using this))
            simp only [marshalFieldBody, sizeFieldBody, hm, hmap, hp, hr, beq_self_eq_true, if_true, protoWireType]
            exact h
          · exact runs_repeatedScalar false f hn v hp hr (hasMessage_false hm hgrp)
              (fun x hx => elemOK_scalar hm hgrp (hall x hx))
        split
        · exact body
        · rename_i hlen
          have : v.elems = [] := by simpa using hlen
          rw [this]
          exact Runs.skip
      · have hnum := (hd.packed hp).2.2
        have hm : f.kind ≠ .message := by intro e; rw [e] at hnum; simp [numeric] at hnum
        simp only [if_true]
        split
        · rename_i hlen
          rw [if_neg (by intro e; rw [e] at hlen; simp at hlen)]
          exact runs_packedBody false f hn v hp hnum (fun x hx => elemOK_scalar hm hgrp (hall x hx))
        · rename_i hlen
          have : v.elems = [] := by simpa using hlen
          rw [if_pos this]
          exact Runs.skip
    · have hr' : (f.card == .repeated) = false := by simpa using hr
      have hp : f.packed = false := by
        cases hp : f.packed
        · rfl
        · exact absurd (hd.packed hp).1 hr
      have body : (v = .nil → f.presence = false) → Runs (marshalFieldBody E rM false f v)
          (if !f.presence && isZeroVal f.kind v then some [] else record E rE f.num f.kind f.msg v)
          (sizeFieldBody E rS false f v) := by
        intro hnil
        by_cases hm : f.kind = .message
        · have hpres := hd.singMsg hr (by simp [FieldDesc.hasMessage, hm])
          have hv' : (v.isNil || okv f.msg v) = true := by
            simpa [fieldOK, hmap, hr', hpres, elemOK, hm] using hv
          have h := runs_record_msg hR H f.num hn f.msg v hv'
          simp only [marshalFieldBody, sizeFieldBody, hm, hmap, hp, hr', hpres, protoWireType]
          exact h
        · by_cases hg : f.kind = .group
          · have hpres := hd.singMsg hr (by simp [FieldDesc.hasMessage, hg])
            have hv' : (v.isNil || okv f.msg v) = true := by
              simpa [fieldOK, hmap, hr', hpres, elemOK, hg] using hv
            have h := runs_record_group hR H f.num hn f.msg v hv'
            simp only [marshalFieldBody, sizeFieldBody, hg, hp, hpres, protoWireType]
            refine h.cast rfl ?_
            have : keySize f.num 3 = keySize f.num 4 := by
              rw [keySize_eq f.num 3 hn (by omega), keySize_eq f.num 4 hn (by omega)]
              rw [Spec.varint, Spec.varint, leb_length 10 _ (by omega) (by omega), leb_length 10 _ (by omega) (by omega)]
              have hpos := hd.pos
              rw [if_neg (by omega), if_neg (by omega)]
              congr 2
              have a : ∀ c, c < 8 → (f.num * 8 + c).log2 = f.num.log2 + 3 := by
                intro c hc
                rw [Nat.log2_eq_iff (by omega)]
                have h1 := Nat.log2_self_le (n := f.num) (by omega)
                have h2 := Nat.lt_log2_self (n := f.num)
                rw [Nat.pow_succ _ (f.num.log2 + 3), Nat.pow_add]
                rw [Nat.pow_succ] at h2
                constructor <;> omega
              rw [a 3 (by omega), a 4 (by omega)]
            simp; omega
          · have hs : scalarOK f.kind v = true := by
              cases hpres : f.presence
              · simpa [fieldOK, hmap, hr', hpres] using hv
              · have hne : v ≠ .nil := fun e => by have := hnil e; rw [hpres] at this; cases this
                have : v.isNil = false := by
                  cases hvv : v.isNil
                  · rfl
                  · exact absurd (isNil_iff.1 hvv) hne
                have h2 : elemOK okv f.kind f.msg v = true := by
                  simpa [fieldOK, hmap, hr', hpres, this] using hv
                exact elemOK_scalar hm hg h2
            have h := runs_singleScalar (E := E) (rM := rM) (rE := rE) (rS := rS) false f hn v hp hr (hasMessage_false hm hg) hs
            simpa using h
      rw [if_neg hr]
      simp only [marshalField, sizeField, hr', Bool.not_false, Bool.true_and]
      by_cases hnull : (f.presence || f.hasMessage) = true
      · have hpres : f.presence = true := by
          rcases Bool.or_eq_true _ _ ▸ hnull with h | h
          · exact h
          · exact hd.singMsg hr h
        rw [if_pos hnull]
        rw [if_pos (show (f.hasMessage || f.presence) = true by simp [hpres]),
          if_pos (show (f.hasMessage || f.presence) = true by simp [hpres])]
        by_cases hnil : v = .nil
        · subst hnil
          by_cases hreq : f.card = .required
          · simp [hreq, Val.isNil]
            exact Runs.fail _ _
          · simp [hreq, Val.isNil]
            exact Runs.skip
        · have hvn : v.isNil = false := by
            cases hvv : v.isNil
            · rfl
            · exact absurd (isNil_iff.1 hvv) hnil
          have b := body (fun e => absurd e hnil)
          simp only [hpres, Bool.not_true, Bool.false_and, Bool.false_eq_true, if_false] at b
          simp [hvn, hnil]
          exact b
      · have hpres : f.presence = false := by cases hh : f.presence <;> simp_all
        have hmsg : f.hasMessage = false := by cases hh : f.hasMessage <;> simp_all
        rw [if_neg hnull]
        simp only [hpres, hmsg, Bool.or_self, Bool.false_eq_true, if_false]
        have b := body (fun _ => hpres)
        simpa [hpres] using b

/-- A member of a oneof. -/
theorem runs_member (hR : RuntimeEnc E.R) (H : SubRuns E okv rM rE rS) (hrN : ∀ t, rE t .nil = some []) {d : MsgDesc} {f : FieldDesc}
    (hd : FieldFacts d f) (ho : f.oneof = true) (x : Val) (hx : elemOK okv f.kind f.msg x = true) :
    Runs (marshalField E rM true f x) (record E rE f.num f.kind f.msg x) (sizeField E rS true f x) := by
  obtain ⟨hc, _, _, hg⟩ := hd.oneof ho
  have hn := hd.small
  have hr : f.card ≠ .repeated := by rw [hc]; simp
  have hr' : (f.card == .repeated) = false := by simpa using hr
  have hq' : (f.card == .required) = false := by rw [hc]; rfl
  have hp : f.packed = false := by
    cases hp : f.packed
    · rfl
    · exact absurd (hd.packed hp).1 hr
  have hmap : f.map = none := by
    cases hm : f.map with
    | none => rfl
    | some md => exact absurd (hd.map md hm).1 hr
  by_cases hm : f.kind = .message
  · have hx' : (x.isNil || okv f.msg x) = true := by simpa [elemOK, hm] using hx
    by_cases hnil : x = .nil
    · subst hnil
      have h := (Runs.varint 0).seq (Runs.key f.num 2 hn (by omega))
      have e1 : sub E rE f.msg .nil = some [] := by
        unfold sub
        split
        · exact hR.nil _
        · exact hrN _
      simp only [marshalField, sizeField, hr', hq', hp, hmap, hm, FieldDesc.hasMessage, Val.isNil, protoWireType, record, e1]
      refine h.cast ?_ ?_
      · rfl
      · simp [sizeOfVarint_eq]; rw [Nat.add_comm]; rfl
    · have hvn : x.isNil = false := by
        cases hvv : x.isNil
        · rfl
        · exact absurd (isNil_iff.1 hvv) hnil
      have h := runs_record_msg hR H f.num hn f.msg x hx'
      simp only [marshalField, sizeField, marshalFieldBody, sizeFieldBody, hr', hq', hp, hmap, hm, FieldDesc.hasMessage, hvn,
        protoWireType]
      exact h
  · have hs := elemOK_scalar hm hg hx
    have h := runs_singleScalar (E := E) (rM := rM) (rE := rE) (rS := rS) true f hn x hp hr (hasMessage_false hm hg) hs
    simp only [marshalField, sizeField, hr', hasMessage_false hm hg]
    simpa using h

/-- The oneof dispatch. -/
theorem runs_oneof (hR : RuntimeEnc E.R) (H : SubRuns E okv rM rE rS) (hrN : ∀ t, rE t .nil = some []) {d : MsgDesc} (hd : MsgFacts d)
    (slot : Nat) (v : Val) (hv : oneofOK .plain okv d slot v = true) :
    Runs (marshalOneof E rM d slot v) (oneof E rE d slot v) (sizeOneof E rS d slot v) := by
  cases v <;> simp [oneofOK] at hv <;> simp only [marshalOneof, oneof, sizeOneof]
  case nil => exact Runs.skip
  case wrap n x =>
    cases hmem : d.member slot n with
    | none => exact Runs.skip
    | some f =>
      obtain ⟨h1, h2, _, _⟩ := member_some hmem
      rw [hmem] at hv
      replace hv : elemOK okv f.kind f.msg x = true := by simpa using hv
      exact Runs.call (RunsSized.runSized (runs_member hR H hrN (hd.fields f h1) h2 x hv))

end

end Vtp
