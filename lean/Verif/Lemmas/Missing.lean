import Verif.Lemmas.MarshalMsg
import Verif.Lemmas.Depth
import Verif.Spec.Content
/-! A message has no encoding exactly when a required field is missing. -/

namespace Vtp
open Spec

theorem concat_none (l : List (Option Bytes)) : concat l = none ↔ none ∈ l := by
  induction l with
  | nil => simp [concat]
  | cons a as ih =>
    cases a with
    | none => simp [concat]
    | some b =>
      rw [concat]
      cases h : concat as with
      | none => rw [h] at ih; simpa using ih
      | some c => rw [h] at ih; simpa using ih

section
variable {E : Env} {okv : Nat → Val → Bool} {rE : Nat → Val → Option Bytes} {rm : Nat → Val → Bool}

/-- What is assumed of the recursive calls. -/
structure SubMissing (E : Env) (okv : Nat → Val → Bool) (rE : Nat → Val → Option Bytes) (rm : Nat → Val → Bool) : Prop where
  runtime : ∀ t v, (E.R.marshal t v).isSome = true
  shape : ∀ t v, okv t v = true → ∃ s u e, v = .msg s u e
  iff : ∀ t v, (v.isNil || okv t v) = true → (E.S.msg t).foreign = false → (rE t v = none ↔ rm t v = true)

theorem record_none (H : SubMissing E okv rE rm) (num : Nat) (k : Kind) (t : Nat) (v : Val) (hv : elemOK okv k t v = true) :
    record E rE num k t v = none ↔ elemMissing E.S rm k t v = true := by
  have hsub : (v.isNil || okv t v) = true → (sub E rE t v = none ↔ (!(E.S.msg t).foreign && rm t v) = true) := by
    intro hv
    unfold sub
    cases hf : (E.S.msg t).foreign
    · simpa using H.iff t v hv hf
    · have := H.runtime t v
      simp only [if_true, Bool.not_true, Bool.false_and, Bool.false_eq_true, iff_false]
      intro e; rw [e] at this; simp at this
  unfold record elemMissing
  cases k <;> simp [elemOK] at hv ⊢
  · have := hsub (by simpa using hv)
    cases hs : sub E rE t v <;> rw [hs] at this <;> simpa using this
  · have := hsub (by simpa using hv)
    cases hs : sub E rE t v <;> rw [hs] at this <;> simpa using this

theorem entry_none (H : SubMissing E okv rE rm) (num : Nat) (md : MapDesc) (hk : mapKeyKind md.key = true) (e : Key × Val)
    (hv : elemOK okv md.val md.valMsg e.2 = true) :
    entry E rE num md e = none ↔ elemMissing E.S rm md.val md.valMsg e.2 = true := by
  have h := record_none H 2 md.val md.valMsg e.2 hv
  unfold entry
  have h1 : ∃ b, record E rE 1 md.key 0 e.1.toVal = some b := by
    unfold record
    cases hkk : md.key <;> simp [hkk, mapKeyKind] at hk ⊢
  obtain ⟨b, hb⟩ := h1
  rw [hb]
  cases hs : record E rE 2 md.val md.valMsg e.2 <;> rw [hs] at h <;> simpa using h

theorem scalar_notMissing {k : Kind} {v : Val} (t : Nat) (h : scalarOK k v = true) : elemMissing E.S rm k t v = false := by
  unfold elemMissing
  cases k <;> simp [scalarOK] at h ⊢

theorem field_none (H : SubMissing E okv rE rm) {d : MsgDesc} {f : FieldDesc} (hd : FieldFacts d f) (ho : f.oneof = false) (v : Val)
    (hv : fieldOK okv f v = true) : field E rE f v = none ↔ fieldMissing E.S rm f v = true := by
  unfold field
  cases hm : f.map with
  | some md =>
    obtain ⟨hc, hk, hkey, _⟩ := hd.map md hm
    simp only
    rw [concat_none]
    simp only [fieldOK, hm] at hv
    cases v <;> simp only [Bool.false_eq_true] at hv
    · simp [Val.entries, fieldMissing, hc]
    · rename_i es
      simp only [Bool.and_eq_true, List.all_eq_true] at hv
      simp only [Val.entries, fieldMissing, hm, List.any_eq_true, List.mem_map, List.mem_reverse]
      constructor
      · rintro ⟨e, he, h⟩; exact ⟨e, he, (entry_none H _ md hkey e (hv.2 e he).2).1 h⟩
      · rintro ⟨e, he, h⟩; exact ⟨e, he, (entry_none H _ md hkey e (hv.2 e he).2).2 h⟩
  | none =>
    simp only
    by_cases hc : f.card = .repeated
    · simp only [fieldOK, hm, hc, beq_self_eq_true, if_true] at hv
      rw [if_pos hc]
      cases v <;> simp only [Bool.false_eq_true] at hv
      · simp [Val.elems, fieldMissing, hc, concat]
      · rename_i xs sp
        simp only [Bool.and_eq_true, List.all_eq_true] at hv
        simp only [Val.elems, fieldMissing, List.any_eq_true]
        cases hp : f.packed
        · simp only [Bool.false_eq_true, if_false]
          rw [concat_none, List.mem_map]
          constructor
          · rintro ⟨e, he, h⟩; exact ⟨e, he, (record_none H _ _ _ e (hv.1 e he)).1 h⟩
          · rintro ⟨e, he, h⟩; exact ⟨e, he, (record_none H _ _ _ e (hv.1 e he)).2 h⟩
        · obtain ⟨_, _, hn⟩ := hd.packed hp
          have : ∀ x ∈ xs, elemMissing E.S rm f.kind f.msg x = false := by
            intro x hx
            unfold elemMissing
            cases hk : f.kind <;> simp [hk, numeric] at hn ⊢
          constructor
          · intro h
            simp only [if_true] at h
            by_cases hx : xs = [] <;> simp [hx] at h
          · rintro ⟨e, he, h⟩
            rw [this e he] at h; simp at h
    · have hc' : (f.card == .repeated) = false := by simpa using hc
      simp only [fieldOK, hm, hc', Bool.false_eq_true, if_false] at hv
      rw [if_neg hc]
      have hmsg : ∀ x, elemOK okv f.kind f.msg x = true → x.isNil = false → fieldMissing E.S rm f x = elemMissing E.S rm f.kind f.msg x := by
        intro x hx hn
        unfold elemOK at hx
        cases hk : f.kind <;> simp only [hk] at hx
        case message =>
          rw [hn, Bool.false_or] at hx
          obtain ⟨s, u, e, rfl⟩ := H.shape _ _ hx
          simp [fieldMissing, hk]
        case group =>
          rw [hn, Bool.false_or] at hx
          obtain ⟨s, u, e, rfl⟩ := H.shape _ _ hx
          simp [fieldMissing, hk]
        all_goals
          unfold scalarOK at hx
          cases x <;> simp [Val.isNil] at hx hn <;> simp [fieldMissing, hk]
      cases hpr : f.presence
      · rw [hpr] at hv
        simp only [Bool.false_eq_true, if_false] at hv
        have hh : f.hasMessage = false := by
          cases h : f.hasMessage
          · rfl
          · rw [hd.singMsg hc h] at hpr; simp at hpr
        have hreq : f.card ≠ .required := fun h => by rw [(hd.req h).1] at hpr; simp at hpr
        rw [hh]
        simp only [Bool.or_self, Bool.false_eq_true, if_false]
        have hel : elemOK okv f.kind f.msg v = true := by
          unfold elemOK
          cases hk : f.kind <;> simp [FieldDesc.hasMessage, hk] at hh ⊢ <;> rw [hk] at hv <;> exact hv
        have hr := record_none H f.num f.kind f.msg v hel
        have hz : elemMissing E.S rm f.kind f.msg v = false := scalar_notMissing _ hv
        rw [hz] at hr
        have hfm : fieldMissing E.S rm f v = false := by
          cases hn : v.isNil
          · rw [hmsg v hel hn]; exact hz
          · cases v <;> simp [Val.isNil] at hn
            simpa [fieldMissing] using hreq
        rw [hfm]
        simp only [Bool.false_eq_true, iff_false] at hr ⊢
        split
        · simp
        · exact hr
      · rw [hpr] at hv
        simp only [if_true, Bool.or_eq_true] at hv
        simp only [Bool.true_or, if_true]
        by_cases hn : v = .nil
        · subst hn
          by_cases hr : f.card = .required <;> simp [hr, fieldMissing]
        · have hn' : v.isNil = false := by cases v <;> simp_all [Val.isNil]
          rw [hn'] at hv
          simp only [Bool.false_eq_true, false_or] at hv
          rw [if_neg hn, hmsg v hv hn']
          exact record_none H _ _ _ v hv

/-- Both orders emit the same fields. -/
theorem body_none (strict : Bool) (H : SubMissing E okv rE rm) {d : MsgDesc} (hd : MsgFacts d) (slots : List Val)
    (hv : ∀ f ∈ d.fields, (if f.oneof then oneofOK .plain okv d f.slot (slotOf slots f) else fieldOK okv f (slotOf slots f)) = true) :
    (if strict then bodyStrict E rE d slots else bodyDefault E rE d slots) = none ↔
      (d.fields.any fun f => if f.oneof then
          match slotOf slots f with
          | .wrap n' x => n' == f.num && elemMissing E.S rm f.kind f.msg x
          | _ => false
        else fieldMissing E.S rm f (slotOf slots f)) = true := by
  have hp := ascending_perm d.fields
  -- per field
  have hf : ∀ f ∈ d.fields, (if f.oneof then
      match slotOf slots f with
      | .wrap n x => if n = f.num then record E rE f.num f.kind f.msg x else some []
      | _ => some []
      else field E rE f (slotOf slots f)) = none ↔
      (if f.oneof then
          match slotOf slots f with
          | .wrap n' x => n' == f.num && elemMissing E.S rm f.kind f.msg x
          | _ => false
        else fieldMissing E.S rm f (slotOf slots f)) = true := by
    intro f hfm
    have := hv f hfm
    cases ho : f.oneof
    · rw [ho] at this
      simp only [Bool.false_eq_true, if_false] at this ⊢
      exact field_none H (hd.fields f hfm) ho _ this
    · rw [ho] at this
      simp only [if_true] at this ⊢
      cases hs : slotOf slots f <;> simp only [Bool.false_eq_true, iff_false, reduceCtorEq, not_false_eq_true]
      rename_i n x
      by_cases hn : n = f.num
      · subst hn
        rw [hs] at this
        simp only [oneofOK, member_of hd hfm ho] at this
        simp only [if_true, beq_self_eq_true, Bool.true_and]
        exact record_none H _ _ _ x (by simpa using this)
      · simp [hn]
  cases strict
  · simp only [Bool.false_eq_true, if_false]
    rw [bodyDefault, concat_none, List.mem_append, List.mem_map, List.mem_map, List.any_eq_true]
    constructor
    · rintro (⟨f, hm, h⟩ | ⟨f, hm, h⟩)
      · obtain ⟨hm, ho⟩ := List.mem_filter.1 hm
        have hm' := hp.mem_iff.1 hm
        simp at ho
        refine ⟨f, hm', (hf f hm').1 ?_⟩
        rw [ho]; exact h
      · obtain ⟨hm, ho⟩ := List.mem_filter.1 hm
        unfold Spec.oneof at h
        cases hs : slotOf slots f <;> rw [hs] at h <;> simp only [reduceCtorEq] at h
        rename_i n x
        cases hmem : d.member f.slot n with
        | none => rw [hmem] at h; simp at h
        | some g =>
          rw [hmem] at h
          obtain ⟨hg, hgo, hgs, hgn⟩ := member_some hmem
          refine ⟨g, hg, (hf g hg).1 ?_⟩
          rw [hgo]
          have : slotOf slots g = .wrap n x := by unfold slotOf at hs ⊢; rw [hgs, hs]
          rw [this]
          simp only [if_true, hgn]
          rw [← hgn]; exact h
    · rintro ⟨f, hfm, h⟩
      have h' := (hf f hfm).2 h
      cases ho : f.oneof
      · rw [ho] at h'
        exact Or.inl ⟨f, List.mem_filter.2 ⟨hp.mem_iff.2 hfm, by simp [ho]⟩, h'⟩
      · right
        have : f.slot ∈ (firsts [] (ascending d.fields).reverse).map (·.slot) :=
          firsts_cover _ _ (List.mem_reverse.2 (hp.mem_iff.2 hfm)) ho (by simp)
        obtain ⟨g, hg, hgs⟩ := List.mem_map.1 this
        refine ⟨g, ?_, ?_⟩
        · rw [← firsts_oneofLast hd.nodup]; exact List.mem_reverse.2 hg
        · rw [ho] at h'
          simp only [if_true] at h'
          have e : slotOf slots g = slotOf slots f := by unfold slotOf; rw [hgs]
          rw [e]
          cases hs : slotOf slots f <;> rw [hs] at h' <;> simp only [reduceCtorEq] at h'
          rename_i n x
          by_cases hn : n = f.num
          · subst hn
            simp only [if_true] at h'
            simp only [Spec.oneof, hgs, member_of hd hfm ho]
            exact h'
          · simp [hn] at h'
  · simp only [if_true]
    rw [bodyStrict, concat_none, List.mem_map, List.any_eq_true]
    constructor
    · rintro ⟨f, hm, h⟩; exact ⟨f, hp.mem_iff.1 hm, (hf f (hp.mem_iff.1 hm)).1 h⟩
    · rintro ⟨f, hm, h⟩; exact ⟨f, hp.mem_iff.2 hm, (hf f hm).2 h⟩

end

theorem wtN_shape {S : Schema} {tn : Members} {n t : Nat} {v : Val} (h : wtN S tn n t v = true) : ∃ s u e, v = .msg s u e := by
  cases n with
  | zero => simp [wtN] at h
  | succ n => cases v <;> simp [wtN] at h; exact ⟨_, _, _, rfl⟩

theorem encodeN_none (E : Env) (strict : Bool) (hS : schemaOK E.S = true) (hR : ∀ t v, (E.R.marshal t v).isSome = true) :
    ∀ (n t : Nat) (v : Val), (v.isNil || wtN E.S .plain n t v) = true → (E.S.msg t).foreign = false →
    (encodeN E strict n t v = none ↔ missingN E.S n t v = true) := by
  intro n
  induction n with
  | zero => intro t v _ _; simp [encodeN, missingN]
  | succ n ih =>
    intro t v hv hf
    cases v with
    | msg slots unk ext =>
      have hd := schemaOK_msg hS t
      simp only [Val.isNil, Bool.false_or, wtN, hf, Bool.and_eq_true, List.all_eq_true] at hv
      have := body_none strict ⟨hR, fun t v h => wtN_shape h, ih⟩ hd slots hv.2
      rw [encodeN, missingN]
      refine Iff.trans ?_ this
      cases strict
      · cases bodyDefault E (encodeN E false n) (E.S.msg t) slots <;> simp
      · cases bodyStrict E (encodeN E true n) (E.S.msg t) slots <;> simp
    | nil => simp [encodeN, missingN]
    | _ => simp [Val.isNil, wtN] at hv

end Vtp
