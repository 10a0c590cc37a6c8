import Verif.Model.Pool
import Verif.Lemmas.Alike
/-! What `ResetVT` leaves behind. -/

namespace Vtp
open Spec

section restore

theorem restore_length : ∀ (saved : List (Nat × Val)) (slots : List Val), (restore slots saved).length = slots.length
  | [], _ => rfl
  | (i, v) :: saved, slots => by rw [restore, restore_length saved]; simp

/-- A struct field that was not saved is left as it is. -/
theorem restore_other {i : Nat} : ∀ (saved : List (Nat × Val)) (slots : List Val), (∀ p ∈ saved, p.1 ≠ i) → (restore slots saved)[i]? = slots[i]?
  | [], _, _ => rfl
  | (j, v) :: saved, slots, h => by
    rw [restore, restore_other saved _ fun p hp => h p (.tail _ hp), List.getElem?_set_ne (h (j, v) (.head _))]

/-- A struct field that was saved once is restored. -/
theorem restore_saved {i : Nat} {v : Val} : ∀ (saved : List (Nat × Val)) (slots : List Val), i < slots.length → (i, v) ∈ saved →
    (∀ w, (i, w) ∈ saved → w = v) → (restore slots saved)[i]? = some v
  | [], _, _, h, _ => by simp at h
  | (j, w) :: saved, slots, hi, h, hu => by
    rw [restore]
    by_cases hm : (i, v) ∈ saved
    · exact restore_saved saved _ (by simpa using hi) hm fun w hw => hu w (.tail _ hw)
    · have : i = j ∧ v = w := by simpa [hm] using h
      obtain ⟨rfl, rfl⟩ := this
      rw [restore_other saved]
      · simp [hi]
      · intro p hp h1
        obtain ⟨k, x⟩ := p
        simp only at h1
        subst h1
        rw [hu x (.tail _ hp)] at hp
        exact hm hp

end restore

variable {S : Schema}

/-- What is put into pools: empty messages of pooled types. -/
def PutsOK (S : Schema) (ps : Puts) : Prop := ∀ p ∈ ps, (S.msg p.1).pooled = true ∧ Blank S p.1 p.2

theorem PutsOK.nil : PutsOK S [] := by intro p h; simp at h

theorem PutsOK.append {ps qs : Puts} (h : PutsOK S ps) (h' : PutsOK S qs) : PutsOK S (ps ++ qs) := by
  intro p hp
  rcases List.mem_append.1 hp with hp | hp
  · exact h p hp
  · exact h' p hp

theorem blank_zero (hS : schemaOK S = true) (t : Nat) : Blank S t (zeroMsg S t) := zeroMsg_reuse hS t

theorem blank_ne_nil {t : Nat} {v : Val} (h : Blank S t v) : v ≠ .nil := by
  rintro rfl
  have := reuse_nil h
  simp [Val.isNil, zeroMsg] at this

/-- What a recursive call does to a message whose spare elements are empty. -/
def SubBlank (S : Schema) (rec : SubReset) : Prop := ∀ t v v' ps w, (S.msg t).pooled = true → Reuse S t v w → rec t v = .ok (v', ps) →
  Blank S t v' ∧ PutsOK S ps

section
variable {rec : SubReset} (H : SubBlank S rec)
include H

theorem returnWith_blank {t : Nat} {v w : Val} {ps : Puts} (hp : (S.msg t).pooled = true) (hv : v = .nil ∨ Reuse S t v w)
    (h : returnWith rec t v = .ok ps) : PutsOK S ps := by
  unfold returnWith at h
  split at h
  · cases h; exact .nil
  · rename_i hn
    obtain ⟨⟨v', qs⟩, h1, h2⟩ := Res.bind_eq_ok.1 h
    cases h2
    rcases hv with rfl | hv
    · simp [Val.isNil] at hn
    · obtain ⟨h3, h4⟩ := H t v v' qs w hp hv h1
      refine h4.append fun p hm => ?_
      simp only [List.mem_singleton] at hm
      subst hm
      exact ⟨hp, h3⟩

theorem resetElems_blank (hS : schemaOK S = true) {t : Nat} : ∀ (xs : List Val) (xs' : List Val) (ps : Puts),
    (∀ x ∈ xs, x = .nil ∨ ∃ w, Reuse S t x w) → resetElems S rec t xs = .ok (xs', ps) →
    (∀ x ∈ xs', x = .nil ∨ x ≠ .nil ∧ Blank S t x) ∧ PutsOK S ps
  | [], xs', ps, _, h => by cases h; exact ⟨by simp, .nil⟩
  | x :: xs, ys, ps, hx, h => by
    rw [resetElems] at h
    obtain ⟨⟨x', qs⟩, h1, h⟩ := Res.bind_eq_ok.1 h
    obtain ⟨⟨xs', rs⟩, h2, h⟩ := Res.bind_eq_ok.1 h
    cases h
    obtain ⟨h3, h4⟩ := resetElems_blank hS xs xs' rs (fun y hy => hx y (.tail _ hy)) h2
    have : (x' = .nil ∨ x' ≠ .nil ∧ Blank S t x') ∧ PutsOK S qs := by
      unfold resetElem at h1
      split at h1
      · rename_i hp
        split at h1
        · cases h1; exact ⟨.inl rfl, .nil⟩
        · rename_i hn
          rcases hx x (.head _) with rfl | ⟨w, hw⟩
          · simp [Val.isNil] at hn
          · obtain ⟨h5, h6⟩ := H t x x' qs w hp hw h1
            exact ⟨.inr ⟨blank_ne_nil h5, h5⟩, h6⟩
      · split at h1
        · cases h1
        · cases h1
          exact ⟨.inr ⟨blank_ne_nil (blank_zero hS t), blank_zero hS t⟩, .nil⟩
    refine ⟨fun y hy => ?_, this.2.append h4⟩
    rcases List.mem_cons.1 hy with rfl | hy
    · exact this.1
    · exact h3 y hy

theorem resetField_puts (hS : schemaOK S = true) {d : MsgDesc} {f : FieldDesc} {v w : Val} {o : Option Val} {ps : Puts} (hd : d.pooled = true)
    (hM : MsgFacts d) (hf : f ∈ d.fields)
    (hv : if f.oneof then ReuseOneof (Reuse S) d f.slot v w else ReuseField S (Reuse S) d f v w) (h : resetField S rec f v = .ok (o, ps)) : PutsOK S ps := by
  have ff := hM.fields f hf
  unfold resetField at h
  split at h
  · rename_i hl
    simp only [FieldDesc.isList, Bool.and_eq_true, beq_iff_eq, Option.isNone_iff_eq_none] at hl
    have ho : f.oneof = false := by
      cases ho : f.oneof with
      | false => rfl
      | true => have := (ff.oneof ho).1; rw [hl.1] at this; cases this
    rw [ho] at hv
    simp only [Bool.false_eq_true, if_false, ReuseField, hl.1, hl.2, if_true] at hv
    cases v with
    | nil => cases h; exact .nil
    | list xs sp =>
      simp only at h
      split at h
      · rename_i hm
        obtain ⟨⟨xs', qs⟩, h1, h⟩ := Res.bind_eq_ok.1 h
        cases h
        refine (resetElems_blank H hS _ _ _ (fun x hx => ?_) h1).2
        have h3 := hv.2.2.1
        simp only [Val.elems] at h3
        obtain ⟨y, _, hy⟩ := forall₂_mem_left h3 hx
        have hk : f.kind = .message ∨ f.kind = .group := by simpa [FieldDesc.hasMessage] using hm
        rw [ReuseElem, if_pos hk] at hy
        rcases hy with hy | hy
        · exact .inl hy.1
        · exact .inr ⟨y, hy.2.2⟩
      · cases h; exact .nil
    | _ => simp [isSlice] at hv
  · split at h
    · rename_i ho
      split at h
      · rename_i hp
        simp only [Bool.and_eq_true] at hp
        simp only [ho, if_true, ReuseOneof] at hv
        split at h
        · rename_i n x
          split at h
          · rename_i hn
            obtain ⟨qs, h1, h⟩ := Res.bind_eq_ok.1 h
            cases h
            subst hn
            cases w with
            | wrap n' y =>
              obtain ⟨_, g, hg, he⟩ := hv
              rw [member_of hM hf ho] at hg
              cases hg
              have hk : f.kind = .message ∨ f.kind = .group := by simpa [FieldDesc.hasMessage] using hp.1
              rw [ReuseElem, if_pos hk] at he
              exact returnWith_blank H (w := y) hp.2 (he.imp (·.1) (·.2.2)) h1
            | _ => cases hv
          · cases h; exact .nil
        · split at h <;> cases h; exact .nil
        · cases h; exact .nil
      · cases h; exact .nil
    · rename_i ho
      simp only [ho] at hv
      split at h
      · split at h
        · rename_i hm hp
          simp only [Bool.and_eq_true, Option.isNone_iff_eq_none] at hp
          obtain ⟨qs, h1, h⟩ := Res.bind_eq_ok.1 h
          cases h
          have hk : f.kind = .message ∨ f.kind = .group := by simpa [FieldDesc.hasMessage] using hm
          have hc : f.card ≠ .repeated := by
            intro hc
            rename_i hl
            exact hl (by simp [FieldDesc.isList, hc, hp.1])
          have hb : f.kind ≠ .bytes := by rcases hk with h | h <;> simp [h]
          simp only [ReuseField, hp.1, hc, hb, Bool.false_eq_true, if_false] at hv
          rw [ReuseElem, if_pos hk] at hv
          exact returnWith_blank H (w := w) hp.2 (hv.imp (·.1) (·.2.2)) h1
        · cases h; exact .nil
      · split at h
        · cases h; exact .nil
        · cases h; exact .nil

/-- What is kept in the struct field of a field. -/
theorem resetField_saved (hS : schemaOK S = true) {d : MsgDesc} {f : FieldDesc} {v w : Val} {o : Option Val} {ps : Puts} (hd : d.pooled = true)
    (hM : MsgFacts d) (hf : f ∈ d.fields)
    (hv : if f.oneof then ReuseOneof (Reuse S) d f.slot v w else ReuseField S (Reuse S) d f v w) (h : resetField S rec f v = .ok (o, ps)) :
    if f.oneof then o = none else ReuseField S (Reuse S) d f (o.getD (zeroField f)) (zeroField f) := by
  have ff := hM.fields f hf
  unfold resetField at h
  split at h
  · rename_i hl
    simp only [FieldDesc.isList, Bool.and_eq_true, beq_iff_eq, Option.isNone_iff_eq_none] at hl
    have ho : f.oneof = false := by
      cases ho : f.oneof with
      | false => rfl
      | true => have := (ff.oneof ho).1; rw [hl.1] at this; cases this
    rw [ho] at hv ⊢
    simp only [Bool.false_eq_true, if_false, ReuseField, hl.1, hl.2, if_true] at hv ⊢
    have hz : zeroField f = .nil := by simp [zeroField, hl.1]
    rw [hz]
    cases v with
    | nil => cases h; simp [isSlice, Val.elems, spareOf]
    | list xs sp =>
      simp only at h
      split at h
      · rename_i hm
        obtain ⟨⟨xs', qs⟩, h1, h⟩ := Res.bind_eq_ok.1 h
        cases h
        have h2 := (resetElems_blank H hS _ _ _ (fun x hx => by
          have h3 := hv.2.2.1
          simp only [Val.elems] at h3
          obtain ⟨y, _, hy⟩ := forall₂_mem_left h3 hx
          have hk : f.kind = .message ∨ f.kind = .group := by simpa [FieldDesc.hasMessage] using hm
          rw [ReuseElem, if_pos hk] at hy
          rcases hy with hy | hy
          · exact .inl hy.1
          · exact .inr ⟨y, hy.2.2⟩) h1).1
        simp only [Option.getD_some, isSlice, Val.elems, spareOf, true_and]
        refine ⟨.nil, fun _ => .inr hd, by simp, fun _ _ y hy => ?_, fun h => by rw [hm] at h; cases h⟩
        rcases List.mem_append.1 hy with hy | hy
        · exact h2 y hy
        · exact hv.2.2.2.2.2.1 hd hm y hy
      · cases h
        simp [isSlice, Val.elems, spareOf, hd]
    | _ => simp [isSlice] at hv
  · rename_i hl
    have hzero := zeroField_reuse (d := d) S ff
    split at h
    · rename_i ho
      simp only [ho, if_true]
      repeat' split at h
      all_goals first
        | (cases h; rfl)
        | cases h
        | (obtain ⟨qs, h1, h⟩ := Res.bind_eq_ok.1 h; cases h; rfl)
    · rename_i ho
      simp only [ho] at hzero ⊢
      split at h
      · split at h
        · obtain ⟨qs, h1, h⟩ := Res.bind_eq_ok.1 h
          cases h
          exact hzero
        · cases h; exact hzero
      · split at h
        · rename_i hb
          cases h
          have hm : f.map = none := by
            cases hm : f.map with
            | none => rfl
            | some md => have := (ff.map md hm).2.1; rw [hb] at this; cases this
          have hc : f.card ≠ .repeated := by
            intro hc
            exact hl (by simp [FieldDesc.isList, hc, hm])
          have hz : zeroField f = .nil := by
            simp only [zeroField, hb]
            split <;> rfl
          simp only [Bool.false_eq_true, if_false, ReuseField, hm, hc, hb, if_true, Option.getD_some, hz]
          split
          · exact .inl rfl
          · exact .inr (by simp [hd])
        · cases h; exact hzero

omit H in
/-- The loop over the fields. -/
theorem resetFields_spec {slots : List Val} : ∀ (fs : List FieldDesc) (saved : List (Nat × Val)) (ps : Puts),
    resetFields S rec slots fs = .ok (saved, ps) →
    (∀ f ∈ fs, ∃ o qs, resetField S rec f (slotOf slots f) = .ok (o, qs) ∧ ∀ v, o = some v → (f.slot, v) ∈ saved) ∧
    (∀ p ∈ saved, ∃ f ∈ fs, f.slot = p.1 ∧ ∃ qs, resetField S rec f (slotOf slots f) = .ok (some p.2, qs)) ∧
    (∀ p ∈ ps, ∃ f ∈ fs, ∃ o qs, resetField S rec f (slotOf slots f) = .ok (o, qs) ∧ p ∈ qs)
  | [], _, _, h => by cases h; simp
  | f :: fs, saved, ps, h => by
    rw [resetFields] at h
    obtain ⟨⟨o, qs⟩, h1, h⟩ := Res.bind_eq_ok.1 h
    obtain ⟨⟨saved', ps'⟩, h2, h⟩ := Res.bind_eq_ok.1 h
    obtain ⟨i1, i2, i3⟩ := resetFields_spec fs saved' ps' h2
    simp only [Res.ok.injEq, Prod.mk.injEq] at h
    obtain ⟨hs, hp⟩ := h
    have sub : ∀ p ∈ saved', p ∈ saved := by
      intro p hp
      rw [← hs]
      cases o <;> simp [hp]
    refine ⟨?_, ?_, ?_⟩
    · intro g hg
      rcases List.mem_cons.1 hg with rfl | hg
      · refine ⟨o, qs, h1, ?_⟩
        rintro v rfl
        rw [← hs]
        exact .head _
      · obtain ⟨o', qs', h3, h4⟩ := i1 g hg
        exact ⟨o', qs', h3, fun v hv => sub _ (h4 v hv)⟩
    · intro p hm
      have : (∃ v, o = some v ∧ p = (f.slot, v)) ∨ p ∈ saved' := by
        rw [← hs] at hm
        cases o with
        | none => exact .inr hm
        | some v =>
          rcases List.mem_cons.1 hm with rfl | hm
          · exact .inl ⟨v, rfl, rfl⟩
          · exact .inr hm
      rcases this with ⟨v, rfl, rfl⟩ | hm
      · exact ⟨f, .head _, rfl, qs, h1⟩
      · obtain ⟨g, hg, h3⟩ := i2 p hm
        exact ⟨g, .tail _ hg, h3⟩
    · intro p hm
      rw [← hp] at hm
      rcases List.mem_append.1 hm with hm | hm
      · exact ⟨f, .head _, o, qs, h1, hm⟩
      · obtain ⟨g, hg, h3⟩ := i3 p hm
        exact ⟨g, .tail _ hg, h3⟩

end

/-- `ResetVT` empties the message, and everything it puts into pools is empty. -/
theorem resetN_blank (hS : schemaOK S = true) (hL : poolsLocal S) : ∀ n, SubBlank S (resetN S n)
  | 0 => fun _ _ _ _ _ _ _ h => by cases h
  | n + 1 => by
    intro t v v' ps w hp hv h
    have H := resetN_blank hS hL n
    have hf := hL t hp
    have hM := schemaOK_msg hS t
    cases v with
    | msg s u e =>
      simp only [resetN] at h
      obtain ⟨⟨saved, qs⟩, h1, h⟩ := Res.bind_eq_ok.1 h
      cases h
      rcases reuse_cases hf hv with ⟨s1, u1, e1, s', u', e', h2, rfl⟩ | ⟨rfl, h2⟩
      · cases h2
        obtain ⟨-, -, hl, -, hF⟩ := (reuse_msg hf).1 hv
        obtain ⟨i1, i2, i3⟩ := resetFields_spec (rec := resetN S n) _ _ _ h1
        refine ⟨?_, ?_⟩
        · unfold Blank zeroMsg
          rw [reuse_msg hf]
          refine ⟨rfl, rfl, by rw [restore_length]; simp, by simp, fun f hm => ?_⟩
          have ff := hM.fields f hm
          obtain ⟨o, rs, h3, h4⟩ := i1 f hm
          have h5 := resetField_saved H hS hp hM hm (hF f hm) h3
          rw [zeroMsg_slot hS hm]
          cases ho : f.oneof with
          | true =>
            simp only [ho, if_true] at h5 ⊢
            have : slotOf (restore ((List.range (S.msg t).nslots).map (zeroSlot (S.msg t))) saved) f = zeroField f := by
              rw [← zeroMsg_slot hS hm, slotOf, slotOf, List.getD_eq_getElem?_getD, List.getD_eq_getElem?_getD, restore_other]
              intro p hps hsl
              obtain ⟨g, hg, h6, rs', h7⟩ := i2 p hps
              by_cases hn : g.num = f.num
              · have := hM.num_inj hg hm hn
                subst this
                rw [h3, h5] at h7
                cases h7
              · have := (hM.share g hg f hm hn (by rw [h6, hsl])).1
                have h8 := resetField_saved H hS hp hM hg (hF g hg) h7
                simp [this] at h8
            rw [this]
            have := zeroField_reuse S ff
            simpa [ho] using this
          | false =>
            simp only [ho, Bool.false_eq_true, if_false] at h5 ⊢
            have : slotOf (restore ((List.range (S.msg t).nslots).map (zeroSlot (S.msg t))) saved) f = o.getD (zeroField f) := by
              have uniq : ∀ x, (f.slot, x) ∈ saved → o = some x := by
                intro x hx
                obtain ⟨g, hg, h6, rs', h7⟩ := i2 _ hx
                by_cases hn : g.num = f.num
                · have := hM.num_inj hg hm hn
                  subst this
                  rw [h3] at h7
                  cases h7
                  rfl
                · have := (hM.share g hg f hm hn h6).2
                  rw [ho] at this
                  cases this
              cases o with
              | none =>
                rw [Option.getD_none, ← zeroMsg_slot hS hm, slotOf, slotOf, List.getD_eq_getElem?_getD, List.getD_eq_getElem?_getD, restore_other]
                intro p hps hsl
                have := uniq p.2 (by rw [← hsl]; exact hps)
                cases this
              | some x =>
                rw [slotOf, List.getD_eq_getElem?_getD, restore_saved (v := x) _ _ (by simpa using ff.slot) (h4 x rfl)]
                · rfl
                · intro y hy
                  have := uniq y hy
                  cases this
                  rfl
            rw [this]
            exact h5
        · intro p hps
          obtain ⟨f, hm, o, rs, h3, h4⟩ := i3 p hps
          exact resetField_puts H hS hp hM hm (hF f hm) h3 p h4
      · exact absurd rfl (h2 s u e)
    | _ => cases h

/-- An empty message is a value of the Go type. -/
theorem blank_typed (hS : schemaOK S = true) : ∀ n t v, v.depth ≤ n → Blank S t v → wtM S .solid t v = true
  | 0, t, v, hd, h => by
    unfold Blank at h
    rw [reuse_iff] at h
    unfold ReuseMsg at h
    cases v with
    | msg s u e => simp [Val.depth] at hd
    | _ => split at h <;> cases h
  | n + 1, t, v, hd, h => by
    cases hf : (S.msg t).foreign with
    | true =>
      unfold Blank at h
      rw [reuse_iff] at h
      unfold ReuseMsg at h
      rw [hf, if_pos rfl] at h
      rw [h]
      exact zeroMsg_typed hS t
    | false =>
      rcases reuse_cases hf h with ⟨s, u, e, s', u', e', rfl, hz⟩ | ⟨h1, h2⟩
      · unfold Blank zeroMsg at h
        rw [reuse_msg hf] at h
        obtain ⟨-, -, h3, -, h4⟩ := h
        rw [wtM_msg, hf]
        simp only [Bool.false_or, Bool.and_eq_true, decide_eq_true_eq, List.all_eq_true]
        refine ⟨h3, fun f hm => ?_⟩
        have h5 := h4 f hm
        have ff := (schemaOK_msg hS t).fields f hm
        have hzt : wtM S .solid t (zeroMsg S t) = true := zeroMsg_typed hS t
        unfold zeroMsg at hzt
        rw [wtM_msg, hf] at hzt
        simp only [Bool.false_or, Bool.and_eq_true, decide_eq_true_eq, List.all_eq_true] at hzt
        have hzf := hzt.2 f hm
        rw [zeroMsg_slot hS hm] at h5 hzf
        have hdep : (slotOf s f).depth ≤ n := by
          have := depth_slotOf s f
          simp only [Val.depth] at hd
          omega
        generalize slotOf s f = v at h5 hdep
        by_cases ho : f.oneof = true
        · rw [if_pos ho] at h5 ⊢
          have : zeroField f = .nil := by simp [zeroField, ho]
          rw [this] at h5
          unfold ReuseOneof at h5
          split at h5
          · rename_i h6; cases h6
          · subst h5; rfl
        · rw [if_neg ho] at h5 hzf ⊢
          by_cases hv : v = zeroField f
          · rw [hv]; exact hzf
          · unfold ReuseField at h5
            cases hmap : f.map with
            | some md =>
              simp only [hmap] at h5
              have : zeroField f = .nil := by simp [zeroField, (ff.map md hmap).1]
              rw [this] at h5 hv
              rcases h5 with ⟨h5, _⟩ | ⟨_, _, _, h5, _⟩
              · exact absurd h5 hv
              · cases h5
            | none =>
              simp only [hmap] at h5
              by_cases hc : f.card = .repeated
              · have hz : zeroField f = .nil := by simp [zeroField, hc]
                rw [hz] at h5 hv
                simp only [hc, if_true] at h5
                obtain ⟨h6, -, h7, h8, -, h9, h10⟩ := h5
                have hp := (h8 trivial).resolve_left hv
                cases v with
                | list xs sp =>
                  simp only [Val.elems] at h7
                  cases h7
                  simp only [fieldOK, hmap, hc, beq_self_eq_true, if_true, List.all_nil, Bool.true_and]
                  cases hh : f.hasMessage with
                  | false =>
                    have := h10 hh
                    simp only [spareOf] at this
                    simp [this]
                  | true =>
                    have hk : f.kind = .message ∨ f.kind = .group := by simpa [FieldDesc.hasMessage] using hh
                    simp only [if_true, List.all_eq_true]
                    intro y hy
                    have hE : y.isNil = true ∨ wtM S .solid f.msg y = true := by
                      rcases h9 hp hh y hy with rfl | h
                      · exact .inl rfl
                      · refine .inr (blank_typed hS n _ _ ?_ h.2)
                        have := depth_mem hy
                        simp only [Val.depth] at hdep
                        omega
                    rcases hk with hk | hk <;> simpa [elemOK, hk] using hE
                | nil => exact absurd rfl hv
                | _ => simp [isSlice] at h6
              · simp only [hc, if_false] at h5
                have hc' : (f.card == Card.repeated) = false := by simpa using hc
                by_cases hb : f.kind = .bytes
                · simp only [hb, if_true] at h5
                  rcases h5 with h5 | ⟨-, rfl, -⟩
                  · exact absurd h5 hv
                  · simp [fieldOK, hmap, hc', hb, elemOK, scalarOK]
                · simp only [hb, if_false] at h5
                  unfold ReuseElem at h5
                  split at h5
                  · rename_i hk
                    have hz : zeroField f = .nil := by simp [zeroField, ff.singMsg hc (by simpa [FieldDesc.hasMessage] using hk)]
                    rw [hz] at h5 hv
                    rcases h5 with ⟨h5, _⟩ | ⟨_, h5, _⟩
                    · exact absurd h5 hv
                    · exact absurd rfl h5
                  · exact absurd h5 hv
      · exact absurd h1.symm (by
          intro h3
          exact h2 _ _ _ h3.symm)

/-! ### When `ResetVT` returns -/

section mono
variable {p q : Nat → Val → Prop}

theorem resettableField_mono (h : ∀ t v, p t v → q t v) {f : FieldDesc} {v : Val} (hs : ResettableField S p f v) : ResettableField S q f v := by
  unfold ResettableField at hs ⊢
  split
  · rename_i h1
    rw [if_pos h1] at hs
    split
    · rename_i h2
      rw [if_pos h2] at hs
      intro h3
      obtain ⟨h4, h5⟩ := hs h3
      exact ⟨h4, fun x hx => (h5 x hx).imp id (h _ _)⟩
    · rename_i h2
      rw [if_neg h2] at hs
      split
      · rename_i h3
        rw [if_pos h3] at hs
        intro x hx
        have := hs x hx
        split
        · rename_i h4; rw [if_pos h4] at this; exact this.imp id (h _ _)
        · rename_i h4; rw [if_neg h4] at this; exact this
      · rename_i h3
        rw [if_neg h3] at hs
        exact fun h4 => (hs h4).imp id (h _ _)
  · trivial

end mono

theorem or_all {a : Prop} {p : Nat → Prop} (h : ∀ n, a ∨ p n) : a ∨ ∀ n, p n := by
  by_cases ha : a
  · exact .inl ha
  · exact .inr fun n => (h n).resolve_left ha

theorem resettableField_all {p : Nat → Nat → Val → Prop} {f : FieldDesc} {v : Val} (h : ∀ n, ResettableField S (p n) f v) :
    ResettableField S (fun t v => ∀ n, p n t v) f v := by
  unfold ResettableField at h ⊢
  split
  · rename_i h1
    simp only [h1, if_true] at h
    split
    · rename_i h2
      simp only [h2, if_true] at h
      exact fun h3 => ⟨((h 0) h3).1, fun x hx => or_all fun n => ((h n) h3).2 x hx⟩
    · rename_i h2
      simp only [h2] at h
      split
      · rename_i h3
        simp only [h3, if_true, Bool.false_eq_true, if_false] at h
        intro x hx
        split
        · rename_i h4
          exact or_all fun n => by have := h n x hx; rwa [if_pos h4] at this
        · rename_i h4
          have := h 0 x hx
          rwa [if_neg h4] at this
      · rename_i h3
        simp only [h3, Bool.false_eq_true, if_false] at h
        exact fun h4 => or_all fun n => h n h4
  · trivial

theorem resettable_msg {t : Nat} {s : List Val} {u e : Bytes} : Resettable S t (.msg s u e) ↔
    ∀ f ∈ (S.msg t).fields, ResettableField S (Resettable S) f (slotOf s f) := by
  constructor
  · intro h f hf
    exact resettableField_all fun n => h (n + 1) f hf
  · intro h n
    cases n with
    | zero => trivial
    | succ n => exact fun f hf => resettableField_mono (fun t v h => h n) (h f hf)

/-- Returns if the condition holds and panics otherwise. -/
def Gives {α : Type} (r : Res α) (P : Prop) : Prop := (P ∧ ∃ a, r = .ok a) ∨ (¬ P ∧ r = .panic .nilDeref)

theorem Gives.ok {α : Type} (a : α) : Gives (.ok a) True := .inl ⟨trivial, a, rfl⟩

theorem Gives.of {α : Type} {r : Res α} {P Q : Prop} (h : Gives r P) (hq : P ↔ Q) : Gives r Q := by rwa [← propext hq]

theorem Gives.bind {α β : Type} {r : Res α} {k : α → Res β} {P Q : Prop} (h : Gives r P) (hk : ∀ a, Gives (k a) Q) : Gives (r >>= k) (P ∧ Q) := by
  rcases h with ⟨hp, a, rfl⟩ | ⟨hp, rfl⟩
  · rcases hk a with ⟨hq, b, hb⟩ | ⟨hq, hb⟩
    · exact .inl ⟨⟨hp, hq⟩, b, hb⟩
    · exact .inr ⟨fun h => hq h.2, hb⟩
  · exact .inr ⟨fun h => hp h.1, rfl⟩

section
variable {rec : SubReset} {P : Nat → Val → Prop}

theorem returnWith_gives {t : Nat} {v : Val} (H : v ≠ .nil → Gives (rec t v) (P t v)) : Gives (returnWith rec t v) (v = .nil ∨ P t v) := by
  unfold returnWith
  by_cases hv : v = .nil
  · subst hv
    exact (Gives.ok _).of (by simp)
  · have : v.isNil = false := by cases v <;> simp_all [Val.isNil]
    rw [this]
    exact (((H hv).bind (Q := True) fun a => .ok _)).of (by simp [hv])

theorem resetElem_gives {t : Nat} {x : Val} (H : (S.msg t).pooled = true → x ≠ .nil → Gives (rec t x) (P t x)) :
    Gives (resetElem S rec t x) (if (S.msg t).pooled then x = .nil ∨ P t x else x ≠ .nil) := by
  unfold resetElem
  by_cases hp : (S.msg t).pooled = true
  · rw [if_pos hp, if_pos hp]
    by_cases hx : x = .nil
    · subst hx
      exact (Gives.ok _).of (by simp)
    · have : x.isNil = false := by cases x <;> simp_all [Val.isNil]
      rw [this]
      exact (H hp hx).of (by simp [hx])
  · rw [if_neg hp, if_neg hp]
    by_cases hx : x = .nil
    · subst hx
      exact .inr ⟨by simp, rfl⟩
    · have : x.isNil = false := by cases x <;> simp_all [Val.isNil]
      rw [this]
      exact (Gives.ok _).of (by simp [hx])

theorem resetElems_gives {t : Nat} : ∀ (xs : List Val), (∀ x ∈ xs, (S.msg t).pooled = true → x ≠ .nil → Gives (rec t x) (P t x)) →
    Gives (resetElems S rec t xs) (∀ x ∈ xs, if (S.msg t).pooled then x = .nil ∨ P t x else x ≠ .nil)
  | [], _ => (Gives.ok _).of (by simp)
  | x :: xs, H => by
    rw [resetElems]
    refine ((resetElem_gives (H x (.head _))).bind fun a => ((resetElems_gives xs fun y hy => H y (.tail _ hy)).bind (Q := True) fun b => .ok _)).of ?_
    simp

theorem resetField_gives {tn : Members} {d : MsgDesc} {f : FieldDesc} {v : Val} (hM : MsgFacts d) (hf : f ∈ d.fields)
    (hv : if f.oneof then oneofOK tn (wtM S tn) d f.slot v = true else fieldOK (wtM S tn) f v = true)
    (H : ∀ x, x.depth ≤ v.depth → (S.msg f.msg).pooled = true → x ≠ .nil → wtM S tn f.msg x = true → Gives (rec f.msg x) (P f.msg x)) :
    Gives (resetField S rec f v) (ResettableField S P f v) := by
  have ff := hM.fields f hf
  unfold resetField ResettableField
  by_cases hl : f.isList = true
  · rw [if_pos hl]
    simp only [FieldDesc.isList, Bool.and_eq_true, beq_iff_eq, Option.isNone_iff_eq_none] at hl
    have ho : f.oneof = false := by
      cases ho : f.oneof with
      | false => rfl
      | true => have := (ff.oneof ho).1; rw [hl.1] at this; cases this
    simp only [ho, hl.1, hl.2, Option.isNone_none, Bool.and_true, Bool.false_eq_true, if_false, if_true] at hv ⊢
    cases v with
    | nil => exact (Gives.ok _).of (by simp [Val.elems])
    | list xs sp =>
      simp only
      by_cases hm : f.hasMessage = true
      · rw [if_pos hm, if_pos hm]
        have hk : f.kind = .message ∨ f.kind = .group := by simpa [FieldDesc.hasMessage] using hm
        simp only [fieldOK, hl.1, hl.2, beq_self_eq_true, if_true, Bool.and_eq_true, List.all_eq_true] at hv
        refine (((resetElems_gives (P := P) xs fun x hx hp hn => ?_).bind (Q := True) fun b => .ok _)).of (by simp [Val.elems])
        have : wtM S tn f.msg x = true := (ptrOK_of hk (hv.1 x hx)).resolve_left hn
        exact H x (spare_depth hx) hp hn this
      · rw [if_neg hm, if_neg hm]
        exact .ok _
    | _ => simp [fieldOK, hl.1, hl.2] at hv
  · rw [if_neg hl]
    by_cases ho : f.oneof = true
    · simp only [ho, if_true] at hv ⊢
      have hmap : f.map = none := by
        cases hm : f.map with
        | none => rfl
        | some md => have := (ff.map md hm).1; rw [(ff.oneof ho).1] at this; cases this
      simp only [hmap, Option.isNone_none, Bool.and_true]
      by_cases hm : f.hasMessage = true
      · simp only [hm, Bool.true_and, if_true]
        have hk : f.kind = .message ∨ f.kind = .group := by simpa [FieldDesc.hasMessage] using hm
        by_cases hp : (S.msg f.msg).pooled = true
        · rw [if_pos hp]
          cases v with
          | wrap n x =>
            simp only
            by_cases hn : n = f.num
            · subst hn
              rw [if_pos rfl]
              simp only [oneofOK, member_of hM hf ho, Bool.and_eq_true] at hv
              refine ((returnWith_gives (P := P) fun hn => ?_).bind (Q := True) fun a => .ok _).of (by simp [hp])
              refine H x (by simp [Val.depth]) hp hn ((ptrOK_of hk hv.1).resolve_left hn)
            · rw [if_neg hn]
              refine (Gives.ok _).of ?_
              simp [hn]
          | wrapNil n =>
            simp only
            by_cases hn : n = f.num
            · subst hn
              rw [if_pos rfl]
              exact .inr ⟨by simp [hp], rfl⟩
            · rw [if_neg hn]
              exact (Gives.ok _).of (by simp [hn])
          | _ => exact (Gives.ok _).of (by simp)
        · rw [if_neg hp]
          exact (Gives.ok _).of (by simp [hp])
      · rw [Bool.not_eq_true] at hm
        simp only [hm, Bool.false_and, Bool.false_eq_true, if_false]
        exact .ok _
    · rw [Bool.not_eq_true] at ho
      simp only [ho, Bool.false_eq_true, if_false] at hv ⊢
      by_cases hm : f.hasMessage = true
      · simp only [hm, if_true, Bool.true_and]
        have hk : f.kind = .message ∨ f.kind = .group := by simpa [FieldDesc.hasMessage] using hm
        cases hmap : f.map with
        | some md => simp only [Option.isNone_some, Bool.false_and, Bool.false_eq_true, if_false]; exact .ok _
        | none =>
          have hc : f.card ≠ .repeated := by
            intro hc
            exact hl (by simp [FieldDesc.isList, hc, hmap])
          simp only [Option.isNone_none, Bool.true_and, if_true, hc, if_false]
          by_cases hp : (S.msg f.msg).pooled = true
          · rw [if_pos hp]
            refine ((returnWith_gives (P := P) fun hn => ?_).bind (Q := True) fun a => .ok _).of (by simp [hp])
            refine H v (Nat.le_refl _) hp hn ?_
            have hpr := ff.singMsg hc hm
            simp only [fieldOK, hmap, hpr, if_true] at hv
            have : (f.card == Card.repeated) = false := by simpa using hc
            simp only [this, Bool.false_eq_true, if_false] at hv
            rw [Bool.or_eq_true, isNil_iff] at hv
            exact (ptrOK_of hk (hv.resolve_left hn)).resolve_left hn
          · rw [if_neg hp]
            exact (Gives.ok _).of (by simp [hp])
      · rw [Bool.not_eq_true] at hm
        simp only [hm, Bool.false_eq_true, if_false, Bool.false_and]
        split <;> exact .ok _

theorem resetFields_gives {tn : Members} {d : MsgDesc} {slots : List Val} (hM : MsgFacts d)
    (H : ∀ t x, x.depth ≤ Val.depthList slots → (S.msg t).pooled = true → x ≠ .nil → wtM S tn t x = true → Gives (rec t x) (P t x)) :
    ∀ (fs : List FieldDesc), (∀ f ∈ fs, f ∈ d.fields ∧ if f.oneof then oneofOK tn (wtM S tn) d f.slot (slotOf slots f) = true else fieldOK (wtM S tn) f (slotOf slots f) = true) →
    Gives (resetFields S rec slots fs) (∀ f ∈ fs, ResettableField S P f (slotOf slots f))
  | [], _ => (Gives.ok _).of (by simp)
  | f :: fs, hv => by
    rw [resetFields]
    refine ((resetField_gives hM (hv f (.head _)).1 (hv f (.head _)).2 fun x hx => H f.msg x (Nat.le_trans hx (depth_slotOf slots f))).bind fun a =>
      ((resetFields_gives hM H fs fun g hg => hv g (.tail _ hg)).bind (Q := True) fun b => .ok _)).of ?_
    simp

end

/-- `ResetVT` returns if it meets no nil pointer it calls a method through, and panics otherwise. -/
theorem resetN_gives {tn : Members} (hS : schemaOK S = true) (hL : poolsLocal S) : ∀ n t v, v.depth ≤ n → (S.msg t).pooled = true → v ≠ .nil → wtM S tn t v = true →
    Gives (resetN S n t v) (Resettable S t v)
  | 0, t, v, hd, hp, hn, hv => by
    obtain ⟨s, u, e, rfl⟩ := wtM_isMsg hv
    simp [Val.depth] at hd
  | n + 1, t, v, hd, hp, hn, hv => by
    obtain ⟨s, u, e, rfl⟩ := wtM_isMsg hv
    simp only [resetN]
    rw [wtM_msg, hL t hp] at hv
    simp only [Bool.false_or, Bool.and_eq_true, List.all_eq_true] at hv
    have : Val.depthList s ≤ n := by simp only [Val.depth] at hd; omega
    refine (((resetFields_gives (tn := tn) (schemaOK_msg hS t) (fun t x hx hp hn hw => resetN_gives hS hL n t x (Nat.le_trans hx this) hp hn hw) _ fun f hf => ⟨hf, ?_⟩).bind
      (Q := True) fun a => .ok _)).of (by rw [and_true]; exact resettable_msg.symm)
    have := hv.2 f hf
    split at this
    · rename_i ho; rw [if_pos ho]; exact this
    · rename_i ho; rw [if_neg ho]; exact this

end Vtp
