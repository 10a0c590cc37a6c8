import Verif.Spec.Reuse
import Verif.Lemmas.Same
import Verif.Lemmas.SimEq
/-! Messages with memory kept for reuse: unfolding, the empty message. -/

namespace Vtp
open Spec

section mono
variable {S : Schema} {p q : SubReuse} (h : ∀ t v w, p t v w → q t v w)
include h

theorem reuseElem_mono {k : Kind} {t : Nat} {v w : Val} (hs : ReuseElem p k t v w) : ReuseElem q k t v w := by
  unfold ReuseElem at hs ⊢
  split at hs
  · rw [if_pos (by assumption)]; exact hs.imp id fun ⟨a, b, c⟩ => ⟨a, b, h _ _ _ c⟩
  · rw [if_neg (by assumption)]; exact hs

theorem reuseField_mono {d : MsgDesc} {f : FieldDesc} {v w : Val} (hs : ReuseField S p d f v w) : ReuseField S q d f v w := by
  unfold ReuseField at hs ⊢
  cases hm : f.map with
  | some md =>
    rw [hm] at hs
    simp only at hs ⊢
    refine hs.imp id ?_
    rintro ⟨es, es', h1, h2, h3⟩
    exact ⟨es, es', h1, h2, h3.imp fun _ _ h4 => ⟨h4.1, reuseElem_mono h h4.2⟩⟩
  | none =>
    rw [hm] at hs
    simp only at hs ⊢
    split at hs
    · rw [if_pos (by assumption)]
      obtain ⟨h1, h2, h3, h4, h4', h5, h6⟩ := hs
      exact ⟨h1, h2, h3.imp fun _ _ => reuseElem_mono h, h4, h4', fun a b y hy => (h5 a b y hy).imp id fun ⟨a, b⟩ => ⟨a, h _ _ _ b⟩, h6⟩
    · rw [if_neg (by assumption)]
      split at hs
      · rw [if_pos (by assumption)]; exact hs
      · rw [if_neg (by assumption)]; exact reuseElem_mono h hs

theorem reuseOneof_mono {d : MsgDesc} {slot : Nat} {v w : Val} (hs : ReuseOneof p d slot v w) : ReuseOneof q d slot v w := by
  unfold ReuseOneof at hs ⊢
  split at hs
  · obtain ⟨h1, f, h2, h3⟩ := hs; exact ⟨h1, f, h2, reuseElem_mono h h3⟩
  · exact hs

theorem reuseMsg_mono {d : MsgDesc} {v w : Val} (hs : ReuseMsg S p d v w) : ReuseMsg S q d v w := by
  unfold ReuseMsg at hs ⊢
  split at hs
  · rw [if_pos (by assumption)]; exact hs
  · rw [if_neg (by assumption)]
    cases v <;> cases w <;> simp only at hs ⊢ <;> first | exact hs | skip
    obtain ⟨h1, h2, h3, h4, h5⟩ := hs
    refine ⟨h1, h2, h3, h4, fun f hf => ?_⟩
    have := h5 f hf
    split at this
    · rw [if_pos (by assumption)]; exact reuseOneof_mono h this
    · rw [if_neg (by assumption)]; exact reuseField_mono h this

end mono

theorem forall₂_all' {α β : Type} {r : Nat → α → β → Prop} : ∀ {l : List α} {l' : List β}, (∀ n, List.Forall₂ (r n) l l') → List.Forall₂ (fun a b => ∀ n, r n a b) l l'
  | [], [], _ => .nil
  | [], _ :: _, h => by cases h 0
  | _ :: _, [], h => by cases h 0
  | a :: l, b :: l', h => .cons (fun n => by cases h n; assumption) (forall₂_all' fun n => by cases h n; assumption)

section inter
variable {S : Schema} {p : Nat → SubReuse}

theorem reuseElem_all {k : Kind} {t : Nat} {v w : Val} (h : ∀ n, ReuseElem (p n) k t v w) : ReuseElem (fun t v w => ∀ n, p n t v w) k t v w := by
  unfold ReuseElem at h ⊢
  by_cases hk : k = .message ∨ k = .group
  · simp only [hk, if_true] at h ⊢
    rcases h 0 with h0 | h0
    · exact .inl h0
    · refine .inr ⟨h0.1, h0.2.1, fun n => ?_⟩
      rcases h n with hn | hn
      · exact absurd hn.1 h0.1
      · exact hn.2.2
  · simp only [hk, if_false] at h ⊢; exact h 0

theorem reuseField_all {d : MsgDesc} {f : FieldDesc} {v w : Val} (h : ∀ n, ReuseField S (p n) d f v w) :
    ReuseField S (fun t v w => ∀ n, p n t v w) d f v w := by
  unfold ReuseField at h ⊢
  cases hm : f.map with
  | some md =>
    simp only [hm] at h ⊢
    rcases h 0 with h0 | ⟨es, es', h1, h2, h3⟩
    · exact .inl h0
    · refine .inr ⟨es, es', h1, h2, ?_⟩
      have : ∀ n, List.Forall₂ (fun (e e' : Key × Val) => e.1 = e'.1 ∧ ReuseElem (p n) md.val md.valMsg e.2 e'.2) es es' := by
        intro n
        rcases h n with hn | ⟨fs, fs', h4, h5, h6⟩
        · rw [h1] at hn; cases hn.1
        · rw [h1] at h4; rw [h2] at h5; cases h4; cases h5; exact h6
      exact (forall₂_all' this).imp fun _ _ h => ⟨(h 0).1, reuseElem_all fun n => (h n).2⟩
  | none =>
    simp only [hm] at h ⊢
    by_cases hc : f.card = .repeated
    · simp only [hc, if_true] at h ⊢
      refine ⟨(h 0).1, (h 0).2.1, ?_, (h 0).2.2.2.1, (h 0).2.2.2.2.1, fun a b y hy => ?_, (h 0).2.2.2.2.2.2⟩
      · exact (forall₂_all' fun n => (h n).2.2.1).imp fun _ _ h => reuseElem_all h
      · by_cases hy0 : y = .nil
        · exact .inl hy0
        · refine .inr ⟨hy0, fun n => ?_⟩
          rcases (h n).2.2.2.2.2.1 a b y hy with h | h
          · exact absurd h hy0
          · exact h.2
    · simp only [hc, if_false] at h ⊢
      by_cases hb : f.kind = .bytes
      · simp only [hb, if_true] at h ⊢; exact h 0
      · simp only [hb, if_false] at h ⊢; exact reuseElem_all h

theorem reuseOneof_all {d : MsgDesc} {slot : Nat} {v w : Val} (h : ∀ n, ReuseOneof (p n) d slot v w) :
    ReuseOneof (fun t v w => ∀ n, p n t v w) d slot v w := by
  unfold ReuseOneof at h ⊢
  split
  · obtain ⟨h1, f, h2, h3⟩ := h 0
    refine ⟨h1, f, h2, reuseElem_all fun n => ?_⟩
    obtain ⟨_, g, h4, h5⟩ := h n
    rw [h2] at h4; cases h4; exact h5
  · rename_i hn
    have := h 0
    split at this
    · exact (hn _ _ _ _ rfl rfl).elim
    · exact this

theorem reuseMsg_all {d : MsgDesc} {v w : Val} (h : ∀ n, ReuseMsg S (p n) d v w) : ReuseMsg S (fun t v w => ∀ n, p n t v w) d v w := by
  unfold ReuseMsg at h ⊢
  cases hf : d.foreign with
  | true => simp only [hf, if_true] at h ⊢; exact h 0
  | false =>
    simp only [hf, Bool.false_eq_true, if_false] at h ⊢
    cases v <;> cases w <;> simp only at h ⊢ <;> first | exact h 0 | skip
    obtain ⟨h1, h2, h3, h4, _⟩ := h 0
    refine ⟨h1, h2, h3, h4, fun f hf => ?_⟩
    by_cases ho : f.oneof = true
    · rw [if_pos ho]; exact reuseOneof_all fun n => by have := (h n).2.2.2.2 f hf; rwa [if_pos ho] at this
    · rw [if_neg ho]; exact reuseField_all fun n => by have := (h n).2.2.2.2 f hf; rwa [if_neg ho] at this

end inter

/-- Unfolded once. -/
theorem reuse_iff {S : Schema} {t : Nat} {v w : Val} : Reuse S t v w ↔ ReuseMsg S (Reuse S) (S.msg t) v w := by
  constructor
  · intro h; exact reuseMsg_all fun n => h (n + 1)
  · intro h n
    cases n with
    | zero => trivial
    | succ n => exact reuseMsg_mono (fun t v w h => h n) h

theorem unpool_msg (S : Schema) (t : Nat) : (unpool S).msg t = { S.msg t with pooled := false } := by
  unfold Schema.msg unpool
  rw [List.getD_eq_getElem?_getD, List.getD_eq_getElem?_getD, List.getElem?_map]
  cases S[t]? <;> rfl

theorem samePlan_unpool (S : Schema) : SamePlan S (unpool S) := by intro t; rw [unpool_msg]

theorem reuse_nil {S : Schema} {t : Nat} {v w : Val} (h : Reuse S t v w) : v.isNil = w.isNil := by
  rw [reuse_iff] at h
  unfold ReuseMsg at h
  split at h
  · rw [h]
  · cases v <;> cases w <;> simp_all [Val.isNil]

theorem isNil_iff {v : Val} : v.isNil = true ↔ v = .nil := by cases v <;> simp [Val.isNil]

/-- Non-foreign messages. -/
theorem reuse_msg {S : Schema} {t : Nat} (hf : (S.msg t).foreign = false) {s s' : List Val} {u u' e e' : Bytes} :
    Reuse S t (.msg s u e) (.msg s' u' e') ↔ u = u' ∧ e = e' ∧ s.length = (S.msg t).nslots ∧ s'.length = (S.msg t).nslots ∧
      ∀ f ∈ (S.msg t).fields, if f.oneof then ReuseOneof (Reuse S) (S.msg t) f.slot (slotOf s f) (slotOf s' f)
        else ReuseField S (Reuse S) (S.msg t) f (slotOf s f) (slotOf s' f) := by
  rw [reuse_iff]
  unfold ReuseMsg
  rw [hf]
  simp only [Bool.false_eq_true, if_false]

theorem reuse_cases {S : Schema} {t : Nat} (hf : (S.msg t).foreign = false) {v w : Val} (h : Reuse S t v w) :
    (∃ s u e s' u' e', v = .msg s u e ∧ w = .msg s' u' e') ∨ (v = w ∧ ∀ s u e, v ≠ .msg s u e) := by
  rw [reuse_iff] at h
  unfold ReuseMsg at h
  rw [hf] at h
  simp only [Bool.false_eq_true, if_false] at h
  cases v <;> cases w <;> simp_all

theorem reuseElem_nilnil {S : Schema} {k : Kind} (hk : k = .message ∨ k = .group) (t : Nat) : ReuseElem (Reuse S) k t .nil .nil := by
  simp [ReuseElem, hk]

theorem reuseElem_msg {S : Schema} {k : Kind} (hk : k = .message ∨ k = .group) {t : Nat} {v w : Val} (h : Reuse S t v w) :
    ReuseElem (Reuse S) k t v w := by
  unfold ReuseElem
  rw [if_pos hk]
  have := reuse_nil h
  by_cases hv : v = .nil
  · subst hv
    exact .inl ⟨rfl, isNil_iff.1 (this.symm.trans rfl)⟩
  · refine .inr ⟨hv, fun hw => hv ?_, h⟩
    subst hw
    exact isNil_iff.1 this

theorem reuseElem_scalar {p : SubReuse} {k : Kind} (hk : k ≠ .message ∧ k ≠ .group) {t : Nat} {v w : Val} :
    ReuseElem p k t v w ↔ v = w := by
  unfold ReuseElem
  rw [if_neg (by simp [hk.1, hk.2])]

/-- The zero value of a field is like itself. -/
theorem zeroField_reuse (S : Schema) {d : MsgDesc} {f : FieldDesc} (ff : FieldFacts d f) :
    if f.oneof then ReuseOneof (Reuse S) d f.slot (zeroField f) (zeroField f) else ReuseField S (Reuse S) d f (zeroField f) (zeroField f) := by
  unfold zeroField
  split
  · rename_i ho; simp [ho, ReuseOneof]
  · rename_i ho
    simp only [ho, Bool.false_or]
    unfold ReuseField
    cases hm : f.map with
    | some md => have := (ff.map md hm).1; simp [this]
    | none =>
      simp only
      by_cases hc : f.card = .repeated
      · simp [hc, isSlice, Val.elems, spareOf]
      · simp only [hc, if_false]
        split
        · simp
        · have : (f.card == Card.repeated) = false := by simpa using hc
          simp only [this, Bool.false_or]
          cases hp : f.presence with
          | true => simp [ReuseElem]
          | false =>
            have : f.hasMessage = false := by
              cases hh : f.hasMessage with
              | false => rfl
              | true => rw [ff.singMsg hc hh] at hp; cases hp
            unfold FieldDesc.hasMessage at this
            simp only [Bool.or_eq_false_iff, beq_eq_false_iff_ne] at this
            simp [ReuseElem, this.1, this.2]

/-- The empty message is like itself. -/
theorem zeroMsg_reuse {S : Schema} (hS : schemaOK S = true) (t : Nat) : Reuse S t (zeroMsg S t) (zeroMsg S t) := by
  cases hf : (S.msg t).foreign with
  | true => rw [reuse_iff]; unfold ReuseMsg; rw [hf]; rfl
  | false =>
    unfold zeroMsg
    rw [reuse_msg hf]
    refine ⟨rfl, rfl, by simp, by simp, fun f h => ?_⟩
    rw [zeroMsg_slot hS h]
    exact zeroField_reuse S ((schemaOK_msg hS t).fields f h)

def VRel.reuse (S : Schema) : VRel :=
  ⟨Reuse S, fun t f v w => if f.oneof then ReuseOneof (Reuse S) (S.msg t) f.slot v w else ReuseField S (Reuse S) (S.msg t) f v w, Eq⟩

theorem VRel.reuse_scal {S : Schema} {v v' : Val} (h : (VRel.reuse S).scal v v') : v = v' := by
  rcases h with rfl | ⟨b, b', rfl, rfl, h⟩
  · rfl
  · rw [show b = b' from h]

theorem VRel.reuse_elem {S : Schema} {k : Kind} {t : Nat} {v v' : Val} (h : (VRel.reuse S).elem k t v v') : ReuseElem (Reuse S) k t v v' := by
  unfold VRel.elem at h
  split at h
  · rename_i hk
    rcases h with ⟨rfl, rfl⟩ | h
    · exact reuseElem_nilnil hk t
    · exact reuseElem_msg hk h
  · rename_i hk
    unfold ReuseElem
    rw [if_neg hk]
    exact VRel.reuse_scal h

theorem forall₂_mapInsert {r : Val → Val → Prop} {k : Key} {v v' : Val} (hv : r v v') :
    ∀ {es es' : List (Key × Val)}, List.Forall₂ (fun e e' => e.1 = e'.1 ∧ r e.2 e'.2) es es' →
      List.Forall₂ (fun e e' => e.1 = e'.1 ∧ r e.2 e'.2) (mapInsert es k v) (mapInsert es' k v')
  | _, _, .nil => .cons ⟨rfl, hv⟩ .nil
  | (k1, _) :: _, (k2, _) :: _, .cons h t => by
    have hk : k1 = k2 := h.1
    subst hk
    simp only [mapInsert]
    split
    · exact .cons ⟨rfl, hv⟩ t
    · exact .cons ⟨rfl, h.2⟩ (forall₂_mapInsert hv t)

theorem forall₂_mem_left {α β : Type} {r : α → β → Prop} {a : α} : ∀ {l : List α} {l' : List β}, List.Forall₂ r l l' → a ∈ l → ∃ b ∈ l', r a b
  | _, _, .nil, h => by simp at h
  | _, _, .cons h' t, h => by
    rcases List.mem_cons.1 h with rfl | h
    · exact ⟨_, .head _, h'⟩
    · obtain ⟨b, h1, h2⟩ := forall₂_mem_left t h
      exact ⟨b, .tail _ h1, h2⟩

theorem forall₂_snoc {α β : Type} {r : α → β → Prop} {a : α} {b : β} (h : r a b) :
    ∀ {l : List α} {l' : List β}, List.Forall₂ r l l' → List.Forall₂ r (l ++ [a]) (l' ++ [b])
  | _, _, .nil => .cons h .nil
  | _, _, .cons h' t => .cons h' (forall₂_snoc h t)

/-- Decoding with and without a pool. -/
theorem simEnv_reuse {E : UEnv} (hS : schemaOK E.S = true) (hA : E.A.Valid)
    (hp : ∀ t b v, E.R.unmarshalPartial t b = some v → Reuse E.S t v v) :
    SimEnv (VRel.reuse E.S) E { E with S := unpool E.S } where
  schema := samePlan_unpool _
  runtime := rfl
  arch := rfl
  valid := hA
  make := .inr (.inl rfl)
  nil _ _ _ h := reuse_nil h
  zero t := zeroMsg_reuse hS t
  rt t b v hf _ := by
    show Reuse _ _ _ _
    rw [reuse_iff]; unfold ReuseMsg; rw [hf]; rfl
  part t b := by
    intro m m' hm
    have hm : Reuse E.S t m m' := hm
    unfold runtimePartial
    simp only
    cases hf : (E.S.msg t).foreign with
    | true =>
      have : m = m' := by rw [reuse_iff] at hm; unfold ReuseMsg at hm; rwa [hf, if_pos rfl] at hm
      subst this
      cases m with
      | msg s u e =>
        cases hr : E.R.unmarshalPartial t b with
        | some v => exact ⟨hp t b v hr, (), rfl, trivial⟩
        | none => exact .inr ⟨hm, rfl⟩
      | _ => exact .inr ⟨hm, rfl⟩
    | false =>
      rcases reuse_cases hf hm with ⟨s, u, e, s', u', e', rfl, rfl⟩ | ⟨rfl, hn⟩
      · cases hr : E.R.unmarshalPartial t b with
        | some v => exact ⟨hp t b v hr, (), rfl, trivial⟩
        | none => exact .inr ⟨hm, rfl⟩
      · cases m with
        | msg s u e => exact absurd rfl (hn _ _ _)
        | _ => exact .inr ⟨hm, rfl⟩
  get t hf f h := by
    intro m m' hm
    have hm : Reuse E.S t m m' := hm
    unfold getSlot
    rcases reuse_cases hf hm with ⟨s, u, e, s', u', e', rfl, rfl⟩ | ⟨rfl, hn⟩
    · exact ⟨hm, _, rfl, ((reuse_msg hf).1 hm).2.2.2.2 f h⟩
    · cases m with
      | msg s u e => exact absurd rfl (hn _ _ _)
      | _ => exact .inr ⟨hm, rfl⟩
  set t hf f h v v' hv := by
    intro m m' hm
    have hm : Reuse E.S t m m' := hm
    unfold setSlot
    rcases reuse_cases hf hm with ⟨s, u, e, s', u', e', rfl, rfl⟩ | ⟨rfl, hn⟩
    · refine ⟨?_, _, rfl, trivial⟩
      show Reuse _ _ _ _
      rw [reuse_msg hf] at hm ⊢
      obtain ⟨h1, h2, h3, h4, h5⟩ := hm
      have hd := schemaOK_msg hS t
      have hl := (hd.fields f h).slot
      refine ⟨h1, h2, by simpa using h3, by simpa using h4, fun g hg => ?_⟩
      by_cases hs : g.slot = f.slot
      · rw [slotOf_set_eq s v (by omega) hs, slotOf_set_eq s' v' (by omega) hs]
        by_cases hn : g.num = f.num
        · rw [hd.num_inj hg h hn]; exact hv
        · have ho := hd.share g hg f h hn hs
          have hv : if f.oneof then ReuseOneof (Reuse E.S) (E.S.msg t) f.slot v v' else ReuseField E.S (Reuse E.S) (E.S.msg t) f v v' := hv
          rw [if_pos ho.2] at hv
          rw [if_pos ho.1, hs]; exact hv
      · rw [slotOf_set_ne s v hs, slotOf_set_ne s' v' hs]; exact h5 g hg
    · cases m with
      | msg s u e => exact absurd rfl (hn _ _ _)
      | _ => exact .inr ⟨hm, rfl⟩
  unk t hf b := by
    intro m m' hm
    have hm : Reuse E.S t m m' := hm
    unfold appendUnknown
    rcases reuse_cases hf hm with ⟨s, u, e, s', u', e', rfl, rfl⟩ | ⟨rfl, hn⟩
    · refine ⟨?_, _, rfl, trivial⟩
      show Reuse _ _ _ _
      rw [reuse_msg hf] at hm ⊢
      exact ⟨by rw [hm.1], hm.2⟩
    · cases m with
      | msg s u e => exact absurd rfl (hn _ _ _)
      | _ => exact .inr ⟨hm, rfl⟩
  num t f h ho hc hk n := by
    show if f.oneof then _ else _
    simp only [ho, Bool.false_eq_true, if_false]
    have hm : f.map = none := by
      cases hm : f.map with
      | none => rfl
      | some md => have := (((schemaOK_msg hS t).fields f h).map md hm).1; simp [this] at hc
    have hc : f.card ≠ .repeated := by simpa using hc
    unfold ReuseField
    rw [hm]
    simp only [hc, if_false]
    split
    · simp
    · rw [reuseElem_scalar (by constructor <;> rintro hk' <;> simp [hk', numeric] at hk)]
  str t f h ho hc hk b b' hb := by
    have hb : b = b' := hb
    subst hb
    show if f.oneof then _ else _
    simp only [ho, Bool.false_eq_true, if_false]
    have hm : f.map = none := by
      cases hm : f.map with
      | none => rfl
      | some md => have := (((schemaOK_msg hS t).fields f h).map md hm).1; simp [this] at hc
    have hc : f.card ≠ .repeated := by simpa using hc
    unfold ReuseField
    rw [hm]
    simp only [hc, if_false]
    split
    · simp
    · rw [reuseElem_scalar (by rcases hk with hk | hk <;> simp [hk])]
  wrap t f h ho v v' hv := by
    show if f.oneof then _ else _
    simp only [ho, if_true]
    exact ⟨rfl, f, member_of (schemaOK_msg hS t) h ho, VRel.reuse_elem hv⟩
  append t f h ho hc hmsg s s' hs v v' hv := by
    have hv := VRel.reuse_scal hv
    subst hv
    have hm : f.map = none := by
      cases hm : f.map with
      | none => rfl
      | some md => have := (((schemaOK_msg hS t).fields f h).map md hm).2.1; simp [this, FieldDesc.hasMessage] at hmsg
    have hc : f.card = .repeated := by simpa using hc
    have hs : if f.oneof then _ else ReuseField E.S (Reuse E.S) (E.S.msg t) f s s' := hs
    simp only [ho, Bool.false_eq_true, if_false] at hs
    unfold ReuseField at hs
    rw [hm] at hs
    simp only [hc, if_true] at hs
    have hk : f.kind ≠ .message ∧ f.kind ≠ .group := by
      unfold FieldDesc.hasMessage at hmsg; simpa using hmsg
    have key : ∀ a b : Val, (∃ xs sp, a = .list xs sp) → (∃ xs sp, b = .list xs sp) → List.Forall₂ (ReuseElem (Reuse E.S) f.kind f.msg) a.elems b.elems →
        spareOf a = [] → (VRel.reuse E.S).slot t f a b := by
      rintro _ _ ⟨xs, sp, rfl⟩ ⟨xs', sp', rfl⟩ hx hsp
      show if f.oneof then _ else _
      simp only [ho, Bool.false_eq_true, if_false]
      unfold ReuseField
      rw [hm]
      simp only [hc, if_true]
      exact ⟨trivial, trivial, hx, by simp, by simp, (fun _ b => by rw [hmsg] at b; cases b), fun _ => hsp⟩
    have he : ReuseElem (Reuse E.S) f.kind f.msg v v := by rw [reuseElem_scalar hk]
    obtain ⟨h1, h2, h3, -, -, -, h4⟩ := hs
    have h4 := h4 hmsg
    unfold appendVal
    cases s <;> simp [isSlice] at h1 <;> cases s' <;> simp [isSlice] at h2 <;>
      exact ⟨_, rfl, key _ _ ⟨_, _, rfl⟩ ⟨_, _, rfl⟩ (by simpa only [Val.elems, List.nil_append] using forall₂_snoc he h3) (by simp_all [spareOf])⟩
  elems t f h hl s s' hs := by
    unfold FieldDesc.isList at hl
    simp only [Bool.and_eq_true, beq_iff_eq, Option.isNone_iff_eq_none] at hl
    have ho : f.oneof = false := by
      cases ho : f.oneof with
      | false => rfl
      | true => have := (((schemaOK_msg hS t).fields f h).oneof ho).1; rw [hl.1] at this; cases this
    have hs : if f.oneof then _ else ReuseField E.S (Reuse E.S) (E.S.msg t) f s s' := hs
    simp only [ho, Bool.false_eq_true, if_false] at hs
    unfold ReuseField at hs
    rw [hl.2] at hs
    simp only [hl.1, if_true] at hs
    have := hs.2.2.1.length_eq
    rw [← List.length_eq_zero_iff, this, List.length_eq_zero_iff]
  empty t f h hl := by
    unfold FieldDesc.isList at hl
    simp only [Bool.and_eq_true, beq_iff_eq, Option.isNone_iff_eq_none] at hl
    have ho : f.oneof = false := by
      cases ho : f.oneof with
      | false => rfl
      | true => have := (((schemaOK_msg hS t).fields f h).oneof ho).1; rw [hl.1] at this; cases this
    show if f.oneof then _ else _
    simp only [ho, Bool.false_eq_true, if_false]
    unfold ReuseField
    rw [hl.2]
    simp [hl.1, isSlice, Val.elems, spareOf]
  map t f h md hmd s s' hs := by
    have ff := (schemaOK_msg hS t).fields f h
    have ho : f.oneof = false := by
      cases ho : f.oneof with
      | false => rfl
      | true => have := (ff.oneof ho).1; rw [(ff.map md hmd).1] at this; cases this
    have hsl : ∀ a b, (VRel.reuse E.S).slot t f a b ↔ ((a = .nil ∧ b = .nil) ∨ ∃ es es', a = .map es ∧ b = .map es' ∧
      List.Forall₂ (fun e e' => e.1 = e'.1 ∧ ReuseElem (Reuse E.S) md.val md.valMsg e.2 e'.2) es es') := by
      intro a b
      show (if f.oneof then _ else _) ↔ _
      simp only [ho, Bool.false_eq_true, if_false]
      unfold ReuseField
      rw [hmd]
    rw [hsl] at hs
    rcases hs with ⟨rfl, rfl⟩ | ⟨es, es', rfl, rfl, he⟩
    · simp only [Val.isNil, if_true]
      refine ⟨(hsl _ _).2 (.inr ⟨[], [], rfl, rfl, .nil⟩), .inl ⟨[], [], rfl, rfl, fun k v v' hv => ?_⟩⟩
      exact (hsl _ _).2 (.inr ⟨_, _, rfl, rfl, forall₂_mapInsert (VRel.reuse_elem hv) .nil⟩)
    · simp only [Val.isNil, Bool.false_eq_true, if_false]
      refine ⟨(hsl _ _).2 (.inr ⟨_, _, rfl, rfl, he⟩), .inl ⟨_, _, rfl, rfl, fun k v v' hv => ?_⟩⟩
      exact (hsl _ _).2 (.inr ⟨_, _, rfl, rfl, forall₂_mapInsert (VRel.reuse_elem hv) he⟩)
  sub t f h hk hmd s s' hs off off' ha := by
    have ff := (schemaOK_msg hS t).fields f h
    have hz : Reuse E.S f.msg (zeroMsg E.S f.msg) (zeroMsg E.S f.msg) := zeroMsg_reuse hS f.msg
    have hn : Reuse E.S f.msg (newSub E (E.S.msg t) off f.msg) (zeroMsg E.S f.msg) := by
      unfold newSub
      split
      · rename_i hp
        simp only [Bool.and_eq_true] at hp
        have := ha hp.2
        have e : UEnv.fresh { E with S := unpool E.S } off' f.msg = zeroMsg E.S f.msg := by
          unfold UEnv.fresh
          simp only [unpool_msg]
          exact (samePlan_unpool E.S).zeroMsg f.msg
        rw [e] at this
        exact this
      · exact hz
    have hn' : newSub { E with S := unpool E.S } ((unpool E.S).msg t) off' f.msg = zeroMsg E.S f.msg := by
      unfold newSub
      simp only [unpool_msg, Bool.false_and]
      exact (samePlan_unpool E.S).zeroMsg f.msg
    have hzz : zeroMsg (unpool E.S) f.msg = zeroMsg E.S f.msg := (samePlan_unpool E.S).zeroMsg f.msg
    have hp' : ((unpool E.S).msg t).pooled = false := by rw [unpool_msg]
    have hkk : f.kind = .message ∨ f.kind = .group := .inl hk
    by_cases ho : f.oneof = true
    · have hs : if f.oneof then ReuseOneof (Reuse E.S) (E.S.msg t) f.slot s s' else _ := hs
      rw [if_pos ho] at hs
      refine ⟨?_, ?_, ?_⟩
      · unfold subTarget
        simp only [ho, if_true]
        unfold ReuseOneof at hs
        split at hs
        · obtain ⟨rfl, g, h1, h2⟩ := hs
          rename_i n x n' y
          simp only
          split
          · rename_i hnn
            subst hnn
            rw [member_of (schemaOK_msg hS t) h ho] at h1
            cases h1
            refine ⟨_, rfl, ?_⟩
            show Reuse _ _ _ _
            unfold ReuseElem at h2
            rw [if_pos hkk] at h2
            rcases h2 with ⟨rfl, rfl⟩ | h2
            · rw [reuse_iff]; unfold ReuseMsg; split <;> simp
            · exact h2.2.2
          · exact ⟨_, rfl, by rw [hn']; exact hn⟩
        · subst hs
          rename_i hw
          cases s with
          | wrap n x => exact (hw n x n x rfl rfl).elim
          | wrapNil n =>
            simp only
            split
            · exact .inr rfl
            · exact ⟨_, rfl, by rw [hn']; exact hn⟩
          | _ => exact ⟨_, rfl, by rw [hn']; exact hn⟩
      · intro x x' hx
        unfold subAssign
        simp only [ho, if_true]
        show if f.oneof then _ else _
        rw [if_pos ho]
        exact ⟨rfl, f, member_of (schemaOK_msg hS t) h ho, reuseElem_msg hkk hx⟩
      · unfold ReuseOneof at hs
        unfold holds
        split at hs
        · rw [hs.1]
        · rw [hs]
    · have ho : f.oneof = false := by simpa using ho
      have hs : if f.oneof then _ else ReuseField E.S (Reuse E.S) (E.S.msg t) f s s' := hs
      simp only [ho, Bool.false_eq_true, if_false] at hs
      unfold ReuseField at hs
      rw [hmd] at hs
      simp only at hs
      have hmsg : f.hasMessage = true := by simp [FieldDesc.hasMessage, hk]
      by_cases hc : f.card = .repeated
      · have hc' : (f.card == .repeated) = true := by simpa using hc
        rw [if_pos hc] at hs
        obtain ⟨h1, h2, h3, h4, h5, h6, -⟩ := hs
        have key : ∀ a b : Val, (∃ xs sp, a = .list xs sp) → (∃ xs sp, b = .list xs sp) → List.Forall₂ (ReuseElem (Reuse E.S) f.kind f.msg) a.elems b.elems →
            ((E.S.msg t).pooled = true → ∀ y ∈ spareOf a, y = .nil ∨ y ≠ .nil ∧ Reuse E.S f.msg y (zeroMsg E.S f.msg)) →
            (VRel.reuse E.S).slot t f a b := by
          rintro _ _ ⟨xs, sp, rfl⟩ ⟨xs', sp', rfl⟩ hx hy
          show if f.oneof then _ else _
          simp only [ho, Bool.false_eq_true, if_false]
          unfold ReuseField
          rw [hmd]
          simp only [hc, if_true]
          exact ⟨trivial, trivial, hx, by simp, by simp, fun a _ => hy a, fun h => by rw [hmsg] at h; cases h⟩
        refine ⟨?_, ?_, ?_⟩
        · unfold subTarget
          simp only [ho, Bool.false_eq_true, if_false, hc', if_true, hp', hzz]
          have hr : ∃ v, (match s' with
              | .nil => Res.ok (zeroMsg E.S f.msg)
              | .list _ _ => .ok (zeroMsg E.S f.msg)
              | _ => .panic .typeConfusion) = .ok v ∧ v = zeroMsg E.S f.msg := by
            cases s' <;> simp [isSlice] at h2 <;> exact ⟨_, rfl, rfl⟩
          obtain ⟨v, hr1, rfl⟩ := hr
          cases s with
          | nil => exact ⟨_, hr1, hz⟩
          | list xs sp =>
            simp only
            split
            · rename_i hpool
              cases sp with
              | nil => exact ⟨_, hr1, hz⟩
              | cons y sp =>
                refine ⟨_, hr1, ?_⟩
                show Reuse _ _ _ _
                rcases h6 hpool hmsg y (by simp [spareOf]) with rfl | h
                · exact hz
                · have : y.isNil = false := by
                    cases hy : y.isNil with
                    | false => rfl
                    | true => exact absurd (isNil_iff.1 hy) h.1
                  rw [this]
                  exact h.2
            · exact ⟨_, hr1, hz⟩
          | _ => simp [isSlice] at h1
        · intro x x' hx
          have hx := reuseElem_msg hkk (show Reuse E.S f.msg x x' from hx)
          unfold subAssign
          simp only [ho, Bool.false_eq_true, if_false, hc', if_true]
          cases s <;> simp [isSlice] at h1 <;> cases s' <;> simp [isSlice] at h2 <;>
            refine key _ _ ⟨_, _, rfl⟩ ⟨_, _, rfl⟩ (by simpa only [Val.elems, List.nil_append] using forall₂_snoc hx h3) ?_
          · simp [spareOf]
          · simp [spareOf]
          · exact fun a y hy => h6 a hmsg y (List.mem_of_mem_tail hy)
          · exact fun a y hy => h6 a hmsg y (List.mem_of_mem_tail hy)
        · unfold holds
          cases s <;> simp [isSlice] at h1 <;> cases s' <;> simp [isSlice] at h2 <;> rfl
      · have hc' : (f.card == .repeated) = false := by simpa using hc
        rw [if_neg hc, if_neg (by rw [hk]; decide)] at hs
        refine ⟨?_, ?_, ?_⟩
        · unfold subTarget
          simp only [ho, Bool.false_eq_true, if_false, hc']
          unfold ReuseElem at hs
          rw [if_pos hkk] at hs
          rcases hs with ⟨rfl, rfl⟩ | ⟨h1, h2, h3⟩
          · exact ⟨_, rfl, by rw [hn']; exact hn⟩
          · refine ⟨_, rfl, ?_⟩
            rw [if_neg (by rwa [isNil_iff]), if_neg (by rwa [isNil_iff])]
            exact h3
        · intro x x' hx
          unfold subAssign
          simp only [ho, Bool.false_eq_true, if_false, hc']
          show if f.oneof then _ else _
          simp only [ho, Bool.false_eq_true, if_false]
          unfold ReuseField
          rw [hmd]
          simp only [hc, if_false]
          rw [if_neg (by rw [hk]; decide)]
          exact reuseElem_msg hkk hx
        · unfold ReuseElem at hs
          rw [if_pos hkk] at hs
          rcases hs with ⟨rfl, rfl⟩ | ⟨h1, h2, h3⟩
          · rfl
          · unfold holds
            cases hf : (E.S.msg f.msg).foreign with
            | true =>
              have : s = s' := by rw [reuse_iff] at h3; unfold ReuseMsg at h3; rwa [hf, if_pos rfl] at h3
              rw [this]
            | false =>
              rcases reuse_cases hf h3 with ⟨_, _, _, _, _, _, rfl, rfl⟩ | ⟨rfl, hn⟩ <;> rfl

end Vtp
