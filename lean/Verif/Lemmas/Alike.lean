import Verif.Spec.Alike
import Verif.Lemmas.Reuse
import Verif.Lemmas.EqualEncode
/-! Messages that are the same bit by bit: unfolding, encoding and size, relation to the other notions. -/

namespace Vtp
open Spec

section mono
variable {S : Schema} {R : Runtime} {p q : SubSame} (h : ∀ t v w, p t v w → q t v w)
include h

theorem alikeElem_mono {k : Kind} {t : Nat} {v w : Val} (hs : AlikeElem p k t v w) : AlikeElem q k t v w := by
  unfold AlikeElem at hs ⊢
  split at hs
  · rw [if_pos (by assumption)]; exact hs.imp id fun ⟨a, b, c⟩ => ⟨a, b, h _ _ _ c⟩
  · rw [if_neg (by assumption)]; exact hs

theorem alikeField_mono {f : FieldDesc} {v w : Val} (hs : AlikeField p f v w) : AlikeField q f v w := by
  unfold AlikeField at hs ⊢
  cases hm : f.map with
  | some md =>
    rw [hm] at hs
    exact List.Forall₂.imp (fun _ _ h4 => ⟨h4.1, alikeElem_mono h h4.2⟩) hs
  | none =>
    rw [hm] at hs
    simp only at hs ⊢
    split at hs
    · rw [if_pos (by assumption)]
      exact hs.imp fun _ _ => alikeElem_mono h
    · rw [if_neg (by assumption)]
      exact ⟨hs.1, alikeElem_mono h hs.2⟩

theorem alikeOneof_mono {d : MsgDesc} {slot : Nat} {v w : Val} (hs : AlikeOneof p d slot v w) : AlikeOneof q d slot v w := by
  unfold AlikeOneof at hs ⊢
  split at hs
  · obtain ⟨h1, f, h2, h3⟩ := hs; exact ⟨h1, f, h2, alikeElem_mono h h3⟩
  · exact hs

theorem alikeMsg_mono {d : MsgDesc} {v w : Val} (hs : AlikeMsg p d v w) : AlikeMsg q d v w := by
  unfold AlikeMsg at hs ⊢
  cases v <;> cases w <;> simp only at hs ⊢ <;> first | exact hs | skip
  refine ⟨fun f hf => ?_, hs.2⟩
  have := hs.1 f hf
  split at this
  · rw [if_pos (by assumption)]; exact alikeOneof_mono h this
  · rw [if_neg (by assumption)]; exact alikeField_mono h this

theorem subAlike_mono {t : Nat} {v w : Val} (hs : subAlike S R p t v w) : subAlike S R q t v w := by
  unfold subAlike at hs ⊢
  split at hs
  · rw [if_pos (by assumption)]; exact hs
  · rw [if_neg (by assumption)]; exact h _ _ _ hs

end mono

section inter
variable {S : Schema} {R : Runtime} {p : Nat → SubSame}

theorem alikeElem_all {k : Kind} {t : Nat} {v w : Val} (h : ∀ n, AlikeElem (p n) k t v w) : AlikeElem (fun t v w => ∀ n, p n t v w) k t v w := by
  unfold AlikeElem at h ⊢
  by_cases hk : k = .message ∨ k = .group
  · simp only [hk, if_true] at h ⊢
    rcases h 0 with h0 | h0
    · exact .inl h0
    · refine .inr ⟨h0.1, h0.2.1, fun n => ?_⟩
      rcases h n with hn | hn
      · exact absurd hn.1 h0.1
      · exact hn.2.2
  · simp only [hk, if_false] at h ⊢; exact h 0

theorem alikeField_all {f : FieldDesc} {v w : Val} (h : ∀ n, AlikeField (p n) f v w) : AlikeField (fun t v w => ∀ n, p n t v w) f v w := by
  unfold AlikeField at h ⊢
  cases hm : f.map with
  | some md =>
    simp only [hm] at h ⊢
    exact (forall₂_all' h).imp fun _ _ h => ⟨(h 0).1, alikeElem_all fun n => (h n).2⟩
  | none =>
    simp only [hm] at h ⊢
    by_cases hc : f.card = .repeated
    · simp only [hc, if_true] at h ⊢
      exact (forall₂_all' h).imp fun _ _ h => alikeElem_all h
    · simp only [hc, if_false] at h ⊢
      exact ⟨(h 0).1, alikeElem_all fun n => (h n).2⟩

theorem alikeOneof_all {d : MsgDesc} {slot : Nat} {v w : Val} (h : ∀ n, AlikeOneof (p n) d slot v w) :
    AlikeOneof (fun t v w => ∀ n, p n t v w) d slot v w := by
  unfold AlikeOneof at h ⊢
  split
  · obtain ⟨h1, f, h2, h3⟩ := h 0
    refine ⟨h1, f, h2, alikeElem_all fun n => ?_⟩
    obtain ⟨_, g, h4, h5⟩ := h n
    rw [h2] at h4; cases h4; exact h5
  · rename_i hn
    have := h 0
    split at this
    · exact (hn _ _ _ _ rfl rfl).elim
    · exact this

theorem alikeMsg_all {d : MsgDesc} {v w : Val} (h : ∀ n, AlikeMsg (p n) d v w) : AlikeMsg (fun t v w => ∀ n, p n t v w) d v w := by
  unfold AlikeMsg at h ⊢
  cases v <;> cases w <;> simp only at h ⊢ <;> first | exact h 0 | skip
  refine ⟨fun f hf => ?_, (h 0).2⟩
  by_cases ho : f.oneof = true
  · rw [if_pos ho]; exact alikeOneof_all fun n => by have := (h n).1 f hf; rwa [if_pos ho] at this
  · rw [if_neg ho]; exact alikeField_all fun n => by have := (h n).1 f hf; rwa [if_neg ho] at this

theorem subAlike_all {t : Nat} {v w : Val} (h : ∀ n, subAlike S R (p n) t v w) : subAlike S R (fun t v w => ∀ n, p n t v w) t v w := by
  unfold subAlike at h ⊢
  cases hf : (S.msg t).foreign with
  | true => simp only [hf, if_true] at h ⊢; exact h 0
  | false => simp only [hf, Bool.false_eq_true, if_false] at h ⊢; exact h

end inter

/-- Unfolded once. -/
theorem alike_iff {S : Schema} {R : Runtime} {t : Nat} {v w : Val} : Alike S R t v w ↔ AlikeMsg (subAlike S R (Alike S R)) (S.msg t) v w := by
  constructor
  · intro h
    exact alikeMsg_mono (fun _ _ _ h => subAlike_all h) (alikeMsg_all fun n => h (n + 1))
  · intro h n
    cases n with
    | zero => trivial
    | succ n => exact alikeMsg_mono (fun t v w h => subAlike_mono (fun _ _ _ h => h n) h) h

theorem alike_msg {S : Schema} {R : Runtime} {t : Nat} {s s' : List Val} {u u' e e' : Bytes} :
    Alike S R t (.msg s u e) (.msg s' u' e') ↔
      (∀ f ∈ (S.msg t).fields, if f.oneof then AlikeOneof (subAlike S R (Alike S R)) (S.msg t) f.slot (slotOf s f) (slotOf s' f)
        else AlikeField (subAlike S R (Alike S R)) f (slotOf s f) (slotOf s' f)) ∧
      ((S.msg t).keepUnknown = true → u = u') := by
  rw [alike_iff]; rfl

theorem alike_cases {S : Schema} {R : Runtime} {t : Nat} {v w : Val} (h : Alike S R t v w) :
    (∃ s u e s' u' e', v = .msg s u e ∧ w = .msg s' u' e') ∨ (v = w ∧ ∀ s u e, v ≠ .msg s u e) := by
  rw [alike_iff] at h
  unfold AlikeMsg at h
  cases v <;> cases w <;> simp_all

theorem forall₂_map_eq {α β : Type} {r : α → α → Prop} {g g' : α → β} (h : ∀ a b, r a b → g a = g' b) : ∀ {l l' : List α}, List.Forall₂ r l l' → l.map g = l'.map g'
  | _, _, .nil => rfl
  | _, _, .cons h1 t => by rw [List.map_cons, List.map_cons, h _ _ h1, forall₂_map_eq h t]

/-! ## Encoding -/

section encode
variable {E : Env} {p : SubSame} {r r' : Nat → Val → Option Bytes} (hr : ∀ t v w, (E.S.msg t).foreign = false → p t v w → r t v = r' t w)
  (hnil : ∀ t, r t .nil = r' t .nil)
include hr hnil

theorem record_alike (num : Nat) {k : Kind} {t : Nat} {v w : Val} (h : AlikeElem (subAlike E.S E.R p) k t v w) :
    record E r num k t v = record E r' num k t w := by
  unfold AlikeElem at h
  have hsub : (k = .message ∨ k = .group) → Spec.sub E r t v = Spec.sub E r' t w := by
    intro hk
    rw [if_pos hk] at h
    rcases h with ⟨rfl, rfl⟩ | ⟨h1, h2, h3⟩
    · unfold Spec.sub; rw [hnil]
    · unfold subAlike at h3
      unfold Spec.sub
      cases hf : (E.S.msg t).foreign with
      | true => simp only [hf, if_true] at h3 ⊢; exact h3.2.1
      | false => simp only [hf, Bool.false_eq_true, if_false] at h3 ⊢; exact hr _ _ _ hf h3
  unfold record
  split
  · rw [hsub (.inl rfl)]
  · rw [hsub (.inr rfl)]
  · rename_i hk1 hk2
    rw [if_neg (by rintro (h | h); exacts [hk1 h, hk2 h])] at h
    split at h
    · rename_i hb
      subst hb
      have : scalar .bytes v = scalar .bytes w := by unfold scalar; simp only [wireType]; simp [h]
      rw [this]
    · rw [h]

theorem field_alike {d : MsgDesc} {f : FieldDesc} (ff : FieldFacts d f) {v w : Val} (h : AlikeField (subAlike E.S E.R p) f v w) :
    field E r f v = field E r' f w := by
  unfold AlikeField at h
  unfold field
  cases hm : f.map with
  | some md =>
    rw [hm] at h
    simp only at h ⊢
    congr 1
    rw [List.map_reverse, List.map_reverse]
    congr 1
    refine forall₂_map_eq (fun a b hab => ?_) h
    unfold entry
    have hk := (ff.map md hm).2.2.1
    have : record E r 1 md.key 0 a.1.toVal = record E r' 1 md.key 0 b.1.toVal := by
      rw [hab.1]; unfold record; cases hkk : md.key <;> rw [hkk] at hk <;> simp_all [mapKeyKind]
    rw [this, record_alike hr hnil 2 hab.2]
  | none =>
    rw [hm] at h
    simp only at h ⊢
    by_cases hc : f.card = .repeated
    · rw [if_pos hc] at h
      simp only [hc, if_true]
      split
      · rename_i hp
        have hk := (ff.packed hp).2.2
        have hv : v.elems = w.elems := by
          have : List.Forall₂ Eq v.elems w.elems := by
            refine h.imp fun a b hab => ?_
            unfold AlikeElem at hab
            rw [if_neg, if_neg] at hab
            · exact hab
            · rintro hk'; rw [hk'] at hk; cases hk
            · rintro (hk' | hk') <;> rw [hk'] at hk <;> cases hk
          rwa [List.forall₂_eq_eq_eq] at this
        rw [hv]
      · congr 1
        exact forall₂_map_eq (fun a b hab => record_alike hr hnil _ hab) h
    · rw [if_neg hc] at h
      simp only [hc, if_false]
      split
      · rename_i hp
        have hnn : v = .nil ↔ w = .nil := by
          cases hpp : f.presence with
          | true => exact h.1 hpp
          | false =>
            simp only [hpp, Bool.false_or] at hp
            have := ff.singMsg hc hp
            rw [hpp] at this; cases this
        simp only [hnn, record_alike hr hnil _ h.2]
      · rename_i hp
        simp only [Bool.or_eq_true, not_or, Bool.not_eq_true] at hp
        have hk : ¬ (f.kind = .message ∨ f.kind = .group) := by
          have := hp.2; unfold FieldDesc.hasMessage at this; simpa using this
        have hz : isZeroVal f.kind v = isZeroVal f.kind w := by
          have := h.2
          unfold AlikeElem at this
          rw [if_neg hk] at this
          split at this
          · rename_i hb; rw [hb]; simp [isZeroVal, this]
          · rw [this]
        rw [hz, record_alike hr hnil _ h.2]

theorem oneof_alike {d : MsgDesc} {slot : Nat} {v w : Val} (h : AlikeOneof (subAlike E.S E.R p) d slot v w) :
    oneof E r d slot v = oneof E r' d slot w ∧ ∀ f ∈ d.fields, f.slot = slot → f.oneof = true →
      (match (generalizing := false) v with
        | .wrap n x => if n = f.num then record E r f.num f.kind f.msg x else some []
        | _ => some []) =
      (match (generalizing := false) w with
        | .wrap n x => if n = f.num then record E r' f.num f.kind f.msg x else some []
        | _ => some []) ∨ ¬ MsgFacts d := by
  unfold AlikeOneof at h
  split at h
  · obtain ⟨rfl, g, h1, h2⟩ := h
    constructor
    · unfold oneof
      simp only [h1]
      exact record_alike hr hnil _ h2
    · intro f hf hs ho
      by_cases hd : MsgFacts d
      · left
        simp only
        split
        · rename_i he
          subst he
          have := member_of hd hf ho
          rw [hs, h1] at this
          cases this
          exact record_alike hr hnil _ h2
        · rfl
      · exact .inr hd
  · rename_i hn
    subst h
    cases v with
    | wrap n x => exact (hn _ _ _ _ rfl rfl).elim
    | _ => exact ⟨rfl, fun _ _ _ _ => .inl rfl⟩

end encode

theorem encodeN_alike {E : Env} (hS : schemaOK E.S = true) (strict : Bool) : ∀ (n t : Nat) (v w : Val), Alike E.S E.R t v w → encodeN E strict n t v = encodeN E strict n t w := by
  intro n
  induction n with
  | zero => intro t v w _; rfl
  | succ n ih =>
    intro t v w h
    rcases alike_cases h with ⟨s, u, e, s', u', e', rfl, rfl⟩ | ⟨rfl, _⟩
    · rw [alike_msg] at h
      obtain ⟨h1, h2⟩ := h
      have hd := schemaOK_msg hS t
      have hr : ∀ t v w, (E.S.msg t).foreign = false → Alike E.S E.R t v w → encodeN E strict n t v = encodeN E strict n t w := fun t v w _ => ih t v w
      simp only [encodeN]
      have hu : (if (E.S.msg t).keepUnknown = true then u else []) = (if (E.S.msg t).keepUnknown = true then u' else []) := by
        split
        · exact h2 (by assumption)
        · rfl
      have hb : bodyStrict E (encodeN E strict n) (E.S.msg t) s = bodyStrict E (encodeN E strict n) (E.S.msg t) s' ∧
          bodyDefault E (encodeN E strict n) (E.S.msg t) s = bodyDefault E (encodeN E strict n) (E.S.msg t) s' := by
        constructor
        · unfold bodyStrict
          congr 1
          apply List.map_congr_left
          intro f hf
          have hf := (ascending_perm _).mem_iff.1 hf
          have := h1 f hf
          split
          · rename_i ho
            rw [if_pos ho] at this
            exact ((oneof_alike hr (fun _ => rfl) this).2 f hf rfl ho).resolve_right (fun h => h hd)
          · rename_i ho
            rw [if_neg ho] at this
            exact field_alike hr (fun _ => rfl) (hd.fields f hf) this
        · unfold bodyDefault
          congr 2
          · apply List.map_congr_left
            intro f hf
            simp only [List.mem_filter, Bool.not_eq_true'] at hf
            have hm := (ascending_perm _).mem_iff.1 hf.1
            have := h1 f hm
            rw [if_neg (by simp [hf.2])] at this
            exact field_alike hr (fun _ => rfl) (hd.fields f hm) this
          · apply List.map_congr_left
            intro f hf
            simp only [oneofLast, List.mem_filter, Bool.and_eq_true] at hf
            have hm := (ascending_perm _).mem_iff.1 hf.1
            have := h1 f hm
            rw [if_pos hf.2.1] at this
            exact (oneof_alike hr (fun _ => rfl) this).1
      rw [hb.1, hb.2, hu]
    · rfl

/-- Alike messages encode to the same bytes. -/
theorem encode_alike {E : Env} (hS : schemaOK E.S = true) (strict : Bool) {t : Nat} {v w : Val} (h : Alike E.S E.R t v w) : encode E strict t v = encode E strict t w := by
  rw [← encodeN_eq E strict (n := max v.depth w.depth) (by omega), ← encodeN_eq E strict (v := w) (n := max v.depth w.depth) (by omega)]
  exact encodeN_alike hS strict _ _ _ _ h

/-! ## Size -/

section size
variable {E : Env} {p : SubSame} {r r' : Nat → Val → Nat} (hr : ∀ t v w, (E.S.msg t).foreign = false → p t v w → r t v = r' t w)
  (hnil : ∀ t, r t .nil = r' t .nil)
include hr hnil

theorem messageSize_alike {k : Kind} (hk : k = .message ∨ k = .group) {t : Nat} {v w : Val} (h : AlikeElem (subAlike E.S E.R p) k t v w) :
    messageSize E r t v = messageSize E r' t w ∧ v.isNil = w.isNil := by
  unfold AlikeElem at h
  rw [if_pos hk] at h
  rcases h with ⟨rfl, rfl⟩ | ⟨h1, h2, h3⟩
  · unfold messageSize; rw [hnil]; exact ⟨rfl, rfl⟩
  · constructor
    · unfold subAlike at h3
      unfold messageSize
      cases hf : (E.S.msg t).foreign with
      | true => simp only [hf, if_true] at h3 ⊢; exact h3.2.2
      | false => simp only [hf, Bool.false_eq_true, if_false] at h3 ⊢; exact hr _ _ _ hf h3
    · have a : v.isNil = false := by simpa [← isNil_iff] using h1
      have b : w.isNil = false := by simpa [← isNil_iff] using h2
      rw [a, b]

omit hr hnil in
theorem sizeScalar_alike {k : Kind} (hk : ¬ (k = .message ∨ k = .group)) {t : Nat} {v w : Val} {p : SubSame} (h : AlikeElem p k t v w) :
    sizeScalar k v = sizeScalar k w ∧ isZeroVal k v = isZeroVal k w := by
  unfold AlikeElem at h
  rw [if_neg hk] at h
  split at h
  · rename_i hb; subst hb; simp [sizeScalar, isZeroVal, h]
  · rw [h]; exact ⟨rfl, rfl⟩

theorem sizeFieldBody_alike {d : MsgDesc} (o : Bool) {f : FieldDesc} (ff : FieldFacts d f) {v w : Val}
    (h : (o = true ∧ AlikeElem (subAlike E.S E.R p) f.kind f.msg v w ∧ f.card ≠ .repeated) ∨ (o = false ∧ AlikeField (subAlike E.S E.R p) f v w)) :
    sizeFieldBody E r o f v = sizeFieldBody E r' o f w := by
  have hrep : f.card = .repeated → f.map = none → List.Forall₂ (AlikeElem (subAlike E.S E.R p) f.kind f.msg) v.elems w.elems := by
    intro hc hm
    rcases h with ⟨_, _, h⟩ | ⟨_, h⟩
    · exact absurd hc h
    · unfold AlikeField at h; rw [hm] at h; simpa only [hc, if_true] using h
  have hsing : f.card ≠ .repeated → AlikeElem (subAlike E.S E.R p) f.kind f.msg v w := by
    intro hc
    rcases h with ⟨_, h, _⟩ | ⟨_, h⟩
    · exact h
    · have hm : f.map = none := by
        cases hm : f.map with
        | none => rfl
        | some md => exact absurd (ff.map md hm).1 hc
      unfold AlikeField at h; rw [hm] at h; simp only [hc, if_false] at h; exact h.2
  have hmap : f.hasMessage = false → f.map = none := by
    intro hh
    cases hm : f.map with
    | none => rfl
    | some md => have := (ff.map md hm).2.1; simp [this, FieldDesc.hasMessage] at hh
  have hp : f.packed = true → f.card = .repeated := fun h => (ff.packed h).1
  by_cases hk : f.kind = .message ∨ f.kind = .group
  · unfold sizeFieldBody
    rcases hk with hk | hk
    · simp only [hk]
      cases hm : f.map with
      | some md =>
        rcases h with ⟨_, _, h⟩ | ⟨_, h⟩
        · exact absurd (ff.map md hm).1 h
        · unfold AlikeField at h; rw [hm] at h
          simp only at h ⊢
          congr 1
          refine forall₂_map_eq (fun a b hab => ?_) h
          have hme : mapEntrySize E r md a = mapEntrySize E r' md b := by
            unfold mapEntrySize
            rw [hab.1]
            split
            · rename_i hv
              rw [hv] at hab
              have := messageSize_alike hr hnil (.inl rfl) hab.2
              simp only [this.1, this.2]
            · rename_i hv
              simp only
              congr 2
              by_cases hvk : md.val = .message ∨ md.val = .group
              · rcases hvk with hvk | hvk
                · exact absurd hvk hv
                · exact absurd hvk (ff.map md hm).2.2.2
              · exact (sizeScalar_alike hvk hab.2).1
          rw [hme]
      | none =>
        simp only
        by_cases hc : f.card = .repeated
        · simp only [hc, beq_self_eq_true, if_true]
          congr 1
          refine forall₂_map_eq (fun a b hab => ?_) (hrep hc hm)
          rw [hk] at hab
          rw [(messageSize_alike hr hnil (.inl rfl) hab).1]
        · have hc' : (f.card == .repeated) = false := by simpa using hc
          have := hsing hc
          rw [hk] at this
          simp only [hc', Bool.false_eq_true, if_false, (messageSize_alike hr hnil (.inl rfl) this).1]
    · simp only [hk]
      have hc : f.card ≠ .repeated := fun hc => (ff.rep hc).2.1 hk
      have := hsing hc
      rw [hk] at this
      rw [(messageSize_alike hr hnil (.inr rfl) this).1]
  · have hm := hmap (by unfold FieldDesc.hasMessage; simpa using hk)
    by_cases hc : f.card = .repeated
    · have hl := hrep hc hm
      have hlen : v.elems.length = w.elems.length := hl.length_eq
      have hsum : v.elems.map (sizeScalar f.kind) = w.elems.map (sizeScalar f.kind) :=
        forall₂_map_eq (r := AlikeElem (subAlike E.S E.R p) f.kind f.msg) (fun a b hab => (sizeScalar_alike hk hab).1) hl
      have hsum' : ∀ q : Nat, (v.elems.map fun e => q + sizeScalar f.kind e) = w.elems.map fun e => q + sizeScalar f.kind e := fun q =>
        forall₂_map_eq (fun a b hab => by rw [(sizeScalar_alike hk hab).1]) hl
      unfold sizeFieldBody
      simp only [hc, hlen, hsum, beq_self_eq_true, if_true, hsum']
      cases hkk : f.kind <;> simp only <;> simp_all
    · have hc' : (f.card == .repeated) = false := by simpa using hc
      have hpk : f.packed = false := by
        cases hpp : f.packed with
        | false => rfl
        | true => exact absurd (hp hpp) hc
      have hs := sizeScalar_alike hk (hsing hc)
      unfold sizeFieldBody
      simp only [hc', hpk, Bool.false_eq_true, if_false, hs.1, hs.2]
      cases hkk : f.kind <;> simp only <;> simp_all

theorem sizeField_alike {d : MsgDesc} (o : Bool) {f : FieldDesc} (ff : FieldFacts d f) {v w : Val}
    (h : (o = true ∧ AlikeElem (subAlike E.S E.R p) f.kind f.msg v w ∧ f.card ≠ .repeated) ∨ (o = false ∧ AlikeField (subAlike E.S E.R p) f v w)) :
    sizeField E r o f v = sizeField E r' o f w := by
  have hb := sizeFieldBody_alike hr hnil o ff h
  unfold sizeField
  simp only [hb]
  by_cases hc : f.card = .repeated
  · have hl : f.len v = f.len w := by
      rcases h with ⟨_, _, h⟩ | ⟨_, h⟩
      · exact absurd hc h
      · unfold AlikeField at h
        unfold FieldDesc.len
        cases hm : f.map with
        | some md => rw [hm] at h; simpa using h.length_eq
        | none => rw [hm] at h; simp only [hc, if_true] at h; simpa using h.length_eq
    simp only [hc, beq_self_eq_true, if_true, hl]
  · have hc' : (f.card == .repeated) = false := by simpa using hc
    simp only [hc', Bool.false_eq_true, if_false]
    split
    · rename_i hn
      have : v.isNil = w.isNil := by
        rcases h with ⟨ho, h, _⟩ | ⟨ho, h⟩
        · simp only [ho, Bool.not_true, Bool.false_and, Bool.or_false] at hn
          have hk : f.kind = .message ∨ f.kind = .group := by unfold FieldDesc.hasMessage at hn; simpa using hn
          exact (messageSize_alike hr hnil hk h).2
        · have hm : f.map = none := by
            cases hm : f.map with
            | none => rfl
            | some md => exact absurd (ff.map md hm).1 hc
          unfold AlikeField at h; rw [hm] at h; simp only [hc, if_false] at h
          have hp : f.presence = true := by
            simp only [ho, Bool.not_false, Bool.true_and, Bool.or_eq_true] at hn
            rcases hn with hn | hn
            · exact ff.singMsg hc hn
            · exact hn
          have := h.1 hp
          rw [Bool.eq_iff_iff, isNil_iff, isNil_iff]; exact this
      rw [this]
    · rfl

theorem sizeFields_alike {d : MsgDesc} (hd : MsgFacts d) {s s' : List Val}
    (h : ∀ f ∈ d.fields, if f.oneof then AlikeOneof (subAlike E.S E.R p) d f.slot (slotOf s f) (slotOf s' f) else AlikeField (subAlike E.S E.R p) f (slotOf s f) (slotOf s' f)) :
    ∀ (fs : List FieldDesc) (seen : List Nat), (∀ f ∈ fs, f ∈ d.fields) → sizeFields E r d s seen fs = sizeFields E r' d s' seen fs := by
  intro fs
  induction fs with
  | nil => intro _ _; rfl
  | cons f fs ih =>
    intro seen hfs
    have hf := hfs f (by simp)
    have hrest : ∀ g ∈ fs, g ∈ d.fields := fun g hg => hfs g (by simp [hg])
    have := h f hf
    unfold sizeFields
    split
    · rename_i ho
      rw [if_pos ho] at this
      split
      · exact ih _ hrest
      · rw [ih _ hrest]
        congr 1
        unfold AlikeOneof at this
        split at this
        · rename_i heq1 heq2
          obtain ⟨rfl, g, h1, h2⟩ := this
          rw [heq1, heq2]
          unfold sizeOneof
          simp only [h1]
          have hg := member_some h1
          have hgo := (hd.fields g hg.1).oneof hg.2.1
          exact sizeField_alike hr hnil true (hd.fields g hg.1) (.inl ⟨rfl, h2, by rw [hgo.1]; simp⟩)
        · rename_i hn
          rw [← this]
          unfold sizeOneof
          cases hw : slotOf s f with
          | wrap n x => exact (hn _ _ _ _ hw (this ▸ hw)).elim
          | _ => rfl
    · rename_i ho
      rw [if_neg ho] at this
      rw [ih _ hrest, sizeField_alike hr hnil false (hd.fields f hf) (.inr ⟨rfl, this⟩)]

end size

theorem sizeN_alike {E : Env} (hS : schemaOK E.S = true) : ∀ (n t : Nat) (v w : Val), Alike E.S E.R t v w → sizeN E n t v = sizeN E n t w := by
  intro n
  induction n with
  | zero => intro t v w _; rfl
  | succ n ih =>
    intro t v w h
    rcases alike_cases h with ⟨s, u, e, s', u', e', rfl, rfl⟩ | ⟨rfl, _⟩
    · rw [alike_msg] at h
      simp only [sizeN]
      rw [sizeFields_alike (fun t v w _ => ih t v w) (fun _ => rfl) (schemaOK_msg hS t) h.1 _ _ (fun _ h => h)]
      congr 1
      split
      · rw [h.2 (by assumption)]
      · rfl
    · rfl

/-- Alike messages have the same size. -/
theorem sizeVT_alike {E : Env} (hS : schemaOK E.S = true) {t : Nat} {v w : Val} (h : Alike E.S E.R t v w) : sizeVT E t v = sizeVT E t w := by
  rw [← sizeN_eq E (n := max v.depth w.depth) (by omega), ← sizeN_eq E (v := w) (n := max v.depth w.depth) (by omega)]
  exact sizeN_alike hS _ _ _ _ h

/-! ## Content -/

theorem forall₂_both {α β : Type} {r : α → α → Prop} {q : α → β → Prop} {p : α → β → Prop} (h : ∀ a b, r a a → q a b → p a b) :
    ∀ {l : List α} {l' : List β}, List.Forall₂ r l l → List.Forall₂ q l l' → List.Forall₂ p l l'
  | _, _, .nil, .nil => .nil
  | _, _, .cons h1 t1, .cons h2 t2 => .cons (h _ _ h1 h2) (forall₂_both h t1 t2)

theorem lookup_forall₂ {r : Val → Val → Prop} (k : Key) : ∀ {es es' : List (Key × Val)}, List.Forall₂ (fun e e' => e.1 = e'.1 ∧ r e.2 e'.2) es es' →
    (lookup es k = none ∧ lookup es' k = none) ∨ ∃ x y, lookup es k = some x ∧ lookup es' k = some y ∧ r x y
  | _, _, .nil => .inl ⟨rfl, rfl⟩
  | (k1, x) :: es, (k2, y) :: es', .cons h t => by
    have hk : k1 = k2 := h.1
    subst hk
    rcases lookup_forall₂ k t with ⟨h1, h2⟩ | ⟨x', y', h1, h2, h3⟩
    · by_cases hk : k1 = k
      · subst hk; exact .inr ⟨x, y, by simp [lookup], by simp [lookup], h.2⟩
      · refine .inl ⟨?_, ?_⟩
        · simpa [lookup, hk] using h1
        · simpa [lookup, hk] using h2
    · by_cases hk : k1 = k
      · subst hk; exact .inr ⟨x, y, by simp [lookup], by simp [lookup], h.2⟩
      · exact .inr ⟨x', y', by simpa [lookup, hk] using h1, by simpa [lookup, hk] using h2, h3⟩

section content
variable {S : Schema} {R : Runtime} {p q : SubSame} (h : ∀ t v w, p t v w → q t v v → q t v w)
include h

theorem subSame_of_alike {t : Nat} {v w : Val} (ha : subAlike S R p t v w) (hs : subSame S R q t v v) : subSame S R q t v w := by
  unfold subAlike at ha
  unfold subSame at hs ⊢
  cases hf : (S.msg t).foreign with
  | true => simp only [hf, if_true] at ha ⊢; exact ha.1
  | false => simp only [hf, Bool.false_eq_true, if_false] at ha hs ⊢; exact h _ _ _ ha hs

theorem sameElem_of_alike {k : Kind} {t : Nat} {v w : Val} (ha : AlikeElem (subAlike S R p) k t v w) (hs : SameElem S (subSame S R q) k t v v) :
    SameElem S (subSame S R q) k t v w := by
  unfold AlikeElem at ha
  unfold SameElem at hs ⊢
  split at ha
  · rename_i hk
    simp only [hk, if_true] at hs ⊢
    rcases ha with ⟨rfl, rfl⟩ | ⟨h1, h2, h3⟩
    · exact hs
    · unfold orEmpty at hs ⊢
      simp only [h1, h2, if_false] at hs ⊢
      exact subSame_of_alike h h3 hs
  · rename_i hk
    simp only [hk, if_false] at hs ⊢
    split at ha
    · rename_i hb; subst hb; simpa [SameScalar] using ha
    · rw [← ha]; exact hs

theorem sameField_of_alike {d : MsgDesc} {f : FieldDesc} (ff : FieldFacts d f) {v w : Val} (ha : AlikeField (subAlike S R p) f v w) (hs : SameField S (subSame S R q) f v v) :
    SameField S (subSame S R q) f v w := by
  unfold AlikeField at ha
  unfold SameField at hs ⊢
  cases hm : f.map with
  | some md =>
    rw [hm] at ha hs
    simp only at ha hs ⊢
    intro k
    have := hs k
    rcases lookup_forall₂ k ha with ⟨h1, h2⟩ | ⟨x, y, h1, h2, h3⟩
    · rw [h1, h2]; trivial
    · rw [h1] at this
      rw [h1, h2]
      exact sameElem_of_alike h h3 this
  | none =>
    rw [hm] at ha hs
    simp only at ha hs ⊢
    by_cases hc : f.card = .repeated
    · simp only [hc, if_true] at ha hs ⊢
      exact forall₂_both (fun a b hs ha => sameElem_of_alike h ha hs) hs ha
    · simp only [hc, if_false] at ha hs ⊢
      by_cases hp : f.presence = true
      · simp only [hp, if_true] at hs ⊢
        refine ⟨ha.1 hp, fun hv => ?_⟩
        have := hs.2 hv
        have ha := ha.2
        unfold AlikeElem at ha
        split at ha
        · rename_i hk
          simp only [hk, if_true] at this ⊢
          rcases ha with ⟨rfl, rfl⟩ | ⟨h1, h2, h3⟩
          · exact absurd rfl hv
          · exact subSame_of_alike h h3 this
        · rename_i hk
          simp only [hk, if_false] at this ⊢
          split at ha
          · rename_i hb; rw [hb]; simpa [SameScalar] using ha
          · rw [← ha]; exact this
      · simp only [hp] at hs ⊢
        have ha := ha.2
        unfold AlikeElem at ha
        split at ha
        · rename_i hk
          exact absurd (ff.singMsg hc (by unfold FieldDesc.hasMessage; simpa using hk)) hp
        · split at ha
          · rename_i hb; rw [hb]; simpa [SameScalar] using ha
          · rw [← ha]; exact hs

theorem sameOneof_of_alike {d : MsgDesc} {slot : Nat} {v w : Val} (ha : AlikeOneof (subAlike S R p) d slot v w)
    (hs : SameOneof S (subSame S R q) d slot v v) : SameOneof S (subSame S R q) d slot v w := by
  unfold AlikeOneof at ha
  split at ha
  · obtain ⟨rfl, f, h1, h2⟩ := ha
    obtain ⟨_, g, h3, h4⟩ := hs
    rw [h1] at h3
    cases h3
    exact ⟨rfl, f, h1, sameElem_of_alike h h2 h4⟩
  · rw [← ha]; exact hs

end content

theorem sameN_of_alike {S : Schema} {R : Runtime} (hS : schemaOK S = true) : ∀ (n t : Nat) (v w : Val), Alike S R t v w → SameN S R n t v v → SameN S R n t v w := by
  intro n
  induction n with
  | zero => intros; trivial
  | succ n ih =>
    intro t v w ha hs
    rcases alike_cases ha with ⟨s, u, e, s', u', e', rfl, rfl⟩ | ⟨rfl, _⟩
    · rw [alike_msg] at ha
      refine ⟨fun f hf => ?_, ha.2⟩
      have h1 := ha.1 f hf
      have h2 := hs.1 f hf
      split
      · rename_i ho
        rw [if_pos ho] at h1 h2
        exact sameOneof_of_alike ih h1 h2
      · rename_i ho
        rw [if_neg ho] at h1 h2
        exact sameField_of_alike ih ((schemaOK_msg hS t).fields f hf) h1 h2
    · exact hs

/-- Alike messages have the same content if the message has the same content as itself (no NaN). -/
theorem same_of_alike {S : Schema} {R : Runtime} (hS : schemaOK S = true) {t : Nat} {v w : Val} (ha : Alike S R t v w) (hs : Same S R t v v) : Same S R t v w :=
  fun n => sameN_of_alike hS n t v w ha (hs n)

/-! ## Memory kept for reuse does not show -/

section reuse
variable {S : Schema} {R : Runtime} {p : SubReuse} {q : SubSame} (h : ∀ t v w, p t v w → subAlike S R q t v w)
include h

theorem alikeElem_of_reuse {k : Kind} {t : Nat} {v w : Val} (hs : ReuseElem p k t v w) : AlikeElem (subAlike S R q) k t v w := by
  unfold ReuseElem at hs
  unfold AlikeElem
  split at hs
  · rw [if_pos (by assumption)]; exact hs.imp id fun ⟨a, b, c⟩ => ⟨a, b, h _ _ _ c⟩
  · rw [if_neg (by assumption)]; subst hs; simp

theorem alikeField_of_reuse {d : MsgDesc} {f : FieldDesc} (hb : d.pooled = true → f.kind = .bytes → f.card ≠ .repeated → f.presence = false) {v w : Val}
    (hs : ReuseField S p d f v w) : AlikeField (subAlike S R q) f v w := by
  unfold ReuseField at hs
  unfold AlikeField
  cases hm : f.map with
  | some md =>
    rw [hm] at hs
    rcases hs with ⟨rfl, rfl⟩ | ⟨es, es', rfl, rfl, he⟩
    · exact .nil
    · exact List.Forall₂.imp (fun _ _ hh => ⟨hh.1, alikeElem_of_reuse h hh.2⟩) he
  | none =>
    rw [hm] at hs
    simp only at hs ⊢
    by_cases hc : f.card = .repeated
    · simp only [hc, if_true] at hs ⊢
      exact hs.2.2.1.imp fun _ _ => alikeElem_of_reuse h
    · simp only [hc, if_false] at hs ⊢
      by_cases hk : f.kind = .bytes
      · simp only [hk, if_true] at hs
        have : ∀ v w : Val, v.bytes = w.bytes → AlikeElem (subAlike S R q) f.kind f.msg v w := by
          intro v w e; unfold AlikeElem; rw [hk]; simpa using e
        rcases hs with rfl | ⟨h1, rfl, rfl⟩
        · exact ⟨fun _ => Iff.rfl, this _ _ rfl⟩
        · exact ⟨fun hp => (by rw [hb h1 hk hc] at hp; cases hp), this _ _ rfl⟩
      · simp only [hk, if_false] at hs
        refine ⟨fun _ => ?_, alikeElem_of_reuse h hs⟩
        unfold ReuseElem at hs
        split at hs
        · rcases hs with ⟨rfl, rfl⟩ | ⟨h1, h2, _⟩
          · exact Iff.rfl
          · exact ⟨fun h => absurd h h1, fun h => absurd h h2⟩
        · rw [hs]

theorem alikeOneof_of_reuse {d : MsgDesc} {slot : Nat} {v w : Val} (hs : ReuseOneof p d slot v w) : AlikeOneof (subAlike S R q) d slot v w := by
  unfold ReuseOneof at hs
  split at hs
  · obtain ⟨h1, f, h2, h3⟩ := hs; exact ⟨h1, f, h2, alikeElem_of_reuse h h3⟩
  · rename_i hn
    subst hs
    unfold AlikeOneof
    split
    · exact (hn _ _ _ _ rfl rfl).elim
    · rfl

end reuse

/-- Memory kept for reuse does not show. -/
theorem alike_of_reuse {S : Schema} {R : Runtime} (hR : ∀ t v, R.equal t v v = true) (hb : noKeptBytes S) {t : Nat} {v w : Val}
    (hf : (S.msg t).foreign = false) (h : Reuse S t v w) : Alike S R t v w := by
  intro n
  induction n generalizing t v w with
  | zero => trivial
  | succ n ih =>
    have hsub : ∀ t v w, Reuse S t v w → subAlike S R (AlikeN S R n) t v w := by
      intro t v w hr
      unfold subAlike
      split
      · rename_i hf
        rw [reuse_iff] at hr
        unfold ReuseMsg at hr
        rw [if_pos hf] at hr
        subst hr
        exact ⟨hR _ _, rfl, rfl⟩
      · rename_i hf; exact ih (by simpa using hf) hr
    show AlikeMsg _ _ _ _
    rcases reuse_cases hf h with ⟨s, u, e, s', u', e', rfl, rfl⟩ | ⟨rfl, hn⟩
    · rw [reuse_msg hf] at h
      refine ⟨fun f hm => ?_, fun _ => h.1⟩
      have := h.2.2.2.2 f hm
      split
      · rename_i ho
        rw [if_pos ho] at this
        exact alikeOneof_of_reuse hsub this
      · rename_i ho
        rw [if_neg ho] at this
        exact alikeField_of_reuse hsub (fun h1 h2 h3 => hb t h1 f hm h2 h3 (by simpa using ho)) this
    · unfold AlikeMsg
      cases v with
      | msg s u e => exact absurd rfl (hn _ _ _)
      | _ => rfl

end Vtp
