import Verif.Lemmas.Alike
/-! # Alike messages marshal alike, whether or not they are typed -/

namespace Vtp
open Spec Writer

theorem each_forall₂ {α : Type} {r : α → α → Prop} {f g : α → Writer} (h : ∀ a b, r a b → f a = g b) : ∀ {l l' : List α}, List.Forall₂ r l l' → each f l = each g l'
  | _, _, .nil => rfl
  | _, _, .cons h1 h2 => by simp only [each]; rw [h _ _ h1, each_forall₂ h h2]

section
variable {E : Env} {p : SubSame} {r r' : Nat → Val → Bytes → Res (Bytes × Nat)} (hr : ∀ t v w, (E.S.msg t).foreign = false → p t v w → r t v = r' t w)
  (hnil : ∀ t, r t .nil = r' t .nil)
include hr hnil

theorem marshalSub_alike {k : Kind} (hk : k = .message ∨ k = .group) {t : Nat} {v w : Val} (h : AlikeElem (subAlike E.S E.R p) k t v w) :
    marshalSub E r t v = marshalSub E r' t w ∧ v.isNil = w.isNil := by
  unfold AlikeElem at h
  rw [if_pos hk] at h
  rcases h with ⟨rfl, rfl⟩ | ⟨h1, h2, h3⟩
  · unfold marshalSub; rw [hnil]; exact ⟨rfl, rfl⟩
  · constructor
    · unfold subAlike at h3
      unfold marshalSub
      cases hf : (E.S.msg t).foreign with
      | true => simp only [hf, if_true] at h3 ⊢; rw [h3.2.1]
      | false => simp only [hf, Bool.false_eq_true, if_false] at h3 ⊢; rw [hr _ _ _ hf h3]
    · have a : v.isNil = false := by simpa [← isNil_iff] using h1
      have b : w.isNil = false := by simpa [← isNil_iff] using h2
      rw [a, b]

omit hr hnil in
theorem marshalScalar_alike {k : Kind} (hk : ¬ (k = .message ∨ k = .group)) {t : Nat} {v w : Val} {p : SubSame} (h : AlikeElem p k t v w) :
    marshalScalar k v = marshalScalar k w := by
  unfold AlikeElem at h
  rw [if_neg hk] at h
  split at h
  · rename_i hb; subst hb; simp [marshalScalar, h]
  · rw [h]

theorem marshalFieldBody_alike {d : MsgDesc} (o : Bool) {f : FieldDesc} (ff : FieldFacts d f) {v w : Val}
    (h : (o = true ∧ AlikeElem (subAlike E.S E.R p) f.kind f.msg v w ∧ f.card ≠ .repeated) ∨ (o = false ∧ AlikeField (subAlike E.S E.R p) f v w)) :
    marshalFieldBody E r o f v = marshalFieldBody E r' o f w := by
  have hrep : f.card = .repeated → f.map = none → List.Forall₂ (AlikeElem (subAlike E.S E.R p) f.kind f.msg) v.elems w.elems := by
    intro hc hm
    rcases h with ⟨_, _, h⟩ | ⟨_, h⟩
    · exact absurd hc h
    · unfold AlikeField at h; rw [hm] at h; simpa only [hc, if_true] using h
  have hsing : f.card ≠ .repeated → AlikeElem (subAlike E.S E.R p) f.kind f.msg v w := by
    intro hc
    rcases h with ⟨_, h, _⟩ | ⟨_, h⟩
    · exact h
    · have hm : f.map = none := by
        cases hm : f.map with
        | none => rfl
        | some md => exact absurd (ff.map md hm).1 hc
      unfold AlikeField at h; rw [hm] at h; simp only [hc, if_false] at h; exact h.2
  have hmap : f.hasMessage = false → f.map = none := by
    intro hh
    cases hm : f.map with
    | none => rfl
    | some md => have := (ff.map md hm).2.1; simp [this, FieldDesc.hasMessage] at hh
  have hp : f.packed = true → f.card = .repeated := fun h => (ff.packed h).1
  by_cases hk : f.kind = .message ∨ f.kind = .group
  · unfold marshalFieldBody
    rcases hk with hk | hk
    · simp only [hk]
      cases hm : f.map with
      | some md =>
        rcases h with ⟨_, _, h⟩ | ⟨_, h⟩
        · exact absurd (ff.map md hm).1 h
        · unfold AlikeField at h; rw [hm] at h
          simp only at h ⊢
          refine each_forall₂ (fun a b hab => ?_) h
          unfold marshalEntry
          rw [hab.1]
          split
          · rename_i hv
            rw [hv] at hab
            have := marshalSub_alike hr hnil (.inl rfl) hab.2
            simp only [this.1]
          · rename_i hv
            by_cases hvk : md.val = .message ∨ md.val = .group
            · rcases hvk with hvk | hvk
              · exact absurd hvk hv
              · exact absurd hvk (ff.map md hm).2.2.2
            · simp only [marshalScalar_alike hvk hab.2]
      | none =>
        simp only
        by_cases hc : f.card = .repeated
        · simp only [hc, beq_self_eq_true, if_true]
          refine each_forall₂ (r := AlikeElem (subAlike E.S E.R p) f.kind f.msg) (fun a b hab => ?_) (List.rel_reverse (hrep hc hm))
          rw [hk] at hab
          rw [(marshalSub_alike hr hnil (.inl rfl) hab).1]
        · have hc' : (f.card == .repeated) = false := by simpa using hc
          have := hsing hc
          rw [hk] at this
          simp only [hc', Bool.false_eq_true, if_false, (marshalSub_alike hr hnil (.inl rfl) this).1]
    · simp only [hk]
      have hc : f.card ≠ .repeated := fun hc => (ff.rep hc).2.1 hk
      have := hsing hc
      rw [hk] at this
      rw [(marshalSub_alike hr hnil (.inr rfl) this).1]
  · have hm := hmap (by unfold FieldDesc.hasMessage; simpa using hk)
    by_cases hb : f.kind = .bytes
    · unfold marshalFieldBody
      simp only [hb]
      by_cases hc : f.card = .repeated
      · simp only [hc, beq_self_eq_true, if_true]
        refine each_forall₂ (r := AlikeElem (subAlike E.S E.R p) f.kind f.msg) (fun a b hab => ?_) (List.rel_reverse (hrep hc hm))
        rw [hb] at hab
        rw [marshalScalar_alike (by simp) hab]
      · have hc' : (f.card == .repeated) = false := by simpa using hc
        have hs := hsing hc
        rw [hb] at hs
        simp only [hc', Bool.false_eq_true, if_false, marshalScalar_alike (by simp) hs, (sizeScalar_alike (by simp) hs).2]
    · have heq : ∀ a b, AlikeElem (subAlike E.S E.R p) f.kind f.msg a b → a = b := by
        intro a b hab
        unfold AlikeElem at hab
        rwa [if_neg hk, if_neg hb] at hab
      by_cases hc : f.card = .repeated
      · have hl : v.elems = w.elems := List.forall₂_eq_eq_eq ▸ (hrep hc hm).imp heq
        unfold marshalFieldBody
        simp only [hc, hl, beq_self_eq_true, if_true]
        cases hkk : f.kind <;> simp_all
      · rw [heq _ _ (hsing hc)]
        unfold marshalFieldBody
        cases hkk : f.kind <;> simp_all

theorem marshalField_alike {d : MsgDesc} (o : Bool) {f : FieldDesc} (ff : FieldFacts d f) {v w : Val}
    (h : (o = true ∧ AlikeElem (subAlike E.S E.R p) f.kind f.msg v w ∧ f.card ≠ .repeated) ∨ (o = false ∧ AlikeField (subAlike E.S E.R p) f v w)) :
    marshalField E r o f v = marshalField E r' o f w := by
  have hb := marshalFieldBody_alike hr hnil o ff h
  unfold marshalField
  simp only [hb]
  by_cases hc : f.card = .repeated
  · have hl : f.len v = f.len w := by
      rcases h with ⟨_, _, h⟩ | ⟨_, h⟩
      · exact absurd hc h
      · unfold AlikeField at h
        unfold FieldDesc.len
        cases hm : f.map with
        | some md => rw [hm] at h; simpa using h.length_eq
        | none => rw [hm] at h; simp only [hc, if_true] at h; simpa using h.length_eq
    simp only [hc, beq_self_eq_true, if_true, hl]
  · have hc' : (f.card == .repeated) = false := by simpa using hc
    simp only [hc', Bool.false_eq_true, if_false]
    split
    · rename_i hn
      have : v.isNil = w.isNil := by
        rcases h with ⟨ho, h, _⟩ | ⟨ho, h⟩
        · simp only [ho, Bool.not_true, Bool.false_and, Bool.or_false] at hn
          have hk : f.kind = .message ∨ f.kind = .group := by unfold FieldDesc.hasMessage at hn; simpa using hn
          exact (marshalSub_alike hr hnil hk h).2
        · have hm : f.map = none := by
            cases hm : f.map with
            | none => rfl
            | some md => exact absurd (ff.map md hm).1 hc
          unfold AlikeField at h; rw [hm] at h; simp only [hc, if_false] at h
          have hp : f.presence = true := by
            simp only [ho, Bool.not_false, Bool.true_and, Bool.or_eq_true] at hn
            rcases hn with hn | hn
            · exact ff.singMsg hc hn
            · exact hn
          have := h.1 hp
          rw [Bool.eq_iff_iff, isNil_iff, isNil_iff]; exact this
      rw [this]
    · rfl

omit hr hnil in
/-- A oneof member through its wrapper. -/
theorem oneofCases {p : SubSame} {d : MsgDesc} {slot : Nat} {v w : Val} (h : AlikeOneof p d slot v w) :
    (∃ n x y f, v = .wrap n x ∧ w = .wrap n y ∧ d.member slot n = some f ∧ AlikeElem p f.kind f.msg x y) ∨ (v = w ∧ ∀ n x, v ≠ .wrap n x) := by
  unfold AlikeOneof at h
  split at h
  · obtain ⟨rfl, f, h1, h2⟩ := h
    exact .inl ⟨_, _, _, f, rfl, rfl, h1, h2⟩
  · rename_i hn
    subst h
    refine .inr ⟨rfl, fun n x e => ?_⟩
    exact hn n x n x e e

theorem marshalOneof_alike {d : MsgDesc} (hd : MsgFacts d) {slot : Nat} {v w : Val} (h : AlikeOneof (subAlike E.S E.R p) d slot v w) :
    marshalOneof E r d slot v = marshalOneof E r' d slot w := by
  rcases oneofCases h with ⟨n, x, y, g, rfl, rfl, h1, h2⟩ | ⟨rfl, hne⟩
  · unfold marshalOneof
    simp only [h1]
    have hg := member_some h1
    have hgo := (hd.fields g hg.1).oneof hg.2.1
    rw [marshalField_alike hr hnil true (hd.fields g hg.1) (.inl ⟨rfl, h2, by rw [hgo.1]; simp⟩)]
  · unfold marshalOneof
    cases v with
    | wrap n x => exact absurd rfl (hne n x)
    | _ => rfl

theorem marshalStrictField_alike {d : MsgDesc} (hd : MsgFacts d) {f : FieldDesc} (hf : f ∈ d.fields) {s s' : List Val}
    (h : if f.oneof then AlikeOneof (subAlike E.S E.R p) d f.slot (slotOf s f) (slotOf s' f) else AlikeField (subAlike E.S E.R p) f (slotOf s f) (slotOf s' f)) :
    marshalStrictField E r s f = marshalStrictField E r' s' f := by
  unfold marshalStrictField
  split
  · rename_i ho
    rw [if_pos ho] at h
    rcases oneofCases h with ⟨n, x, y, g, h1, h2, h3, h4⟩ | ⟨h1, hne⟩
    · rw [h1, h2]
      simp only
      split
      · rename_i hn
        have hn' : n = f.num := by simpa using hn
        rw [hn', member_of hd hf ho] at h3
        cases h3
        have hgo := (hd.fields f hf).oneof ho
        rw [marshalField_alike hr hnil true (hd.fields f hf) (.inl ⟨rfl, h4, by rw [hgo.1]; simp⟩)]
      · rfl
    · rw [← h1]
      cases hv : slotOf s f with
      | wrap n x => exact absurd hv (hne n x)
      | _ => rfl
  · rename_i ho
    rw [if_neg ho] at h
    exact marshalField_alike hr hnil false (hd.fields f hf) (.inr ⟨rfl, h⟩)

theorem marshalBody_alike {d : MsgDesc} (hd : MsgFacts d) (strict : Bool) {s s' : List Val} {u u' : Bytes} (hu : d.keepUnknown = true → u = u')
    (h : ∀ f ∈ d.fields, if f.oneof then AlikeOneof (subAlike E.S E.R p) d f.slot (slotOf s f) (slotOf s' f) else AlikeField (subAlike E.S E.R p) f (slotOf s f) (slotOf s' f)) :
    marshalBody E r strict d s u = marshalBody E r' strict d s' u' := by
  have hmem : ∀ f ∈ (sortFields d.fields).reverse, f ∈ d.fields := fun f hf => by
    have : (sortFields d.fields).Perm d.fields := List.perm_insertionSort _ _
    exact this.mem_iff.1 (List.mem_reverse.1 hf)
  have hone : ∀ (fs : List FieldDesc) (seen : List Nat), (∀ f ∈ fs, f ∈ d.fields) → marshalOneofs E r d s seen fs = marshalOneofs E r' d s' seen fs := by
    intro fs
    induction fs with
    | nil => intro _ _; rfl
    | cons f fs ih =>
      intro seen hfs
      have hrest : ∀ g ∈ fs, g ∈ d.fields := fun g hg => hfs g (.tail _ hg)
      have hf := h f (hfs f (.head _))
      unfold marshalOneofs
      split
      · rename_i ho
        rw [if_pos ho] at hf
        rw [ih _ hrest, ih _ hrest, marshalOneof_alike hr hnil hd hf]
      · exact ih _ hrest
  unfold marshalBody
  simp only
  rw [hone _ _ hmem]
  congr 1
  · split
    · rw [hu (by assumption)]
    · rfl
  · split
    · exact each_congr _ fun f hf => marshalStrictField_alike hr hnil hd (hmem f hf) (h f (hmem f hf))
    · congr 1
      refine each_congr _ fun f hf => ?_
      have h1 := h f (hmem f hf)
      split
      · rfl
      · rename_i ho
        rw [if_neg ho] at h1
        exact marshalField_alike hr hnil false (hd.fields f (hmem f hf)) (.inr ⟨rfl, h1⟩)

end

theorem marshalToSizedN_alike {E : Env} (hS : schemaOK E.S = true) (strict : Bool) : ∀ (n t : Nat) (v w : Val), Alike E.S E.R t v w →
    marshalToSizedN E strict n t v = marshalToSizedN E strict n t w := by
  intro n
  induction n with
  | zero => intro t v w _; rfl
  | succ n ih =>
    intro t v w h
    rcases alike_cases h with ⟨s, u, e, s', u', e', rfl, rfl⟩ | ⟨rfl, _⟩
    · rw [alike_msg] at h
      funext buf
      simp only [marshalToSizedN]
      rw [marshalBody_alike (fun t v w _ => ih t v w) (fun _ => rfl) (schemaOK_msg hS t) strict h.2 h.1]
    · rfl

/-- Alike messages marshal to the same bytes, or fail in the same way. -/
theorem marshalVT_alike {E : Env} (hS : schemaOK E.S = true) (strict : Bool) {t : Nat} {v w : Val} (h : Alike E.S E.R t v w) :
    marshalVT E strict t v = marshalVT E strict t w := by
  have hz := sizeVT_alike hS h
  have hm : ∀ buf, marshalToSized E strict t v buf = marshalToSized E strict t w buf := fun buf => by
    rw [← marshalToSizedN_eq E strict (n := max v.depth w.depth) (by omega), ← marshalToSizedN_eq E strict (v := w) (n := max v.depth w.depth) (by omega),
      marshalToSizedN_alike hS strict _ _ _ _ h]
  rcases alike_cases h with ⟨s, u, e, s', u', e', rfl, rfl⟩ | ⟨rfl, _⟩
  · simp only [marshalVT]
    rw [hz, hm]
  · rfl

end Vtp
