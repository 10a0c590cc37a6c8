import Verif.Lemmas.Safe
import Verif.Lemmas.Float
/-!
# Same content: unfolding, symmetry, transitivity, reflexivity
-/

namespace Vtp
open Spec

section mono
variable {S : Schema} {p q : SubSame} (h : ∀ t v w, p t v w → q t v w)
include h

theorem sameElem_mono {k : Kind} {t : Nat} {v w : Val} (hs : SameElem S p k t v w) : SameElem S q k t v w := by
  unfold SameElem at hs ⊢
  split at hs
  · rw [if_pos (by assumption)]; exact h _ _ _ hs
  · rw [if_neg (by assumption)]; exact hs

theorem sameField_mono {f : FieldDesc} {v w : Val} (hs : SameField S p f v w) : SameField S q f v w := by
  unfold SameField SameMap at hs ⊢
  cases hm : f.map with
  | some md =>
    rw [hm] at hs
    intro k
    have := hs k
    cases h1 : lookup v.entries k <;> cases h2 : lookup w.entries k <;> simp only [h1, h2] at this ⊢
    exact sameElem_mono h this
  | none =>
    rw [hm] at hs
    simp only at hs ⊢
    split at hs
    · rw [if_pos (by assumption)]
      exact hs.imp fun _ _ => sameElem_mono h
    · rw [if_neg (by assumption)]
      split at hs
      · rw [if_pos (by assumption)]
        refine ⟨hs.1, fun hv => ?_⟩
        have := hs.2 hv
        split at this
        · rw [if_pos (by assumption)]; exact h _ _ _ this
        · rw [if_neg (by assumption)]; exact this
      · rw [if_neg (by assumption)]; exact hs

theorem sameOneof_mono {d : MsgDesc} {slot : Nat} {v w : Val} (hs : SameOneof S p d slot v w) : SameOneof S q d slot v w := by
  cases v <;> cases w <;> simp only [SameOneof] at hs ⊢
  · obtain ⟨h1, f, h2, h3⟩ := hs
    exact ⟨h1, f, h2, sameElem_mono h h3⟩
  · exact hs

theorem sameMsg_mono {d : MsgDesc} {v w : Val} (hs : SameMsg S p d v w) : SameMsg S q d v w := by
  cases v <;> cases w <;> simp only [SameMsg] at hs ⊢
  refine ⟨fun f hf => ?_, hs.2⟩
  have := hs.1 f hf
  split at this
  · rw [if_pos (by assumption)]; exact sameOneof_mono h this
  · rw [if_neg (by assumption)]; exact sameField_mono h this

end mono

theorem forall₂_all {α : Type} {r : Nat → α → α → Prop} : ∀ {l l' : List α}, (∀ n, List.Forall₂ (r n) l l') → List.Forall₂ (fun a b => ∀ n, r n a b) l l'
  | [], [], _ => .nil
  | [], _ :: _, h => by cases h 0
  | _ :: _, [], h => by cases h 0
  | a :: l, b :: l', h => .cons (fun n => by cases h n; assumption) (forall₂_all fun n => by cases h n; assumption)

section inter
variable {S : Schema} {p : Nat → SubSame}

theorem sameElem_all {k : Kind} {t : Nat} {v w : Val} (h : ∀ n, SameElem S (p n) k t v w) : SameElem S (fun t v w => ∀ n, p n t v w) k t v w := by
  unfold SameElem at h ⊢
  by_cases hk : k = .message ∨ k = .group
  · simp only [hk, if_true] at h ⊢; exact h
  · simp only [hk, if_false] at h ⊢; exact h 0

theorem sameField_all {f : FieldDesc} {v w : Val} (h : ∀ n, SameField S (p n) f v w) : SameField S (fun t v w => ∀ n, p n t v w) f v w := by
  unfold SameField SameMap at h ⊢
  cases hm : f.map with
  | some md =>
    simp only [hm] at h
    intro k
    cases h1 : lookup v.entries k <;> cases h2 : lookup w.entries k
    · trivial
    · have := h 0 k; simp only [h1, h2] at this
    · have := h 0 k; simp only [h1, h2] at this
    · refine sameElem_all fun n => ?_
      have := h n k; simpa only [h1, h2] using this
  | none =>
    simp only [hm] at h ⊢
    by_cases hc : f.card = .repeated
    · simp only [hc, if_true] at h ⊢
      exact (forall₂_all h).imp fun _ _ => sameElem_all
    · simp only [hc, if_false] at h ⊢
      by_cases hp : f.presence
      · simp only [hp, if_true] at h ⊢
        refine ⟨(h 0).1, fun hv => ?_⟩
        by_cases hk : f.kind = .message ∨ f.kind = .group
        · simp only [hk, if_true] at h ⊢; exact fun n => (h n).2 hv
        · simp only [hk, if_false] at h ⊢; exact (h 0).2 hv
      · simp only [hp] at h ⊢; exact h 0

theorem sameOneof_all {d : MsgDesc} {slot : Nat} {v w : Val} (h : ∀ n, SameOneof S (p n) d slot v w) :
    SameOneof S (fun t v w => ∀ n, p n t v w) d slot v w := by
  cases v <;> cases w <;> simp only [SameOneof] at h ⊢ <;> try exact h 0
  obtain ⟨h1, f, h2, h3⟩ := h 0
  refine ⟨h1, f, h2, sameElem_all fun n => ?_⟩
  obtain ⟨_, g, h2', h3'⟩ := h n
  rw [h2] at h2'
  cases h2'
  exact h3'

theorem sameMsg_all {d : MsgDesc} {v w : Val} (h : ∀ n, SameMsg S (p n) d v w) : SameMsg S (fun t v w => ∀ n, p n t v w) d v w := by
  cases v <;> cases w <;> simp only [SameMsg] at h ⊢ <;> try exact h 0
  refine ⟨fun f hf => ?_, (h 0).2⟩
  by_cases ho : f.oneof
  · rw [if_pos ho]
    exact sameOneof_all fun n => by have := (h n).1 f hf; rwa [if_pos ho] at this
  · rw [if_neg ho]
    exact sameField_all fun n => by have := (h n).1 f hf; rwa [if_neg ho] at this

end inter

/-- Same content, unfolded once. -/
theorem same_iff {S : Schema} {R : Runtime} {t : Nat} {v w : Val} :
    Same S R t v w ↔ SameMsg S (subSame S R (Same S R)) (S.msg t) v w := by
  constructor
  · intro h
    have := sameMsg_all fun n => h (n + 1)
    refine sameMsg_mono ?_ this
    intro t v w h
    unfold subSame at h ⊢
    split
    · have := h 0; rwa [if_pos (by assumption)] at this
    · intro n; have := h n; rwa [if_neg (by assumption)] at this
  · intro h n
    cases n with
    | zero => trivial
    | succ n =>
      refine sameMsg_mono ?_ h
      intro t v w h
      unfold subSame at h ⊢
      split at h
      · rw [if_pos (by assumption)]; exact h
      · rw [if_neg (by assumption)]; exact h n

/-! ## Symmetry -/

theorem sameScalar_symm {k : Kind} {v w : Val} (h : SameScalar k v w) : SameScalar k w v := by
  unfold SameScalar at h ⊢
  split at h
  · rw [if_pos (by assumption)]; exact h.symm
  · rw [if_neg (by assumption)]; exact ⟨h.1.symm, h.1 ▸ h.2⟩

section symm
variable {S : Schema} {p : SubSame} (h : ∀ t v w, p t v w → p t w v)
include h

theorem sameElem_symm {k : Kind} {t : Nat} {v w : Val} (hs : SameElem S p k t v w) : SameElem S p k t w v := by
  unfold SameElem at hs ⊢
  split at hs
  · rw [if_pos (by assumption)]; exact h _ _ _ hs
  · rw [if_neg (by assumption)]; exact sameScalar_symm hs

theorem sameField_symm {f : FieldDesc} {v w : Val} (hs : SameField S p f v w) : SameField S p f w v := by
  unfold SameField SameMap at hs ⊢
  cases hm : f.map with
  | some md =>
    rw [hm] at hs
    intro k
    have := hs k
    cases h1 : lookup v.entries k <;> cases h2 : lookup w.entries k <;> simp only [h1, h2] at this ⊢
    exact sameElem_symm h this
  | none =>
    rw [hm] at hs
    simp only at hs ⊢
    split at hs
    · rw [if_pos (by assumption)]
      exact (hs.imp fun _ _ => sameElem_symm h).flip
    · rw [if_neg (by assumption)]
      split at hs
      · rw [if_pos (by assumption)]
        refine ⟨hs.1.symm, fun hv => ?_⟩
        have := hs.2 (mt hs.1.1 hv)
        split at this
        · rw [if_pos (by assumption)]; exact h _ _ _ this
        · rw [if_neg (by assumption)]; exact sameScalar_symm this
      · rw [if_neg (by assumption)]; exact sameScalar_symm hs

theorem sameOneof_symm {d : MsgDesc} {slot : Nat} {v w : Val} (hs : SameOneof S p d slot v w) : SameOneof S p d slot w v := by
  cases v <;> cases w <;> simp only [SameOneof] at hs ⊢
  · obtain ⟨rfl, f, h2, h3⟩ := hs
    exact ⟨rfl, f, h2, sameElem_symm h h3⟩
  · exact hs.symm

theorem sameMsg_symm {d : MsgDesc} {v w : Val} (hs : SameMsg S p d v w) : SameMsg S p d w v := by
  cases v <;> cases w <;> simp only [SameMsg] at hs ⊢
  refine ⟨fun f hf => ?_, fun hk => (hs.2 hk).symm⟩
  have := hs.1 f hf
  split at this
  · rw [if_pos (by assumption)]; exact sameOneof_symm h this
  · rw [if_neg (by assumption)]; exact sameField_symm h this

end symm

theorem sameN_symm {S : Schema} {R : Runtime} (hR : ∀ t v w, R.equal t v w = true → R.equal t w v = true) : ∀ (n t : Nat) (v w : Val), SameN S R n t v w → SameN S R n t w v
  | 0, _, _, _, _ => trivial
  | n + 1, _, _, _, h => sameMsg_symm (fun t v w h => by
      unfold subSame at h ⊢
      split at h
      · rw [if_pos (by assumption)]; exact hR _ _ _ h
      · rw [if_neg (by assumption)]; exact sameN_symm hR n _ _ _ h) h

theorem same_symm {S : Schema} {R : Runtime} (hR : ∀ t v w, R.equal t v w = true → R.equal t w v = true) {t : Nat} {v w : Val}
    (h : Same S R t v w) : Same S R t w v := fun n => sameN_symm hR n t v w (h n)

/-! ## Transitivity -/

theorem sameScalar_trans {k : Kind} {u v w : Val} (h : SameScalar k u v) (h' : SameScalar k v w) : SameScalar k u w := by
  unfold SameScalar at h h' ⊢
  split at h
  · rw [if_pos (by assumption)] at h' ⊢; exact h.trans h'
  · rw [if_neg (by assumption)] at h' ⊢; exact ⟨h.1.trans h'.1, h.2⟩

theorem forall₂_trans' {α : Type} {r : α → α → Prop} (h : ∀ a b c, r a b → r b c → r a c) : ∀ {l₁ l₂ l₃ : List α},
    List.Forall₂ r l₁ l₂ → List.Forall₂ r l₂ l₃ → List.Forall₂ r l₁ l₃
  | _, _, _, .nil, .nil => .nil
  | _, _, _, .cons a b, .cons a' b' => .cons (h _ _ _ a a') (forall₂_trans' h b b')

section trans
variable {S : Schema} {p : SubSame} (h : ∀ t u v w, p t u v → p t v w → p t u w)
include h

theorem sameElem_trans {k : Kind} {t : Nat} {u v w : Val} (hs : SameElem S p k t u v) (hs' : SameElem S p k t v w) : SameElem S p k t u w := by
  unfold SameElem at hs hs' ⊢
  split at hs
  · rw [if_pos (by assumption)] at hs' ⊢; exact h _ _ _ _ hs hs'
  · rw [if_neg (by assumption)] at hs' ⊢; exact sameScalar_trans hs hs'

theorem sameField_trans {f : FieldDesc} {u v w : Val} (hs : SameField S p f u v) (hs' : SameField S p f v w) : SameField S p f u w := by
  unfold SameField SameMap at hs hs' ⊢
  cases hm : f.map with
  | some md =>
    rw [hm] at hs hs'
    intro k
    have h1 := hs k
    have h2 := hs' k
    cases e1 : lookup u.entries k <;> cases e2 : lookup v.entries k <;> cases e3 : lookup w.entries k <;> simp only [e1, e2, e3] at h1 h2 ⊢
    exact sameElem_trans h h1 h2
  | none =>
    rw [hm] at hs hs'
    simp only at hs hs' ⊢
    split at hs
    · rw [if_pos (by assumption)] at hs' ⊢
      exact forall₂_trans' (r := SameElem S p f.kind f.msg) (fun _ _ _ => sameElem_trans h) hs hs'
    · rw [if_neg (by assumption)] at hs' ⊢
      split at hs
      · rw [if_pos (by assumption)] at hs' ⊢
        refine ⟨hs.1.trans hs'.1, fun hv => ?_⟩
        have h1 := hs.2 hv
        have h2 := hs'.2 (mt hs.1.2 hv)
        split at h1
        · rw [if_pos (by assumption)] at h2 ⊢; exact h _ _ _ _ h1 h2
        · rw [if_neg (by assumption)] at h2 ⊢; exact sameScalar_trans h1 h2
      · rw [if_neg (by assumption)] at hs' ⊢; exact sameScalar_trans hs hs'

theorem sameOneof_trans {d : MsgDesc} {slot : Nat} {u v w : Val} (hs : SameOneof S p d slot u v) (hs' : SameOneof S p d slot v w) : SameOneof S p d slot u w := by
  cases u <;> cases v <;> simp only [SameOneof] at hs <;> cases w <;> simp only [SameOneof] at hs' ⊢
  · obtain ⟨rfl, f, h2, h3⟩ := hs
    obtain ⟨rfl, g, h2', h3'⟩ := hs'
    rw [h2] at h2'
    cases h2'
    exact ⟨rfl, f, h2, sameElem_trans h h3 h3'⟩
  · exact hs.trans hs'

theorem sameMsg_trans {d : MsgDesc} {u v w : Val} (hs : SameMsg S p d u v) (hs' : SameMsg S p d v w) : SameMsg S p d u w := by
  cases u <;> cases v <;> simp only [SameMsg] at hs <;> cases w <;> simp only [SameMsg] at hs' ⊢
  refine ⟨fun f hf => ?_, fun hk => (hs.2 hk).trans (hs'.2 hk)⟩
  have h1 := hs.1 f hf
  have h2 := hs'.1 f hf
  split at h1
  · rw [if_pos (by assumption)] at h2 ⊢; exact sameOneof_trans h h1 h2
  · rw [if_neg (by assumption)] at h2 ⊢; exact sameField_trans h h1 h2

end trans

theorem sameN_trans {S : Schema} {R : Runtime} (hR : ∀ t u v w, R.equal t u v = true → R.equal t v w = true → R.equal t u w = true) :
    ∀ (n t : Nat) (u v w : Val), SameN S R n t u v → SameN S R n t v w → SameN S R n t u w
  | 0, _, _, _, _, _, _ => trivial
  | n + 1, _, _, _, _, h, h' => sameMsg_trans (fun t u v w h h' => by
      unfold subSame at h h' ⊢
      split at h
      · rw [if_pos (by assumption)] at h' ⊢; exact hR _ _ _ _ h h'
      · rw [if_neg (by assumption)] at h' ⊢; exact sameN_trans hR n _ _ _ _ h h') h h'

theorem same_trans {S : Schema} {R : Runtime} (hR : ∀ t u v w, R.equal t u v = true → R.equal t v w = true → R.equal t u w = true) {t : Nat} {u v w : Val}
    (h : Same S R t u v) (h' : Same S R t v w) : Same S R t u w := fun n => sameN_trans hR n t u v w (h n) (h' n)

/-! ## Reflexivity without NaN -/

theorem sameScalar_refl {k : Kind} {v : Val} (h : numeric k = true → numValue k v ≠ none) (hk : ¬ (k = .message ∨ k = .group)) : SameScalar k v v := by
  unfold SameScalar
  split
  · rfl
  · rename_i hn
    refine ⟨rfl, h ?_⟩
    cases k <;> simp_all [numeric]

theorem numValue_zero {k : Kind} : numeric k = true → numValue k (zeroScalar k) ≠ none := by
  intro h
  cases k <;> simp [numeric, numValue, zeroScalar, Val.bits, ieee] at h ⊢

/-- The empty message is the same as itself. -/
theorem sameN_zero {S : Schema} {R : Runtime} (hS : schemaOK S = true) (n t : Nat) : SameN S R n t (zeroMsg S t) (zeroMsg S t) := by
  cases n with
  | zero => trivial
  | succ n =>
    refine ⟨fun f hf => ?_, fun _ => rfl⟩
    rw [zeroMsg_slot hS hf]
    have ff := (schemaOK_msg hS t).fields f hf
    cases ho : f.oneof with
    | true => simp [zeroField, ho, SameOneof]
    | false =>
      simp only [Bool.false_eq_true, if_false]
      unfold SameField SameMap
      cases hm : f.map with
      | some md =>
        intro k
        rw [show zeroField f = .nil by simp [zeroField, (ff.map md hm).1]]
        simp [Val.entries, lookup]
      | none =>
        simp only
        split
        · rename_i hc
          rw [show zeroField f = .nil by simp [zeroField, hc]]
          exact .nil
        · rename_i hc
          split
          · rename_i hp
            rw [show zeroField f = .nil by simp [zeroField, hp]]
            simp
          · rename_i hp
            rw [show zeroField f = zeroScalar f.kind by simp [zeroField, hp, ho, hc]]
            refine sameScalar_refl numValue_zero ?_
            intro hk
            exact hp (ff.singMsg hc (by simpa [FieldDesc.hasMessage] using hk))

theorem same_zero {S : Schema} {R : Runtime} (hS : schemaOK S = true) (t : Nat) : Same S R t (zeroMsg S t) (zeroMsg S t) :=
  fun n => sameN_zero hS n t

theorem lookup_mem {es : List (Key × Val)} {k : Key} {x : Val} (h : lookup es k = some x) : (k, x) ∈ es := by
  unfold lookup at h
  cases hf : es.find? (fun e => e.1 == k) with
  | none => simp [hf] at h
  | some e =>
    simp [hf] at h
    have h1 := List.mem_of_find?_eq_some hf
    have h2 := List.find?_some hf
    simp at h2
    rw [← h, ← h2]
    exact h1

theorem wtM_isMsg {S : Schema} {tn : Members} {t : Nat} {v : Val} (h : wtM S tn t v = true) : ∃ s u e, v = .msg s u e := by
  unfold wtM at h
  generalize v.depth = m at h
  cases m <;> cases v <;> simp_all [wtN]

theorem elemOK_shape {S : Schema} {tn : Members} {k : Kind} {t : Nat} {v : Val} (h : elemOK (wtM S tn) k t v = true) :
    v = .nil ∨ (∃ n, v = .num n) ∨ (∃ b, v = .str b) ∨ ∃ s u e, v = .msg s u e := by
  by_cases hk : k = .message ∨ k = .group
  · have h : v.isNil = true ∨ wtM S tn t v = true := by rcases hk with rfl | rfl <;> simpa [elemOK] using h
    rcases h with h | h
    · cases v <;> simp_all [Val.isNil]
    · obtain ⟨s, u, e, rfl⟩ := wtM_isMsg h; simp
  · have h : scalarOK k v = true := by cases k <;> simp_all [elemOK]
    cases v <;> simp
    all_goals revert h; cases k <;> simp [scalarOK]

/-- A message without NaN is the same as itself. -/
theorem sameN_refl {S : Schema} {R : Runtime} (hS : schemaOK S = true) (hR : ∀ t v, R.equal t v v = true) : ∀ (n t : Nat) (v : Val),
    (S.msg t).foreign = false → wtM S .typedNil t v = true → NoNaNN S n t v → SameN S R n t v v
  | 0, _, _, _, _, _ => trivial
  | n + 1, t, v, hf, hw, hn => by
    have hd := schemaOK_msg hS t
    obtain ⟨s, u, e, rfl⟩ := wtM_isMsg hw
    rw [wtM_msg, hf] at hw
    simp only [Bool.false_or, Bool.and_eq_true, decide_eq_true_iff, List.all_eq_true] at hw
    have hn' := hn hf
    have helem : ∀ k t v, elemOK (wtM S .typedNil) k t v = true → NoNaNElem (NoNaNN S n) k t v → SameElem S (subSame S R (SameN S R n)) k t v v := by
      intro k t v ho hn
      unfold SameElem
      unfold NoNaNElem at hn
      split
      · rename_i hk
        rw [if_pos hk] at hn
        have ho : v.isNil = true ∨ wtM S .typedNil t v = true := by rcases hk with rfl | rfl <;> simpa [elemOK] using ho
        unfold subSame orEmpty
        split
        · exact hR _ _
        · rename_i hff
          have hff : (S.msg t).foreign = false := by simpa using hff
          split
          · exact sameN_zero hS n t
          · rename_i hv
            exact sameN_refl hS hR n t v hff (ho.resolve_left (by cases v <;> simp_all [Val.isNil])) (hn hv)
      · rename_i hk
        rw [if_neg hk] at hn
        exact sameScalar_refl hn hk
    refine ⟨fun f hfm => ?_, fun _ => rfl⟩
    have ff := hd.fields f hfm
    have h1 := hw.2 f hfm
    have h2 := hn' f hfm
    cases ho : f.oneof with
    | true =>
      simp only [ho, if_true] at h1 ⊢
      cases hv : slotOf s f <;> simp only [hv, oneofOK, SameOneof] at h1 ⊢ <;> try cases h1
      rename_i m x
      refine ⟨trivial, ?_⟩
      cases hmem : (S.msg t).member f.slot m with
      | none => simp [hmem] at h1
      | some g =>
        refine ⟨g, rfl, ?_⟩
        simp [hmem] at h1
        obtain ⟨hg1, hg2, hg3, hg4⟩ := member_some hmem
        have hgn := hn' g hg1
        have hsl : slotOf s g = .wrap m x := by rw [← hv]; simp [slotOf, hg3]
        rw [hsl] at hgn
        exact helem _ _ _ h1 (hgn hg4)
    | false =>
      simp only [ho, Bool.false_eq_true, if_false] at h1 ⊢
      unfold SameField SameMap
      unfold fieldOK at h1
      cases hm : f.map with
      | some md =>
        simp only [hm] at h1
        intro k
        cases hv : slotOf s f <;> simp only [hv] at h1 h2 <;> try cases h1
        · simp [Val.entries, lookup]
        · rename_i es
          simp only [Val.entries]
          cases hl : lookup es k with
          | none => trivial
          | some x =>
            have hmem := lookup_mem hl
            simp only [Bool.and_eq_true, List.all_eq_true] at h1
            exact helem _ _ _ (h1.2 _ hmem).2 (h2 md hm _ hmem)
      | none =>
        simp only [hm] at h1 ⊢
        by_cases hc : f.card = .repeated
        · rw [if_pos (by simp [hc])] at h1
          rw [if_pos hc]
          cases hv : slotOf s f <;> simp only [hv] at h1 h2 <;> try cases h1
          · exact .nil
          · rename_i xs sp
            simp only [Val.elems]
            simp only [Bool.and_eq_true, List.all_eq_true] at h1
            have : ∀ l : List Val, (∀ x ∈ l, SameElem S (subSame S R (SameN S R n)) f.kind f.msg x x) → List.Forall₂ (SameElem S (subSame S R (SameN S R n)) f.kind f.msg) l l := by
              intro l hl
              induction l with
              | nil => exact .nil
              | cons a l ih => exact .cons (hl a (by simp)) (ih fun x hx => hl x (by simp [hx]))
            exact this xs fun x hx => helem _ _ _ (h1.1 x hx) (h2 x hx)
        · rw [if_neg (by simpa using hc)] at h1
          rw [if_neg hc]
          cases hp : f.presence with
          | true =>
            simp only [hp, if_true, Bool.or_eq_true] at h1 ⊢
            refine ⟨trivial, fun hv => ?_⟩
            have h1 := h1.resolve_left (by cases hx : slotOf s f <;> simp_all [Val.isNil])
            have h3 : NoNaNElem (NoNaNN S n) f.kind f.msg (slotOf s f) := by
              rcases elemOK_shape h1 with hx | ⟨_, hx⟩ | ⟨_, hx⟩ | ⟨_, _, _, hx⟩ <;> rw [hx] at h2 ⊢ <;> first | exact h2 | exact absurd hx hv
            have := helem _ _ _ h1 h3
            unfold SameElem orEmpty at this
            rwa [if_neg hv] at this
          | false =>
            simp only [hp, Bool.false_eq_true, if_false] at h1 ⊢
            have hk : ¬ (f.kind = .message ∨ f.kind = .group) := by
              intro hk
              have := ff.singMsg hc (by simpa [FieldDesc.hasMessage] using hk)
              simp [hp] at this
            refine sameScalar_refl ?_ hk
            intro hnum
            cases hx : slotOf s f <;> simp only [hx] at h2 h1 <;> first | (rw [NoNaNElem, if_neg hk] at h2; exact h2 hnum) | (exfalso; revert h1 hnum; cases f.kind <;> simp [numeric, scalarOK])

theorem same_refl {S : Schema} {R : Runtime} (hS : schemaOK S = true) (hR : ∀ t v, R.equal t v v = true) {t : Nat} {v : Val}
    (hf : (S.msg t).foreign = false) (hw : wtM S .typedNil t v = true) (hn : NoNaN S t v) : Same S R t v v :=
  fun n => sameN_refl hS hR n t v hf hw (hn n)

end Vtp
