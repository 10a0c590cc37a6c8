import Verif.Lemmas.ShuffleEncode
import Verif.Lemmas.RoundTripSame
/-!
# A message that is the same as itself has no NaN
-/

namespace Vtp
open Spec

theorem noNaNN_of_sameN {S : Schema} {R : Runtime} (hS : schemaOK S = true) : ∀ (n t : Nat) (v : Val),
    wtM S .plain t v = true → SameN S R n t v v → NoNaNN S n t v
  | 0, _, _, _, _ => trivial
  | n + 1, t, v, hw, hn => by
    have hd := schemaOK_msg hS t
    obtain ⟨s, u, e, rfl⟩ := wtM_isMsg hw
    intro hf f hfm
    rw [wtM_msg, hf] at hw
    simp only [Bool.false_or, Bool.and_eq_true, decide_eq_true_iff, List.all_eq_true] at hw
    have helem : ∀ k t v, elemOK (wtM S .plain) k t v = true → SameElem S (subSame S R (SameN S R n)) k t v v → NoNaNElem (NoNaNN S n) k t v := by
      intro k t v ho hn
      unfold SameElem at hn
      unfold NoNaNElem
      split
      · rename_i hk
        rw [if_pos hk] at hn
        intro hv
        have ho : v.isNil = true ∨ wtM S .plain t v = true := by rcases hk with rfl | rfl <;> simpa [elemOK] using ho
        replace ho := ho.resolve_left (by cases v <;> simp_all [Val.isNil])
        unfold subSame orEmpty at hn
        rw [if_neg hv] at hn
        cases hff : (S.msg t).foreign with
        | true =>
          obtain ⟨s, u, e, rfl⟩ := wtM_isMsg ho
          cases n with
          | zero => trivial
          | succ n => exact fun h => absurd h (by simp [hff])
        | false =>
          rw [if_neg (by simp [hff])] at hn
          exact noNaNN_of_sameN hS n t v ho hn
      · rename_i hk
        rw [if_neg hk] at hn
        intro hnum
        unfold SameScalar at hn
        rw [if_neg (by rintro (rfl | rfl) <;> simp [numeric] at hnum)] at hn
        exact hn.2
    have ff := hd.fields f hfm
    have h1 := hw.2 f hfm
    have h2 := hn.1 f hfm
    show NoNaNField (NoNaNN S n) f (slotOf s f)
    cases ho : f.oneof with
    | true =>
      simp only [ho, if_true] at h1 h2
      cases hv : slotOf s f <;> simp only [hv, oneofOK, SameOneof] at h1 h2 ⊢ <;> try cases h1
      · trivial
      · rename_i m x
        intro hm
        obtain ⟨-, g, hg, h2⟩ := h2
        rw [hg] at h1
        simp only [Bool.and_eq_true] at h1
        obtain ⟨hg1, hg2, hg3, hg4⟩ := member_some hg
        have : g = f := hd.num_inj hg1 hfm (by rw [hg4, hm])
        subst this
        exact helem _ _ _ h1.1 h2
    | false =>
      simp only [ho, Bool.false_eq_true, if_false] at h1 h2
      unfold SameField SameMap at h2
      unfold fieldOK at h1
      cases hm : f.map with
      | some md =>
        simp only [hm] at h1 h2
        cases hv : slotOf s f <;> simp only [hv] at h1 h2 ⊢ <;> try cases h1
        · trivial
        · rename_i es
          simp only [Bool.and_eq_true, List.all_eq_true, decide_eq_true_iff] at h1
          intro md' hmd x hx
          rw [hm] at hmd
          cases hmd
          have hl : lookup es x.1 = some x.2 := (lookup_iff h1.1).2 hx
          have := h2 x.1
          simp only [Val.entries, hl] at this
          exact helem _ _ _ (h1.2 x hx).2 this
      | none =>
        simp only [hm] at h1 h2
        by_cases hc : f.card = .repeated
        · rw [if_pos (by simp [hc])] at h1
          rw [if_pos hc] at h2
          cases hv : slotOf s f <;> simp only [hv] at h1 h2 ⊢ <;> try cases h1
          · trivial
          · rename_i xs sp
            simp only [Bool.and_eq_true, List.all_eq_true] at h1
            replace h1 := h1.1
            simp only [Val.elems] at h2
            intro x hx
            rw [List.forall₂_iff_get] at h2
            obtain ⟨i, hi, rfl⟩ := List.getElem_of_mem hx
            exact helem _ _ _ (h1 _ hx) (h2.2 i hi hi)
        · rw [if_neg (by simpa using hc)] at h1
          rw [if_neg hc] at h2
          cases hp : f.presence with
          | true =>
            simp only [hp, if_true, Bool.or_eq_true] at h1 h2
            by_cases hv : slotOf s f = .nil
            · rw [hv]; trivial
            · have h1 := h1.resolve_left (by cases hx : slotOf s f <;> simp_all [Val.isNil])
              have h3 : NoNaNElem (NoNaNN S n) f.kind f.msg (slotOf s f) := by
                apply helem _ _ _ h1
                unfold SameElem orEmpty
                rw [if_neg hv]
                exact h2.2 hv
              rcases elemOK_shape h1 with hx | ⟨_, hx⟩ | ⟨_, hx⟩ | ⟨_, _, _, hx⟩ <;> rw [hx] at h3 ⊢ <;> first | exact h3 | exact absurd hx hv
          | false =>
            simp only [hp, Bool.false_eq_true, if_false] at h1 h2
            have hk : ¬ (f.kind = .message ∨ f.kind = .group) := by
              intro hk
              have := ff.singMsg hc (by simpa [FieldDesc.hasMessage] using hk)
              simp [hp] at this
            have h4 : elemOK (wtM S .plain) f.kind f.msg (slotOf s f) = true := by
              unfold elemOK
              cases h : f.kind <;> simp_all
            have h3 : NoNaNElem (NoNaNN S n) f.kind f.msg (slotOf s f) := by
              apply helem _ _ _ h4
              unfold SameElem
              rw [if_neg hk]
              exact h2
            rcases elemOK_shape h4 with hx | ⟨_, hx⟩ | ⟨_, hx⟩ | ⟨_, _, _, hx⟩ <;> rw [hx] at h3 ⊢ <;> first | exact h3 | trivial

theorem noNaN_of_same {S : Schema} {R : Runtime} (hS : schemaOK S = true) {t : Nat} {v : Val} (hw : wtM S .plain t v = true) (h : Same S R t v v) : NoNaN S t v :=
  fun n => noNaNN_of_sameN hS n t v hw (h n)

end Vtp
