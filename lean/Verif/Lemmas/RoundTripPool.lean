import Verif.Lemmas.RoundTripSame
import Verif.Lemmas.Reuse
import Verif.Lemmas.Alike
import Verif.Lemmas.Shuffle
/-!
# Encodings and round trips do not depend on which messages are pooled
-/

namespace Vtp
open Spec

theorem alikeN_symm {S : Schema} {R : Runtime} (hR : ∀ t v w, R.equal t v w = true → R.equal t w v = true) : ∀ n t v w, AlikeN S R n t v w → AlikeN S R n t w v
  | 0, _, _, _, _ => trivial
  | n + 1, t, v, w, h => by
    have hs : ∀ t v w, subAlike S R (AlikeN S R n) t v w → subAlike S R (AlikeN S R n) t w v := by
      intro t v w h
      unfold subAlike at *
      split at h
      · rw [if_pos (by assumption)]; exact ⟨hR _ _ _ h.1, h.2.1.symm, h.2.2.symm⟩
      · rw [if_neg (by assumption)]; exact alikeN_symm hR n t v w h
    have he : ∀ k t v w, AlikeElem (subAlike S R (AlikeN S R n)) k t v w → AlikeElem (subAlike S R (AlikeN S R n)) k t w v := by
      intro k t v w h
      unfold AlikeElem at *
      split at h
      · rw [if_pos (by assumption)]
        rcases h with ⟨h1, h2⟩ | ⟨h1, h2, h3⟩
        · exact .inl ⟨h2, h1⟩
        · exact .inr ⟨h2, h1, hs _ _ _ h3⟩
      · rw [if_neg (by assumption)]
        split at h
        · rw [if_pos (by assumption)]; exact h.symm
        · rw [if_neg (by assumption)]; exact h.symm
    have hl : ∀ {α : Type} {r r' : α → α → Prop} {l l' : List α}, (∀ a b, r a b → r' b a) → List.Forall₂ r l l' → List.Forall₂ r' l' l := by
      intro α r r' l l' h1 h2
      induction h2 with
      | nil => exact .nil
      | cons h _ ih => exact .cons (h1 _ _ h) ih
    have h' : AlikeMsg (subAlike S R (AlikeN S R n)) (S.msg t) v w := h
    show AlikeMsg (subAlike S R (AlikeN S R n)) (S.msg t) w v
    cases v <;> cases w <;> simp only [AlikeMsg] at h' ⊢ <;> try exact h'.symm
    refine ⟨fun f hf => ?_, fun hk => (h'.2 hk).symm⟩
    have h1 := h'.1 f hf
    split at h1
    · rename_i ho
      rw [if_pos ho]
      generalize slotOf _ f = a at h1 ⊢
      generalize slotOf _ f = b at h1 ⊢
      cases a <;> cases b <;> simp only [AlikeOneof] at h1 ⊢ <;> try exact h1.symm
      obtain ⟨rfl, g, hg, h2⟩ := h1
      exact ⟨rfl, g, hg, he _ _ _ _ h2⟩
    · rename_i ho
      rw [if_neg ho]
      unfold AlikeField at *
      cases hm : f.map with
      | some md =>
        rw [hm] at h1
        exact hl (fun a b h => ⟨h.1.symm, he _ _ _ _ h.2⟩) h1
      | none =>
        rw [hm] at h1
        simp only at h1 ⊢
        split at h1
        · rw [if_pos (by assumption)]; exact hl (fun a b h => he _ _ _ _ h) h1
        · rw [if_neg (by assumption)]; exact ⟨fun hp => (h1.1 hp).symm, he _ _ _ _ h1.2⟩

theorem alike_symm {S : Schema} {R : Runtime} (hR : ∀ t v w, R.equal t v w = true → R.equal t w v = true) {t : Nat} {v w : Val} (h : Alike S R t v w) : Alike S R t w v :=
  fun n => alikeN_symm hR n t v w (h n)

variable (S : Schema) (R : Runtime)

theorem zeroMsg_unpool (t : Nat) : zeroMsg (unpool S) t = zeroMsg S t := (samePlan_unpool S).zeroMsg t

theorem encodeN_unpool (strict : Bool) : ∀ n t v, encodeN ⟨unpool S, R⟩ strict n t v = encodeN ⟨S, R⟩ strict n t v
  | 0, _, _ => rfl
  | n + 1, t, v => by
    have ih : encodeN ⟨unpool S, R⟩ strict n = encodeN ⟨S, R⟩ strict n := funext fun t => funext fun v => encodeN_unpool strict n t v
    have h1 : ∀ r, Spec.sub ⟨unpool S, R⟩ r = Spec.sub ⟨S, R⟩ r := by
      intro r; funext t v; simp only [Spec.sub, unpool_msg]
    have h2 : ∀ r, record ⟨unpool S, R⟩ r = record ⟨S, R⟩ r := by
      intro r; funext num k t v; cases k <;> simp only [record, h1]
    have h3 : ∀ r, entry ⟨unpool S, R⟩ r = entry ⟨S, R⟩ r := by
      intro r; funext num md e; simp only [entry, h2]
    have h4 : ∀ r, field ⟨unpool S, R⟩ r = field ⟨S, R⟩ r := by
      intro r; funext f v; simp only [field, h2, h3]
    have hd : ∀ d : MsgDesc, MsgDesc.member { d with pooled := false } = d.member := fun d => rfl
    unfold encodeN
    cases v <;> simp only [unpool_msg, ih, bodyStrict, bodyDefault, oneof, h2, h4, hd]

theorem encode_unpool (strict : Bool) (t : Nat) (v : Val) : encode ⟨unpool S, R⟩ strict t v = encode ⟨S, R⟩ strict t v := encodeN_unpool S R strict _ t v

theorem backN_unpool : ∀ n t v, backN (unpool S) R n t v = backN S R n t v
  | 0, _, _ => rfl
  | n + 1, t, v => by
    have ih : backN (unpool S) R n = backN S R n := funext fun t => funext fun v => backN_unpool n t v
    have h1 : ∀ r, backElem (unpool S) R r = backElem S R r := by
      intro r; funext k t v; simp only [backElem, unpool_msg, zeroMsg_unpool]
    have h2 : ∀ r, backField (unpool S) R r = backField S R r := by
      intro r; funext f v; simp only [backField, h1]
    have h3 : ∀ r, backOneof (unpool S) R r = backOneof S R r := by
      intro r; funext d s v; cases v <;> simp only [backOneof, h1]
    have hb : ∀ (d : MsgDesc) r l, backSlot S R r { d with pooled := false } l = backSlot S R r d l := fun d r l => rfl
    have h4 : ∀ r, backSlot (unpool S) R r = backSlot S R r := by
      intro r; funext d l s; simp only [backSlot, h2, h3]
    unfold backN
    cases v <;> simp only [unpool_msg, ih, h4, hb]

theorem back_unpool (t : Nat) (v : Val) : back (unpool S) R t v = back S R t v := backN_unpool S R _ t v

theorem restorableG_unpool {U : MsgDesc → Bytes → Prop} (hU : ∀ (d : MsgDesc) u, U { d with pooled := false } u = U d u) :
    ∀ n t v, RestorableG U (unpool S) R n t v = RestorableG U S R n t v
  | 0, _, _ => rfl
  | n + 1, t, v => by
    have ih : RestorableG U (unpool S) R n = RestorableG U S R n := funext fun t => funext fun v => restorableG_unpool hU n t v
    have h0 : Restored (unpool S) R = Restored S R := by
      funext t v; simp only [Restored, orEmpty, zeroMsg_unpool]
    have h1 : ∀ r, RestorableElem (unpool S) R r = RestorableElem S R r := by
      intro r; funext k t v; simp only [RestorableElem, unpool_msg, h0]
    unfold RestorableG
    cases v <;> simp only [unpool_msg, ih, h1, hU]

theorem restorableN_unpool (n t : Nat) (v : Val) : RestorableN (unpool S) R n t v = RestorableN S R n t v :=
  restorableG_unpool S R (fun _ _ => rfl) n t v

theorem restorable_unpool {t : Nat} {v : Val} : Restorable (unpool S) R t v ↔ Restorable S R t v := by
  unfold Restorable
  simp only [restorableN_unpool]

/-! ## Other map orders -/

/-- Something holds of all elements of a field. -/
def FieldContent (P : Val → Prop) (M : MapDesc → Val → Prop) (f : FieldDesc) (v : Val) : Prop :=
  match v with
  | .nil => True
  | .wrap n' x => f.num = n' → P x
  | .list xs _ => ∀ x ∈ xs, P x
  | .map es => ∀ md, f.map = some md → ∀ e ∈ es, M md e.2
  | v => P v

theorem forall₂_mem_right {α β : Type} {r : α → β → Prop} {b : β} : ∀ {l : List α} {l' : List β}, List.Forall₂ r l l' → b ∈ l' → ∃ a ∈ l, r a b
  | _, _, .cons h t, hb => by
    rcases List.mem_cons.1 hb with rfl | hb
    · exact ⟨_, by simp, h⟩
    · obtain ⟨a, h1, h2⟩ := forall₂_mem_right t hb
      exact ⟨a, by simp [h1], h2⟩

/-- It still does after shuffling. -/
theorem shuffle_content {P : Val → Prop} {M : MapDesc → Val → Prop} (hP : ∀ v w, Shuffle v w → P v → P w) (hM : ∀ md v w, Shuffle v w → M md v → M md w)
    {f : FieldDesc} {v w : Val} (h : Shuffle v w) (hv : FieldContent P M f v) : FieldContent P M f w := by
  obtain ⟨h1, h2, h3, h4⟩ := shuffle_atom h
  cases v with
  | nil => rw [h1 rfl]; trivial
  | num n => rw [h2 _ rfl]; exact hv
  | str n => rw [h3 _ rfl]; exact hv
  | wrapNil n => rw [h4 _ rfl]; exact hv
  | wrap n x =>
    obtain ⟨y, rfl, hy⟩ := shuffle_wrap h _ _ rfl
    exact fun e => hP _ _ hy (hv e)
  | list xs sp =>
    obtain ⟨ys, rfl, hy⟩ := shuffle_list h _ _ rfl
    intro y hy'
    obtain ⟨x, hx, hs⟩ := forall₂_mem_right hy hy'
    exact hP _ _ hs (hv x hx)
  | map es =>
    obtain ⟨fs, rfl, -, hy⟩ := shuffle_map h _ rfl
    intro md hmd e he
    obtain ⟨a, ha, -, hs⟩ := hy e he
    exact hM _ _ _ hs (hv md hmd a ha)
  | msg s u e =>
    have hw := h
    obtain ⟨s', rfl, -, -⟩ := shuffle_msg h _ _ _ rfl
    exact hP _ _ hw hv

theorem noNaNN_shuffle {S : Schema} : ∀ (n t : Nat) (v w : Val), Shuffle v w → NoNaNN S n t v → NoNaNN S n t w := by
  intro n
  induction n with
  | zero => intros; trivial
  | succ n ih =>
    intro t v w h hv
    have he : ∀ k t v w, Shuffle v w → NoNaNElem (NoNaNN S n) k t v → NoNaNElem (NoNaNN S n) k t w := by
      intro k t v w h hv
      unfold NoNaNElem at hv ⊢
      split_ifs at hv ⊢ with hk
      · intro hw
        refine ih _ _ _ h (hv ?_)
        rintro rfl
        exact hw ((shuffle_atom h).1 rfl)
      · intro hk'
        have := hv hk'
        unfold numValue at this ⊢
        rwa [← (shuffle_bits h).1]
    by_cases hm : ∃ s u e, v = .msg s u e
    · obtain ⟨s, u, e, rfl⟩ := hm
      obtain ⟨s', rfl, -, hs⟩ := shuffle_msg h _ _ _ rfl
      intro hf f hff
      exact shuffle_content (P := NoNaNElem (NoNaNN S n) f.kind f.msg) (M := fun md => NoNaNElem (NoNaNN S n) md.val md.valMsg) (he _ _) (fun md => he _ _) (hs f.slot) (hv hf f hff)
    · have := shuffle_notMsg h (by simpa using hm)
      cases w <;> first | trivial | exact absurd rfl (this _ _ _)

theorem noNaN_shuffle {S : Schema} {t : Nat} {v w : Val} (h : Shuffle v w) (hv : NoNaN S t v) : NoNaN S t w :=
  fun n => noNaNN_shuffle n t v w h (hv n)

theorem restorable_shuffle {S : Schema} {R : Runtime} (hR : ∀ t v w, Shuffle v w → Restored S R t v → Restored S R t w) {t : Nat} {v w : Val}
    (h : Shuffle v w) (hv : Restorable S R t v) : Restorable S R t w := by
  intro n
  replace hv := hv n
  induction n generalizing t v w with
  | zero => trivial
  | succ n ih =>
    have he : ∀ k t v w, Shuffle v w → RestorableElem S R (RestorableN S R n) k t v → RestorableElem S R (RestorableN S R n) k t w := by
      intro k t v w h hv
      have hn : v = .nil ↔ w = .nil := by
        have := shuffle_isNil h
        cases v <;> cases w <;> simp_all [Val.isNil]
      unfold RestorableElem at hv ⊢
      split_ifs at hv ⊢ with h1 h2 h3 h4 h5 h5
      · exact hR _ _ _ h hv
      · exact hv
      · exact absurd (hn.2 h4) h5
      · exact absurd (hn.1 h5) h4
      · exact ih h hv
    by_cases hm : ∃ s u e, v = .msg s u e
    · obtain ⟨s, u, e, rfl⟩ := hm
      obtain ⟨s', rfl, -, hs⟩ := shuffle_msg h _ _ _ rfl
      exact ⟨hv.1, fun f hff => shuffle_content (P := RestorableElem S R (RestorableN S R n) f.kind f.msg) (M := fun md => RestorableElem S R (RestorableN S R n) md.val md.valMsg)
        (he _ _) (fun md => he _ _) (hs f.slot) (hv.2 f hff)⟩
    · have := shuffle_notMsg h (by simpa using hm)
      cases w <;> first | trivial | exact absurd rfl (this _ _ _)

end Vtp
