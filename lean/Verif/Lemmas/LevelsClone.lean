import Verif.Lemmas.LevelsFuel
import Verif.Lemmas.HeapFuel
/-! # Calls of `ResetVT` and `CloneVT` nest no deeper than messages do, as in `Lemmas/HeapFuel` -/

namespace Vtp.Lv
open Spec

/-! ### More fuel changes nothing -/

section
variable {S : Schema} {r r' : SubReset} {n : Nat} (h : Agree n r r')
include h

theorem returnWith_agree (t : Nat) {v : Val} (hv : levels v ≤ n) : returnWith r t v = returnWith r' t v := by
  unfold returnWith
  rw [h t v hv]

theorem resetElem_agree (t : Nat) {v : Val} (hv : levels v ≤ n) : resetElem S r t v = resetElem S r' t v := by
  unfold resetElem
  rw [h t v hv]

theorem resetElems_agree (t : Nat) : ∀ {vs : List Val}, (∀ v ∈ vs, levels v ≤ n) → resetElems S r t vs = resetElems S r' t vs
  | [], _ => rfl
  | v :: vs, hv => by
    rw [resetElems, resetElems, resetElem_agree h t (hv v (.head _)), resetElems_agree t fun w hw => hv w (.tail _ hw)]

theorem resetField_agree (f : FieldDesc) {v : Val} (hv : levels v ≤ n) : resetField S r f v = resetField S r' f v := by
  unfold resetField
  split_ifs <;> try rfl
  · split <;> try rfl
    rename_i xs sp
    rw [resetElems_agree h f.msg fun w hw => by
      have := depth_mem hw
      simp only [levels] at hv
      omega]
  · split <;> try rfl
    rw [returnWith_agree h f.msg (by simp only [levels] at hv; omega)]
  · rw [returnWith_agree h f.msg hv]

theorem resetFields_agree {slots : List Val} (hv : mostLevels slots ≤ n) : ∀ fs, resetFields S r slots fs = resetFields S r' slots fs
  | [] => rfl
  | f :: fs => by
    rw [resetFields, resetFields, resetField_agree h f ((depth_slotOf slots f).trans hv), resetFields_agree hv fs]

end

theorem resetN_agree (S : Schema) : ∀ (n m : Nat), n ≤ m → Agree n (resetN S (n + 1)) (resetN S (m + 1)) := by
  intro n
  induction n with
  | zero =>
    intro m _ t v hv
    cases v with
    | msg s u e => simp only [levels] at hv; omega
    | _ => rfl
  | succ n ih =>
    intro m hm t v hv
    cases v with
    | msg s u e =>
      obtain ⟨m', rfl⟩ : ∃ m', m = m' + 1 := ⟨m - 1, by omega⟩
      simp only [levels] at hv
      have := resetFields_agree (S := S) (slots := s) (ih m' (by omega)) (by omega) (S.msg t).fields
      show (resetFields S (resetN S (n + 1)) s (S.msg t).fields >>= _) = (resetFields S (resetN S (m' + 1)) s (S.msg t).fields >>= _)
      rw [this]
    | _ => rfl

theorem resetN_eq (S : Schema) {n t : Nat} {v : Val} (hn : v ≠ .nil) (h : levels v + 1 ≤ n) : resetN S n t v = resetVT S t v := by
  have hn : v.isNil = false := by cases v <;> first | rfl | exact absurd rfl hn
  unfold resetVT
  rw [hn]
  obtain ⟨m, rfl⟩ : ∃ m, n = m + 1 := ⟨n - 1, by omega⟩
  exact (resetN_agree S (levels v) m (by omega) t v le_rfl).symm.trans (resetN_agree S (levels v) v.depth (levels_le_depth v) t v le_rfl)

section
variable {E : KEnv} {r r' : SubClone} {n : Nat} (h : ∀ p, Agree n (r p) (r' p))
include h

theorem cloneSingular_agree (k : Kind) (t : Nat) (p : List Nat) {v : Val} (hv : levels v ≤ n) : cloneSingular E r k t p v = cloneSingular E r' k t p v := by
  unfold cloneSingular
  rw [h p t v hv]

theorem cloneElems_agree (k : Kind) (t : Nat) (p : List Nat) : ∀ (i : Nat) {vs : List Val}, (∀ v ∈ vs, levels v ≤ n) →
    cloneElems E r k t p i vs = cloneElems E r' k t p i vs
  | _, [], _ => rfl
  | i, v :: vs, hv => by
    rw [cloneElems, cloneElems, cloneSingular_agree h k t _ (hv v (.head _)), cloneElems_agree k t p (i + 1) fun w hw => hv w (.tail _ hw)]

theorem cloneEntries_agree (k : Kind) (t : Nat) (p : List Nat) : ∀ (i : Nat) {es : List (Key × Val)} (c : List (Key × Val)), (∀ e ∈ es, levels e.2 ≤ n) →
    cloneEntries E r k t p i es c = cloneEntries E r' k t p i es c
  | _, [], _, _ => rfl
  | i, (key, v) :: vs, c, hv => by
    rw [cloneEntries, cloneEntries, cloneSingular_agree h k t _ (hv (key, v) (.head _))]
    simp only [cloneEntries_agree k t p (i + 1) _ fun w hw => hv w (.tail _ hw)]

theorem cloneField_agree (f : FieldDesc) (p : List Nat) {v : Val} (hv : levels v ≤ n) : cloneField E r f p v = cloneField E r' f p v := by
  have h1 : ∀ k t i es, v = .map es → cloneEntries E r k t p i es [] = cloneEntries E r' k t p i es [] := fun k t i es hve =>
    cloneEntries_agree h _ _ _ _ _ fun w hw => by
      have := depth_entry hw
      rw [hve, levels] at hv
      omega
  have h2 : ∀ k t i xs sp, v = .list xs sp → cloneElems E r k t p i xs = cloneElems E r' k t p i xs := fun k t i xs sp hve =>
    cloneElems_agree h _ _ _ _ fun w hw => by
      have := depth_mem hw
      rw [hve, levels] at hv
      omega
  unfold cloneField
  rw [cloneSingular_agree h _ _ _ hv]
  cases hm : f.map with
  | none =>
    cases v with
    | list xs sp => simp only [h2 f.kind f.msg 0 xs sp rfl]
    | _ => rfl
  | some md =>
    cases v with
    | map es => simp only [h1 md.val md.valMsg 0 es rfl]
    | _ => rfl

theorem cloneMember_agree (f : FieldDesc) (p : List Nat) {v : Val} (hv : levels v ≤ n) : cloneMember E r f p v = cloneMember E r' f p v := by
  unfold cloneMember
  rw [h p _ v hv, cloneSingular_agree h _ _ _ hv]

theorem cloneOneof_agree (d : MsgDesc) (slot : Nat) (p : List Nat) {v : Val} (hv : levels v ≤ n) : cloneOneof E r d slot p v = cloneOneof E r' d slot p v := by
  unfold cloneOneof
  split <;> try rfl
  split <;> try rfl
  rw [cloneMember_agree h _ _ (by simp only [levels] at hv; omega)]

theorem cloneFirst_agree (d : MsgDesc) (p : List Nat) {m : List Val} (hv : mostLevels m ≤ n) : ∀ fs s, cloneFirst E r d p m fs s = cloneFirst E r' d p m fs s
  | [], _ => rfl
  | f :: fs, s => by
    rw [cloneFirst, cloneFirst, h _ _ _ ((depth_slotOf m f).trans hv)]
    simp only [cloneFirst_agree d p hv fs]

theorem cloneSecond_agree (d : MsgDesc) (p : List Nat) {m : List Val} (hv : mostLevels m ≤ n) : ∀ fs s, cloneSecond E r d p m fs s = cloneSecond E r' d p m fs s
  | [], _ => rfl
  | f :: fs, s => by
    rw [cloneSecond, cloneSecond, cloneOneof_agree h _ _ _ ((depth_slotOf m f).trans hv), cloneField_agree h _ _ ((depth_slotOf m f).trans hv)]
    simp only [cloneSecond_agree d p hv fs]

end

theorem cloneN_agree (E : KEnv) : ∀ (n m : Nat), n ≤ m → ∀ p, Agree n (cloneN E (n + 1) p) (cloneN E (m + 1) p) := by
  intro n
  induction n with
  | zero =>
    intro m _ p t v hv
    cases v with
    | msg s u e => simp only [levels] at hv; omega
    | _ => rfl
  | succ n ih =>
    intro m hm p t v hv
    cases v with
    | msg s u e =>
      obtain ⟨m', rfl⟩ : ∃ m', m = m' + 1 := ⟨m - 1, by omega⟩
      simp only [levels] at hv
      show cloneBody E (cloneN E (n + 1)) p t _ = cloneBody E (cloneN E (m' + 1)) p t _
      generalize hr : cloneN E (n + 1) = r at ih ⊢
      unfold cloneBody
      simp only [cloneFirst_agree (ih m' (by omega)) _ _ (show mostLevels s ≤ n by omega), cloneSecond_agree (ih m' (by omega)) _ _ (show mostLevels s ≤ n by omega)]
    | _ => rfl

theorem cloneN_eq (E : KEnv) {n t : Nat} {v : Val} (h : levels v + 1 ≤ n) : cloneN E n [] t v = cloneVT E t v := by
  obtain ⟨m, rfl⟩ : ∃ m, n = m + 1 := ⟨n - 1, by omega⟩
  exact (cloneN_agree E (levels v) m (by omega) [] t v le_rfl).symm.trans (cloneN_agree E (levels v) v.depth (levels_le_depth v) [] t v le_rfl)

end Vtp.Lv
