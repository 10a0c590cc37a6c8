import Verif.Model.Marshal
import Verif.Spec.Nesting
import Verif.Lemmas.Depth
/-!
# Calls of SizeVT and MarshalVT nest no deeper than messages do

As in `Lemmas/Depth`, with the number of messages within one another for the depth of the value.
-/

namespace Vtp.Lv
open Spec

theorem depth_mem {v : Val} : ∀ {vs : List Val}, v ∈ vs → levels v ≤ mostLevels vs
  | [], h => by simp at h
  | w :: vs, h => by
    rw [mostLevels]
    rcases List.mem_cons.1 h with rfl | h
    · omega
    · have := depth_mem h; omega

theorem depth_entry {e : Key × Val} : ∀ {es : List (Key × Val)}, e ∈ es → levels e.2 ≤ entriesLevels es
  | [], h => by simp at h
  | (k, w) :: es, h => by
    rw [entriesLevels]
    rcases List.mem_cons.1 h with rfl | h
    · simp
    · have := depth_entry h; omega

theorem depth_slotOf (slots : List Val) (f : FieldDesc) : levels (slotOf slots f) ≤ mostLevels slots := by
  unfold slotOf
  rw [List.getD_eq_getElem?_getD]
  cases h : slots[f.slot]? with
  | none => simp [levels]
  | some v => exact depth_mem (List.mem_of_getElem? h)

theorem depth_slot {slots : List Val} {u e : Bytes} (f : FieldDesc) {n : Nat} (h : levels (Val.msg slots u e) ≤ n + 1) :
    levels (slotOf slots f) ≤ n := by
  have := depth_slotOf slots f
  rw [levels] at h; omega

theorem depth_elems {v e : Val} (h : e ∈ v.elems) : levels e ≤ levels v := by
  cases v <;> simp [Val.elems] at h
  have := depth_mem h
  rw [levels]; omega

theorem depth_entries {v : Val} {e : Key × Val} (h : e ∈ v.entries) : levels e.2 ≤ levels v := by
  cases v <;> simp [Val.entries] at h
  have := depth_entry h
  rw [levels]; omega

theorem depth_msg_pos {slots : List Val} {u e : Bytes} {n : Nat} (h : levels (Val.msg slots u e) ≤ n) : ∃ m, n = m + 1 := by
  rw [levels] at h
  exact ⟨n - 1, by omega⟩

/-- Two recursive calls that agree on values of at most `n` levels. -/
def Agree {β : Type} (n : Nat) (r r' : Nat → Val → β) : Prop := ∀ t v, levels v ≤ n → r t v = r' t v

section size
variable {E : Env} {r r' : Nat → Val → Nat} {n : Nat} (h : Agree n r r')
include h

theorem messageSize_agree (t : Nat) {v : Val} (hv : levels v ≤ n) : messageSize E r t v = messageSize E r' t v := by
  simp only [messageSize, h t v hv]

theorem sizeFieldBody_agree (o : Bool) (f : FieldDesc) {v : Val} (hv : levels v ≤ n) :
    sizeFieldBody E r o f v = sizeFieldBody E r' o f v := by
  unfold sizeFieldBody
  cases hk : f.kind <;> simp only
  case group => rw [messageSize_agree h _ hv]
  case message =>
    cases f.map with
    | some md =>
      simp only
      congr 1
      apply List.map_congr_left
      intro e he
      have : mapEntrySize E r md e = mapEntrySize E r' md e := by
        unfold mapEntrySize
        cases md.val <;> simp only
        split
        · rfl
        · rw [messageSize_agree h _ (by have := depth_entries he; omega)]
      rw [this]
    | none =>
      simp only
      split
      · congr 1
        apply List.map_congr_left
        intro e he
        rw [messageSize_agree h _ (by have := depth_elems he; omega)]
      · rw [messageSize_agree h _ hv]

theorem sizeField_agree (o : Bool) (f : FieldDesc) {v : Val} (hv : levels v ≤ n) : sizeField E r o f v = sizeField E r' o f v := by
  simp only [sizeField, sizeFieldBody_agree h o f hv]

theorem sizeFields_agree (d : MsgDesc) {slots : List Val} (hv : mostLevels slots ≤ n) : ∀ (fs : List FieldDesc) (seen : List Nat),
    sizeFields E r d slots seen fs = sizeFields E r' d slots seen fs := by
  intro fs
  induction fs with
  | nil => intro seen; rfl
  | cons f fs ih =>
    intro seen
    have hs := depth_slotOf slots f
    rw [sizeFields, sizeFields, ih, ih, sizeField_agree h false f (by omega)]
    have : sizeOneof E r d f.slot (slotOf slots f) = sizeOneof E r' d f.slot (slotOf slots f) := by
      unfold sizeOneof
      cases hw : slotOf slots f <;> simp only
      rename_i k x
      rw [hw, levels] at hs
      cases d.member f.slot k with
      | none => rfl
      | some g => exact sizeField_agree h true g (by omega)
    rw [this]
end size

theorem sizeN_agree (E : Env) : ∀ (n m : Nat), n ≤ m → Agree n (sizeN E n) (sizeN E m) := by
  intro n
  induction n with
  | zero =>
    intro m _ t v hv
    cases v <;> cases m <;> simp [sizeN, levels] at hv ⊢
  | succ n ih =>
    intro m hm t v hv
    obtain ⟨m, rfl⟩ : ∃ k, m = k + 1 := ⟨m - 1, by omega⟩
    cases v <;> simp only [sizeN]
    rw [sizeFields_agree (ih m (by omega)) _ (by rw [levels] at hv; omega)]

mutual
theorem levels_le_depth : ∀ v : Val, levels v ≤ v.depth
  | .nil => Nat.le_refl _
  | .num _ => Nat.le_refl _
  | .str _ => Nat.le_refl _
  | .msg s _ _ => by have := mostLevels_le_depth s; simp only [levels, Val.depth]; omega
  | .list xs sp => by have := mostLevels_le_depth xs; have := mostLevels_le_depth sp; simp only [levels, Val.depth]; omega
  | .map es => by have := entriesLevels_le_depth es; simp only [levels, Val.depth]; omega
  | .wrap _ v => by have := levels_le_depth v; simp only [levels, Val.depth]; omega
  | .wrapNil _ => Nat.zero_le _
theorem mostLevels_le_depth : ∀ vs : List Val, mostLevels vs ≤ Val.depthList vs
  | [] => Nat.le_refl _
  | v :: vs => by have := levels_le_depth v; have := mostLevels_le_depth vs; simp only [mostLevels, Val.depthList]; omega
theorem entriesLevels_le_depth : ∀ es : List (Key × Val), entriesLevels es ≤ Val.depthEntries es
  | [] => Nat.le_refl _
  | (_, v) :: es => by have := levels_le_depth v; have := entriesLevels_le_depth es; simp only [entriesLevels, Val.depthEntries]; omega
end

/-- More calls change nothing. -/
theorem sizeN_eq (E : Env) {n t : Nat} {v : Val} (h : levels v ≤ n) : sizeN E n t v = sizeVT E t v :=
  (sizeN_agree E _ _ h t v (Nat.le_refl _)).symm.trans (sizeN_agree E _ _ (levels_le_depth v) t v (Nat.le_refl _))

section marshal
variable {E : Env} {r r' : Nat → Val → Bytes → Res (Bytes × Nat)} {n : Nat} (h : Agree n r r')
include h

theorem marshalSub_agree (t : Nat) {v : Val} (hv : levels v ≤ n) : marshalSub E r t v = marshalSub E r' t v := by
  simp only [marshalSub, h t v hv]

omit h in
theorem each_congr {α : Type} {w u : α → Writer} (l : List α) (h : ∀ a ∈ l, w a = u a) : Writer.each w l = Writer.each u l := by
  induction l with
  | nil => rfl
  | cons a as ih => rw [Writer.each, Writer.each, h a (by simp), ih (fun b hb => h b (by simp [hb]))]

theorem marshalFieldBody_agree (o : Bool) (f : FieldDesc) {v : Val} (hv : levels v ≤ n) :
    marshalFieldBody E r o f v = marshalFieldBody E r' o f v := by
  unfold marshalFieldBody
  cases hk : f.kind <;> simp only
  case group => rw [marshalSub_agree h _ hv]
  case message =>
    cases f.map with
    | some md =>
      simp only
      apply each_congr
      intro e he
      have := depth_entries he
      unfold marshalEntry
      rw [marshalSub_agree h _ (by omega)]
    | none =>
      simp only
      rw [marshalSub_agree h _ hv]
      congr 1
      apply each_congr
      intro e he
      have := depth_elems (List.mem_reverse.1 he)
      rw [marshalSub_agree h _ (by omega)]

theorem marshalField_agree (o : Bool) (f : FieldDesc) {v : Val} (hv : levels v ≤ n) : marshalField E r o f v = marshalField E r' o f v := by
  simp only [marshalField, marshalFieldBody_agree h o f hv]

theorem marshalOneof_agree (d : MsgDesc) (s : Nat) {v : Val} (hv : levels v ≤ n) : marshalOneof E r d s v = marshalOneof E r' d s v := by
  unfold marshalOneof
  cases v <;> simp only
  rename_i k x
  rw [levels] at hv
  cases d.member s k <;> simp only
  rw [marshalField_agree h _ _ (by omega)]

theorem marshalOneofs_agree (d : MsgDesc) {slots : List Val} (hv : mostLevels slots ≤ n) : ∀ (fs : List FieldDesc) (seen : List Nat),
    marshalOneofs E r d slots seen fs = marshalOneofs E r' d slots seen fs := by
  intro fs
  induction fs with
  | nil => intro seen; rfl
  | cons f fs ih =>
    intro seen
    have hs := depth_slotOf slots f
    rw [marshalOneofs, marshalOneofs, ih, ih, marshalOneof_agree h d _ (by omega)]

theorem marshalBody_agree (s : Bool) (d : MsgDesc) {slots : List Val} (unk : Bytes) (hv : mostLevels slots ≤ n) :
    marshalBody E r s d slots unk = marshalBody E r' s d slots unk := by
  unfold marshalBody
  simp only
  rw [marshalOneofs_agree h d hv]
  congr 2
  · apply each_congr
    intro f _
    have hs := depth_slotOf slots f
    unfold marshalStrictField
    rw [marshalField_agree h _ _ (by omega)]
    cases hw : slotOf slots f <;> simp only
    rw [hw, levels] at hs
    rw [marshalField_agree h _ _ (by omega)]
  · congr 1
    apply each_congr
    intro f _
    have hs := depth_slotOf slots f
    rw [marshalField_agree h _ _ (by omega)]
end marshal

theorem marshalToSizedN_agree (E : Env) (s : Bool) : ∀ (n m : Nat), n ≤ m → Agree n (marshalToSizedN E s n) (marshalToSizedN E s m) := by
  intro n
  induction n with
  | zero =>
    intro m _ t v hv
    funext buf
    cases v <;> cases m <;> simp [marshalToSizedN, levels] at hv ⊢
  | succ n ih =>
    intro m hm t v hv
    obtain ⟨m, rfl⟩ : ∃ k, m = k + 1 := ⟨m - 1, by omega⟩
    funext buf
    cases v <;> simp only [marshalToSizedN]
    rw [levels] at hv
    rw [marshalBody_agree (ih m (by omega)) _ _ _ (by omega)]

theorem marshalToSizedN_eq (E : Env) (s : Bool) {n t : Nat} {v : Val} (h : levels v ≤ n) (buf : Bytes) :
    marshalToSizedN E s n t v buf = marshalToSized E s t v buf :=
  (congrFun (marshalToSizedN_agree E s _ _ h t v (Nat.le_refl _)) buf).symm.trans
    (congrFun (marshalToSizedN_agree E s _ _ (levels_le_depth v) t v (Nat.le_refl _)) buf)

end Vtp.Lv
