import Verif.Model.Marshal
import Verif.Spec.Encode
/-!
# The fuel does not matter

The functions that recurse through messages are run with the depth of the value as fuel. Any
fuel that is large enough gives the same result.
-/

namespace Vtp
open Spec

theorem depth_mem {v : Val} : ∀ {vs : List Val}, v ∈ vs → v.depth ≤ Val.depthList vs
  | [], h => by simp at h
  | w :: vs, h => by
    rw [Val.depthList]
    rcases List.mem_cons.1 h with rfl | h
    · omega
    · have := depth_mem h; omega

theorem depth_entry {e : Key × Val} : ∀ {es : List (Key × Val)}, e ∈ es → e.2.depth ≤ Val.depthEntries es
  | [], h => by simp at h
  | (k, w) :: es, h => by
    rw [Val.depthEntries]
    rcases List.mem_cons.1 h with rfl | h
    · simp
    · have := depth_entry h; omega

theorem depth_slotOf (slots : List Val) (f : FieldDesc) : (slotOf slots f).depth ≤ Val.depthList slots := by
  unfold slotOf
  rw [List.getD_eq_getElem?_getD]
  cases h : slots[f.slot]? with
  | none => simp [Val.depth]
  | some v => exact depth_mem (List.mem_of_getElem? h)

theorem depth_slot {slots : List Val} {u e : Bytes} (f : FieldDesc) {n : Nat} (h : (Val.msg slots u e).depth ≤ n + 1) :
    (slotOf slots f).depth ≤ n := by
  have := depth_slotOf slots f
  rw [Val.depth] at h; omega

theorem depth_elems {v e : Val} (h : e ∈ v.elems) : e.depth ≤ v.depth := by
  cases v <;> simp [Val.elems] at h
  have := depth_mem h
  rw [Val.depth]; omega

theorem depth_entries {v : Val} {e : Key × Val} (h : e ∈ v.entries) : e.2.depth ≤ v.depth := by
  cases v <;> simp [Val.entries] at h
  have := depth_entry h
  rw [Val.depth]; omega

theorem depth_msg_pos {slots : List Val} {u e : Bytes} {n : Nat} (h : (Val.msg slots u e).depth ≤ n) : ∃ m, n = m + 1 := by
  rw [Val.depth] at h
  exact ⟨n - 1, by omega⟩

/-- Two recursive calls that agree on values of depth at most `n`. -/
def Agree {β : Type} (n : Nat) (r r' : Nat → Val → β) : Prop := ∀ t v, v.depth ≤ n → r t v = r' t v

section size
variable {E : Env} {r r' : Nat → Val → Nat} {n : Nat} (h : Agree n r r')
include h

theorem messageSize_agree (t : Nat) {v : Val} (hv : v.depth ≤ n) : messageSize E r t v = messageSize E r' t v := by
  simp only [messageSize, h t v hv]

theorem sizeFieldBody_agree (o : Bool) (f : FieldDesc) {v : Val} (hv : v.depth ≤ n) :
    sizeFieldBody E r o f v = sizeFieldBody E r' o f v := by
  unfold sizeFieldBody
  cases hk : f.kind <;> simp only
  case group => rw [messageSize_agree h _ hv]
  case message =>
    cases f.map with
    | some md =>
      simp only
      congr 1
      apply List.map_congr_left
      intro e he
      have : mapEntrySize E r md e = mapEntrySize E r' md e := by
        unfold mapEntrySize
        cases md.val <;> simp only
        split
        · rfl
        · rw [messageSize_agree h _ (by have := depth_entries he; omega)]
      rw [this]
    | none =>
      simp only
      split
      · congr 1
        apply List.map_congr_left
        intro e he
        rw [messageSize_agree h _ (by have := depth_elems he; omega)]
      · rw [messageSize_agree h _ hv]

theorem sizeField_agree (o : Bool) (f : FieldDesc) {v : Val} (hv : v.depth ≤ n) : sizeField E r o f v = sizeField E r' o f v := by
  simp only [sizeField, sizeFieldBody_agree h o f hv]

theorem sizeFields_agree (d : MsgDesc) {slots : List Val} (hv : Val.depthList slots ≤ n) : ∀ (fs : List FieldDesc) (seen : List Nat),
    sizeFields E r d slots seen fs = sizeFields E r' d slots seen fs := by
  intro fs
  induction fs with
  | nil => intro seen; rfl
  | cons f fs ih =>
    intro seen
    have hs := depth_slotOf slots f
    rw [sizeFields, sizeFields, ih, ih, sizeField_agree h false f (by omega)]
    have : sizeOneof E r d f.slot (slotOf slots f) = sizeOneof E r' d f.slot (slotOf slots f) := by
      unfold sizeOneof
      cases hw : slotOf slots f <;> simp only
      rename_i k x
      rw [hw, Val.depth] at hs
      cases d.member f.slot k with
      | none => rfl
      | some g => exact sizeField_agree h true g (by omega)
    rw [this]
end size

theorem sizeN_agree (E : Env) : ∀ (n m : Nat), n ≤ m → Agree n (sizeN E n) (sizeN E m) := by
  intro n
  induction n with
  | zero =>
    intro m _ t v hv
    cases v <;> cases m <;> simp [sizeN, Val.depth] at hv ⊢
  | succ n ih =>
    intro m hm t v hv
    obtain ⟨m, rfl⟩ : ∃ k, m = k + 1 := ⟨m - 1, by omega⟩
    cases v <;> simp only [sizeN]
    rw [sizeFields_agree (ih m (by omega)) _ (by rw [Val.depth] at hv; omega)]

/-- More fuel changes nothing. -/
theorem sizeN_eq (E : Env) {n t : Nat} {v : Val} (h : v.depth ≤ n) : sizeN E n t v = sizeVT E t v :=
  (sizeN_agree E _ _ h t v (Nat.le_refl _)).symm

section encode
variable {E : Env} {r r' : Nat → Val → Option Bytes} {n : Nat} (h : Agree n r r')
include h

theorem sub_agree (t : Nat) {v : Val} (hv : v.depth ≤ n) : sub E r t v = sub E r' t v := by
  simp only [sub, h t v hv]

theorem record_agree (num : Nat) (k : Kind) (t : Nat) {v : Val} (hv : v.depth ≤ n) : record E r num k t v = record E r' num k t v := by
  unfold record
  cases k <;> simp only [sub_agree h t hv]

theorem field_agree (f : FieldDesc) {v : Val} (hv : v.depth ≤ n) : field E r f v = field E r' f v := by
  unfold field
  cases f.map with
  | some md =>
    simp only
    congr 1
    apply List.map_congr_left
    intro e he
    have := depth_entries (List.mem_reverse.1 he)
    have hk : e.1.toVal.depth ≤ n := by cases e.1 <;> simp [Key.toVal, Val.depth]
    unfold entry
    rw [record_agree h 1 _ _ hk, record_agree h 2 _ _ (by omega)]
  | none =>
    simp only
    rw [record_agree h f.num _ _ hv]
    have : v.elems.map (record E r f.num f.kind f.msg) = v.elems.map (record E r' f.num f.kind f.msg) := by
      apply List.map_congr_left
      intro e he
      have := depth_elems he
      exact record_agree h _ _ _ (by omega)
    rw [this]

theorem oneof_agree (d : MsgDesc) (s : Nat) {v : Val} (hv : v.depth ≤ n) : Spec.oneof E r d s v = Spec.oneof E r' d s v := by
  unfold Spec.oneof
  cases v <;> simp only
  rename_i k x
  rw [Val.depth] at hv
  cases d.member s k <;> simp only
  exact record_agree h _ _ _ (by omega)

theorem bodyDefault_agree (d : MsgDesc) {slots : List Val} (hv : Val.depthList slots ≤ n) :
    bodyDefault E r d slots = bodyDefault E r' d slots := by
  unfold bodyDefault
  congr 2
  · apply List.map_congr_left
    intro f _
    have := depth_slotOf slots f
    exact field_agree h f (by omega)
  · apply List.map_congr_left
    intro f _
    have := depth_slotOf slots f
    exact oneof_agree h d _ (by omega)

theorem bodyStrict_agree (d : MsgDesc) {slots : List Val} (hv : Val.depthList slots ≤ n) :
    bodyStrict E r d slots = bodyStrict E r' d slots := by
  unfold bodyStrict
  congr 1
  apply List.map_congr_left
  intro f _
  have hs := depth_slotOf slots f
  rw [field_agree h f (by omega)]
  cases hw : slotOf slots f <;> simp only
  rename_i k x
  rw [hw, Val.depth] at hs
  rw [record_agree h _ _ _ (by omega)]
end encode

theorem encodeN_agree (E : Env) (s : Bool) : ∀ (n m : Nat), n ≤ m → Agree n (encodeN E s n) (encodeN E s m) := by
  intro n
  induction n with
  | zero =>
    intro m _ t v hv
    cases v <;> cases m <;> simp [encodeN, Val.depth] at hv ⊢
  | succ n ih =>
    intro m hm t v hv
    obtain ⟨m, rfl⟩ : ∃ k, m = k + 1 := ⟨m - 1, by omega⟩
    cases v <;> simp only [encodeN]
    rw [Val.depth] at hv
    rw [bodyDefault_agree (ih m (by omega)) _ (by omega), bodyStrict_agree (ih m (by omega)) _ (by omega)]

theorem encodeN_eq (E : Env) (s : Bool) {n t : Nat} {v : Val} (h : v.depth ≤ n) : encodeN E s n t v = encode E s t v :=
  (encodeN_agree E s _ _ h t v (Nat.le_refl _)).symm

section typing
variable {S : Schema} {r r' : Nat → Val → Bool} {n : Nat} (h : Agree n r r')
include h

theorem elemOK_agree (k : Kind) (t : Nat) {v : Val} (hv : v.depth ≤ n) : elemOK r k t v = elemOK r' k t v := by
  unfold elemOK
  rw [h t v hv]

omit h in
theorem all_congr {α : Type} {p q : α → Bool} (l : List α) (h : ∀ a ∈ l, p a = q a) : l.all p = l.all q := by
  induction l with
  | nil => rfl
  | cons a as ih => rw [List.all_cons, List.all_cons, h a (by simp), ih (fun b hb => h b (by simp [hb]))]

theorem fieldOK_agree (f : FieldDesc) {v : Val} (hv : v.depth ≤ n) : fieldOK r f v = fieldOK r' f v := by
  unfold fieldOK
  cases f.map with
  | some md =>
    cases v <;> simp only
    rw [Val.depth] at hv
    congr 1
    apply all_congr
    intro e he
    have := depth_entry he
    rw [elemOK_agree h _ _ (by omega)]
  | none =>
    simp only
    rw [elemOK_agree h _ _ hv]
    cases v <;> simp only
    rw [Val.depth] at hv
    rename_i xs sp
    have e1 : xs.all (elemOK r f.kind f.msg) = xs.all (elemOK r' f.kind f.msg) := by
      apply all_congr; intro e he; have := depth_mem he; exact elemOK_agree h _ _ (by omega)
    have e2 : sp.all (elemOK r f.kind f.msg) = sp.all (elemOK r' f.kind f.msg) := by
      apply all_congr; intro e he; have := depth_mem he; exact elemOK_agree h _ _ (by omega)
    rw [e1, e2]

theorem oneofOK_agree (tn : Members) (d : MsgDesc) (s : Nat) {v : Val} (hv : v.depth ≤ n) : oneofOK tn r d s v = oneofOK tn r' d s v := by
  unfold oneofOK
  cases v <;> simp only
  rename_i k x
  rw [Val.depth] at hv
  cases d.member s k <;> simp only
  rw [elemOK_agree h _ _ (show x.depth ≤ n by omega)]
end typing

theorem wtN_agree (S : Schema) (tn : Members) : ∀ (n m : Nat), n ≤ m → Agree n (wtN S tn n) (wtN S tn m) := by
  intro n
  induction n with
  | zero =>
    intro m _ t v hv
    cases v <;> cases m <;> simp [wtN, Val.depth] at hv ⊢
  | succ n ih =>
    intro m hm t v hv
    obtain ⟨m, rfl⟩ : ∃ k, m = k + 1 := ⟨m - 1, by omega⟩
    cases v <;> simp only [wtN]
    congr 2
    apply all_congr
    intro f _
    have hs := depth_slot f hv
    rw [fieldOK_agree (ih m (by omega)) _ hs, oneofOK_agree (ih m (by omega)) _ _ _ hs]

theorem wtN_eq (S : Schema) (tn : Members) {n t : Nat} {v : Val} (h : v.depth ≤ n) : wtN S tn n t v = wtN S tn v.depth t v :=
  (wtN_agree S tn _ _ h t v (Nat.le_refl _)).symm

section marshal
variable {E : Env} {r r' : Nat → Val → Bytes → Res (Bytes × Nat)} {n : Nat} (h : Agree n r r')
include h

theorem marshalSub_agree (t : Nat) {v : Val} (hv : v.depth ≤ n) : marshalSub E r t v = marshalSub E r' t v := by
  simp only [marshalSub, h t v hv]

omit h in
theorem each_congr {α : Type} {w u : α → Writer} (l : List α) (h : ∀ a ∈ l, w a = u a) : Writer.each w l = Writer.each u l := by
  induction l with
  | nil => rfl
  | cons a as ih => rw [Writer.each, Writer.each, h a (by simp), ih (fun b hb => h b (by simp [hb]))]

theorem marshalFieldBody_agree (o : Bool) (f : FieldDesc) {v : Val} (hv : v.depth ≤ n) :
    marshalFieldBody E r o f v = marshalFieldBody E r' o f v := by
  unfold marshalFieldBody
  cases hk : f.kind <;> simp only
  case group => rw [marshalSub_agree h _ hv]
  case message =>
    cases f.map with
    | some md =>
      simp only
      apply each_congr
      intro e he
      have := depth_entries he
      unfold marshalEntry
      rw [marshalSub_agree h _ (by omega)]
    | none =>
      simp only
      rw [marshalSub_agree h _ hv]
      congr 1
      apply each_congr
      intro e he
      have := depth_elems (List.mem_reverse.1 he)
      rw [marshalSub_agree h _ (by omega)]

theorem marshalField_agree (o : Bool) (f : FieldDesc) {v : Val} (hv : v.depth ≤ n) : marshalField E r o f v = marshalField E r' o f v := by
  simp only [marshalField, marshalFieldBody_agree h o f hv]

theorem marshalOneof_agree (d : MsgDesc) (s : Nat) {v : Val} (hv : v.depth ≤ n) : marshalOneof E r d s v = marshalOneof E r' d s v := by
  unfold marshalOneof
  cases v <;> simp only
  rename_i k x
  rw [Val.depth] at hv
  cases d.member s k <;> simp only
  rw [marshalField_agree h _ _ (by omega)]

theorem marshalOneofs_agree (d : MsgDesc) {slots : List Val} (hv : Val.depthList slots ≤ n) : ∀ (fs : List FieldDesc) (seen : List Nat),
    marshalOneofs E r d slots seen fs = marshalOneofs E r' d slots seen fs := by
  intro fs
  induction fs with
  | nil => intro seen; rfl
  | cons f fs ih =>
    intro seen
    have hs := depth_slotOf slots f
    rw [marshalOneofs, marshalOneofs, ih, ih, marshalOneof_agree h d _ (by omega)]

theorem marshalBody_agree (s : Bool) (d : MsgDesc) {slots : List Val} (unk : Bytes) (hv : Val.depthList slots ≤ n) :
    marshalBody E r s d slots unk = marshalBody E r' s d slots unk := by
  unfold marshalBody
  simp only
  rw [marshalOneofs_agree h d hv]
  congr 2
  · apply each_congr
    intro f _
    have hs := depth_slotOf slots f
    unfold marshalStrictField
    rw [marshalField_agree h _ _ (by omega)]
    cases hw : slotOf slots f <;> simp only
    rw [hw, Val.depth] at hs
    rw [marshalField_agree h _ _ (by omega)]
  · congr 1
    apply each_congr
    intro f _
    have hs := depth_slotOf slots f
    rw [marshalField_agree h _ _ (by omega)]
end marshal

theorem marshalToSizedN_agree (E : Env) (s : Bool) : ∀ (n m : Nat), n ≤ m → Agree n (marshalToSizedN E s n) (marshalToSizedN E s m) := by
  intro n
  induction n with
  | zero =>
    intro m _ t v hv
    funext buf
    cases v <;> cases m <;> simp [marshalToSizedN, Val.depth] at hv ⊢
  | succ n ih =>
    intro m hm t v hv
    obtain ⟨m, rfl⟩ : ∃ k, m = k + 1 := ⟨m - 1, by omega⟩
    funext buf
    cases v <;> simp only [marshalToSizedN]
    rw [Val.depth] at hv
    rw [marshalBody_agree (ih m (by omega)) _ _ _ (by omega)]

theorem marshalToSizedN_eq (E : Env) (s : Bool) {n t : Nat} {v : Val} (h : v.depth ≤ n) (buf : Bytes) :
    marshalToSizedN E s n t v buf = marshalToSized E s t v buf :=
  (congrFun (marshalToSizedN_agree E s _ _ h t v (Nat.le_refl _)) buf).symm

/-! ### The equations of the top-level functions -/

theorem sizeVT_msg (E : Env) (t : Nat) (slots : List Val) (u e : Bytes) :
    sizeVT E t (.msg slots u e) = sizeFields E (sizeVT E) (E.S.msg t) slots [] (E.S.msg t).fields +
      (if (E.S.msg t).keepUnknown then u.length else 0) := by
  rw [sizeVT, Val.depth, Nat.add_comm, sizeN]
  rw [sizeFields_agree (r' := sizeVT E) (n := Val.depthList slots) (fun t v hv => sizeN_eq E hv) _ (Nat.le_refl _)]

theorem encode_msg (E : Env) (s : Bool) (t : Nat) (slots : List Val) (u e : Bytes) :
    encode E s t (.msg slots u e) =
      (if s then bodyStrict E (encode E s) (E.S.msg t) slots else bodyDefault E (encode E s) (E.S.msg t) slots).bind
        fun b => some (b ++ (if (E.S.msg t).keepUnknown then u else [])) := by
  rw [encode, Val.depth, Nat.add_comm, encodeN]
  rw [bodyDefault_agree (r' := encode E s) (n := Val.depthList slots) (fun t v hv => encodeN_eq E s hv) _ (Nat.le_refl _),
    bodyStrict_agree (r' := encode E s) (n := Val.depthList slots) (fun t v hv => encodeN_eq E s hv) _ (Nat.le_refl _)]
  cases s <;> rfl

theorem wtM_msg (S : Schema) (tn : Members) (t : Nat) (slots : List Val) (u e : Bytes) :
    wtM S tn t (.msg slots u e) = ((S.msg t).foreign || (decide (slots.length = (S.msg t).nslots) &&
        (S.msg t).fields.all fun f =>
          if f.oneof then oneofOK tn (wtM S tn) (S.msg t) f.slot (slotOf slots f)
          else fieldOK (wtM S tn) f (slotOf slots f))) := by
  rw [wtM, Val.depth, Nat.add_comm, wtN]
  congr 2
  apply all_congr
  intro f _
  have hs := depth_slotOf slots f
  rw [fieldOK_agree (r' := wtM S tn) (n := Val.depthList slots) (fun t v hv => wtN_eq S tn hv) _ hs,
    oneofOK_agree (r' := wtM S tn) (n := Val.depthList slots) (fun t v hv => wtN_eq S tn hv) _ _ _ hs]

end Vtp
