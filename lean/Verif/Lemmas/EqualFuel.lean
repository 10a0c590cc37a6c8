import Verif.Lemmas.Depth
import Verif.Lemmas.Equal
/-! # `EqualVT` does not depend on the bound for the recursion -/

namespace Vtp

section
variable {C : CEnv} {r r' : SubEq} {n : Nat}

/-- Two comparisons of messages which agree on messages that are not too deep. -/
def AgreeEq (n : Nat) (r r' : SubEq) : Prop := ∀ path t v w, v.depth < n → w.depth < n → r path t v w = r' path t v w

/-- They also agree about new messages and values that are not messages. -/
def AgreeBad (C : CEnv) (r r' : SubEq) : Prop := ∀ path t v w, (∀ s u e, v ≠ .msg s u e) ∨ (∀ s u e, w ≠ .msg s u e) → r path t v w = r' path t v w

variable (H : AgreeEq n r r') (H' : AgreeBad C r r')
include H H'

theorem callEqual_agree (path : List Nat) (t : Nat) {v w : Val} (hv : v.depth < n) (hw : w.depth < n) : callEqual C r path t v w = callEqual C r' path t v w := by
  unfold callEqual
  rw [H path t v w hv hw]

theorem callEqual_agree_bad (path : List Nat) (t : Nat) {v w : Val} (h : (∀ s u e, v ≠ .msg s u e) ∨ (∀ s u e, w ≠ .msg s u e)) :
    callEqual C r path t v w = callEqual C r' path t v w := by
  unfold callEqual
  rw [H' path t v w h]

theorem compareCall_agree (nullable : Bool) (path : List Nat) (t : Nat) {v w : Val} (hv : v.depth < n) (hw : w.depth < n) :
    compareCall C r nullable path t v w = compareCall C r' nullable path t v w := by
  unfold compareCall
  rw [callEqual_agree H H' path t hv hw]
  split
  · rfl
  · split
    · rfl
    · rename_i hp
      have key : ∀ {x : Val}, x.depth < n → (∀ s u e, x ≠ .msg s u e) ∨ 1 < n := by
        intro x hx
        cases x
        case msg => right; rw [Val.depth] at hx; omega
        all_goals left; intro s u e he; cases he
      by_cases hvn : v.isNil = true
      · by_cases hwn : w.isNil = true
        · simp [CEnv.ptrEq, hvn, hwn] at hp
        · simp only [hvn, hwn, if_true, Bool.false_eq_true, if_false]
          rcases key hw with h | h
          · exact callEqual_agree_bad H H' path t (.inr h)
          · exact callEqual_agree H H' path t (by rw [zeroMsg_depth]; exact h) hw
      · by_cases hwn : w.isNil = true
        · simp only [hvn, hwn, if_true, Bool.false_eq_true, if_false]
          rcases key hv with h | h
          · exact callEqual_agree_bad H H' path t (.inl h)
          · exact callEqual_agree H H' path t hv (by rw [zeroMsg_depth]; exact h)
        · simp only [hvn, hwn, Bool.false_eq_true, if_false]
          exact callEqual_agree H H' path t hv hw

theorem compareKind_agree (nullable : Bool) (path : List Nat) (k : Kind) (t : Nat) {v w : Val} (hv : v.depth < n) (hw : w.depth < n) :
    compareKind C r nullable path k t v w = compareKind C r' nullable path k t v w := by
  cases k <;> first | rfl | exact compareCall_agree H H' nullable path t hv hw

omit H H' in
theorem allIdx_agree {α : Type} {f g : Nat → α → Res Bool} : ∀ {l : List α} (i : Nat), (∀ i, ∀ a ∈ l, f i a = g i a) → allIdx f i l = allIdx g i l
  | [], _, _ => rfl
  | a :: l, i, h => by
    unfold allIdx
    rw [h i a (.head _), allIdx_agree (i + 1) fun i b hb => h i b (.tail _ hb)]

omit H H' in
theorem allRes_agree {α : Type} {f g : α → Res Bool} : ∀ {l : List α}, (∀ a ∈ l, f a = g a) → allRes f l = allRes g l
  | [], _ => rfl
  | a :: l, h => by
    unfold allRes
    rw [h a (.head _), allRes_agree fun b hb => h b (.tail _ hb)]

theorem compareField_agree (path : List Nat) (f : FieldDesc) (nullable : Bool) {v w : Val} (hv : v.depth < n) (hw : w.depth < n) :
    compareField C r path f nullable v w = compareField C r' path f nullable v w := by
  unfold compareField
  split
  · split
    · rfl
    · cases f.map with
      | some md =>
        refine allIdx_agree 0 fun i e he => ?_
        cases hg : mapGet w e.1 with
        | none => rfl
        | some y =>
          simp only
          refine compareKind_agree H H' false _ _ _ (lt_of_le_of_lt (depth_entries he) hv) ?_
          unfold mapGet at hg
          obtain ⟨e', he', rfl⟩ := Option.map_eq_some_iff.mp hg
          exact lt_of_le_of_lt (depth_entries (List.mem_of_find?_eq_some he')) hw
      | none =>
        refine allIdx_agree 0 fun i x hx => ?_
        unfold indexVal
        cases hg : w.elems[i]? with
        | none => rfl
        | some y =>
          show compareKind _ _ _ _ _ _ _ _ = compareKind _ _ _ _ _ _ _ _
          exact compareKind_agree H H' false _ _ _ (lt_of_le_of_lt (depth_elems hx) hv) (lt_of_le_of_lt (depth_elems (List.mem_of_getElem? hg)) hw)
  · exact compareKind_agree H H' nullable _ _ _ hv hw

theorem compareOneof_agree (path : List Nat) (d : MsgDesc) (slot : Nat) {v w : Val} (hv : v.depth < n) (hw : w.depth < n) :
    compareOneof C r path d slot v w = compareOneof C r' path d slot v w := by
  have key : ∀ f, wrapperEqual C r path f v w = wrapperEqual C r' path f v w := by
    intro f
    unfold wrapperEqual
    cases v <;> cases w <;> try rfl
    rename_i a x b y
    rw [Val.depth] at hv hw
    simp only
    rw [compareKind_agree H H' false _ f.kind f.msg (v := x) (w := y) (by omega) (by omega)]
  unfold compareOneof
  split
  · rfl
  · split
    · split
      · rfl
      · simp only
        split
        · exact key _
        · rfl
    · rfl

end

theorem equalN_bad (C : CEnv) (n m : Nat) : AgreeBad C (equalN C (n + 1)) (equalN C (m + 1)) := by
  intro path t v w h
  unfold equalN
  split
  · rfl
  · cases v <;> cases w <;> first | rfl | skip
    rcases h with h | h <;> exact absurd rfl (h _ _ _)

theorem equalN_agree (C : CEnv) : ∀ n m, n ≤ m → AgreeEq n (equalN C n) (equalN C m) := by
  intro n
  induction n with
  | zero => intro m _ path t v w hv; omega
  | succ n ih =>
    intro m hm path t v w hv hw
    obtain ⟨m, rfl⟩ : ∃ k, m = k + 1 := ⟨m - 1, by omega⟩
    unfold equalN
    split
    · rfl
    · cases v <;> cases w <;> try rfl
      case msg.msg s u e s' u' e' _ =>
      rw [Val.depth] at hv hw
      simp only
      have hn : ∃ k, n = k + 1 := ⟨n - 1, by omega⟩
      obtain ⟨k, rfl⟩ := hn
      obtain ⟨m, rfl⟩ : ∃ k, m = k + 1 := ⟨m - 1, by omega⟩
      have H := ih (m + 1) (by omega)
      have H' := equalN_bad C k m
      have hs : ∀ f, (slotOf s f).depth < k + 1 := fun f => lt_of_le_of_lt (depth_slotOf s f) (by omega)
      have hs' : ∀ f, (slotOf s' f).depth < k + 1 := fun f => lt_of_le_of_lt (depth_slotOf s' f) (by omega)
      unfold equalBody
      simp only
      rw [allRes_agree (fun f _ => compareOneof_agree H H' _ _ _ (hs f) (hs' f)), allRes_agree (fun f _ => compareField_agree H H' _ _ _ (hs f) (hs' f))]

theorem equalN_eq (C : CEnv) {n t : Nat} {v w : Val} (hv : v.depth < n) (hw : w.depth < n) : equalN C n [] t v w = equalVT C t v w :=
  (equalN_agree C _ _ (by omega) [] t v w (by omega) (by omega)).symm

end Vtp
