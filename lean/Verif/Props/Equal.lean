import Verif.Lemmas.EqualEncode
import Verif.Props.Marshal
import Verif.Demo
import Mathlib.Tactic.FinCases
/-!
# Claims about `EqualVT` and `EqualMessageVT`

C40: an equivalence. C41: it decides sameness of content. C42: it does not panic; equal messages marshal alike.

`Same` is in `Spec/Same.lean`. Pointer identity between the two messages is a parameter (`CEnv.same`); `CEnv.apart` says
that the messages share no pointers.
-/

namespace Vtp.Props
open Vtp Spec

/-- Equality decided by comparing the values: an equivalence, as assumed of `proto.Equal`. -/
def structural : Runtime := { Runtime.none with equal := fun _ v w => decide (v = w) }

theorem structural_ok : RuntimeEqual structural where
  refl := by simp [structural]
  symm := by simp [structural, eq_comm]
  trans := by
    intro t u v w h1 h2
    simp only [structural, decide_eq_true_iff] at *
    exact h1.trans h2
  isNil := by
    intro t v w h
    simp only [structural, decide_eq_true_iff] at h
    rw [h]

/-- The demo schema with that runtime. -/
def cenv : CEnv := { S := Demo.schema, R := structural }

/-! ## C42, first part -/

/-- C42. On messages or nil pointers of the type, with anything their Go types allow in them, `EqualVT` returns a boolean: no
panic, no endless recursion. -/
theorem equal_total {C : CEnv} (hS : schemaOK C.S = true) (hR : RuntimeEqual C.R) {t : Nat} (hf : (C.S.msg t).foreign = false) {v w : Val}
    (hv : v = .nil ∨ wtM C.S .typedNil t v = true) (hw : w = .nil ∨ wtM C.S .typedNil t w = true) : ∃ b, equalVT C t v w = .ok b := by
  obtain ⟨b, h, _⟩ := dec_equalVT hS hR hf hv hw
  exact ⟨b, h⟩

example : equalVT cenv 0 Demo.big Demo.big = .ok true ∧ equalVT cenv 0 Demo.big .nil = .ok false ∧ equalVT cenv 0 .nil .nil = .ok true := by decide

/-! ## C41 -/

/-- C41. Messages with the same content are `EqualVT`, whatever pointers they share. -/
theorem equal_of_same {C : CEnv} (hS : schemaOK C.S = true) (hR : RuntimeEqual C.R) {t : Nat} (hf : (C.S.msg t).foreign = false) {v w : Val}
    (hv : v = .nil ∨ wtM C.S .typedNil t v = true) (hw : w = .nil ∨ wtM C.S .typedNil t w = true) (h : Same C.S C.R t v w) :
    equalVT C t v w = .ok true := by
  obtain ⟨b, h1, h2, _⟩ := dec_equalVT hS hR hf hv hw
  rw [h1, h2 h]

/-- C41. `EqualVT` is true exactly when the messages have the same content, if they share no pointers or the receiver has no NaN in it.
Otherwise shared pointers make a difference, see `nan_shared`. -/
theorem equal_iff_same {C : CEnv} (hS : schemaOK C.S = true) (hR : RuntimeEqual C.R) {t : Nat} (hf : (C.S.msg t).foreign = false) {v w : Val}
    (hv : v = .nil ∨ wtM C.S .typedNil t v = true) (hw : w = .nil ∨ wtM C.S .typedNil t w = true) (hn : C.apart ∨ NoNaN C.S t v) :
    (equalVT C t v w = .ok true ↔ Same C.S C.R t v w) ∧ (equalVT C t v w = .ok false ↔ ¬ Same C.S C.R t v w) := by
  obtain ⟨b, h1, h2, h3⟩ := dec_equalVT hS hR hf hv hw
  have hq : C.apart ∨ Same C.S C.R t v v := by
    refine hn.imp id fun hn => ?_
    rcases hv with rfl | hv
    · rw [same_iff]; trivial
    · exact same_refl hS hR.refl hf hv hn
  rw [h1]
  cases b
  · simp only [Res.ok.injEq, Bool.false_eq_true, true_iff, false_iff]
    exact ⟨fun h => (by cases h2 h), fun h => (by cases h2 h)⟩
  · simp only [Res.ok.injEq, Bool.true_eq_false, true_iff, false_iff, not_not]
    exact ⟨h3 rfl hq, h3 rfl hq⟩

/-- What `Same` says of non-nil messages, in one step. -/
theorem same_content {S : Schema} {R : Runtime} {t : Nat} {s s' : List Val} {u u' e e' : Bytes} :
    Same S R t (.msg s u e) (.msg s' u' e') ↔
      (∀ f ∈ (S.msg t).fields, if f.oneof then SameOneof S (subSame S R (Same S R)) (S.msg t) f.slot (slotOf s f) (slotOf s' f)
        else SameField S (subSame S R (Same S R)) f (slotOf s f) (slotOf s' f)) ∧
      ((S.msg t).keepUnknown = true → u = u') := by
  rw [same_iff]; rfl

/-- The same message with one map in another order. -/
def bigShuffled : Val := .msg [
  .num 150, .str [104, 105], .list [.num 1, .num (-1)] [], Demo.small 7,
  .map [(.num 3, .msg [.num 4, .str [9]] [] []), (.num 1, Demo.small 2)],
  .wrap 7 (Demo.small 5), .num 0x3ff0000000000000, .list [Demo.small 1, Demo.small 2] [], .str [1, 2, 3],
  .list [.str [], .str [65]] [], .num 0x3f800000] [0x98, 0x06, 0x01] []

theorem apart : cenv.apart := fun _ => rfl

example : equalVT cenv 0 Demo.big bigShuffled = .ok true := by decide

example : Same cenv.S cenv.R 0 Demo.big bigShuffled :=
  (equal_iff_same Demo.schema_ok structural_ok (by decide) (.inr (by decide)) (.inr (by decide)) (.inl apart)).1.1 (by decide)

example : ¬ Same cenv.S cenv.R 1 (.msg [.num 1, .nil] [] []) (.msg [.num 1, .str []] [] []) :=
  (equal_iff_same Demo.schema_ok structural_ok (by decide) (.inr (by decide)) (.inr (by decide)) (.inl apart)).2.1 (by decide)

/-- C41, limit. Extensions, which the generated struct holds for proto2 messages, are not compared: messages that differ in them
only are `EqualVT`. -/
theorem extensions_not_compared : ∃ v w, v ≠ w ∧ wt Demo.schema 1 v = true ∧ wt Demo.schema 1 w = true ∧ equalVT cenv 1 v w = .ok true :=
  ⟨.msg [.num 1, .nil] [] [0xa0, 0x06, 0x01], .msg [.num 1, .nil] [] [], by decide⟩

/-- C41. `EqualMessageVT` is `EqualVT` on messages of the same Go type, and false on others and on the nil interface. -/
theorem equalMessage_iff (C : CEnv) (t : Nat) (v : Val) (that : Option (Nat × Val)) :
    (∀ w, that = some (t, w) → equalMessageVT C t v that = equalVT C t v w) ∧
    ((∀ w, that ≠ some (t, w)) → equalMessageVT C t v that = .ok false) := by
  constructor
  · rintro w rfl; simp [equalMessageVT]
  · intro h
    cases that with
    | none => rfl
    | some p =>
      obtain ⟨t', w⟩ := p
      have : t' ≠ t := fun e => h w (by rw [e])
      simp [equalMessageVT, this]

example : equalMessageVT cenv 1 (Demo.small 1) (some (0, Demo.big)) = .ok false ∧ equalMessageVT cenv 1 .nil (some (1, .nil)) = .ok true := by decide

/-! ## C40 -/

/-- C40. `EqualVT` is symmetric. -/
theorem equal_symm {C : CEnv} (hS : schemaOK C.S = true) (hR : RuntimeEqual C.R) {t : Nat} (hf : (C.S.msg t).foreign = false) {v w : Val}
    (hv : v = .nil ∨ wtM C.S .typedNil t v = true) (hw : w = .nil ∨ wtM C.S .typedNil t w = true)
    (hn : C.apart ∨ (NoNaN C.S t v ∧ NoNaN C.S t w)) : equalVT C t v w = equalVT C t w v := by
  have h1 := equal_iff_same hS hR hf hv hw (hn.imp id (·.1))
  have h2 := equal_iff_same hS hR hf hw hv (hn.imp id (·.2))
  by_cases h : Same C.S C.R t v w
  · rw [h1.1.2 h, h2.1.2 (same_symm hR.symm h)]
  · rw [h1.2.2 h, h2.2.2 fun h' => h (same_symm hR.symm h')]

/-- C40. `EqualVT` is transitive; the three comparisons may share pointers in any way if there is no NaN. -/
theorem equal_trans {S : Schema} {R : Runtime} {p q r : List Nat → Bool} (hS : schemaOK S = true) (hR : RuntimeEqual R) {t : Nat}
    (hf : (S.msg t).foreign = false) {u v w : Val} (hu : u = .nil ∨ wtM S .typedNil t u = true)
    (hv : v = .nil ∨ wtM S .typedNil t v = true) (hw : w = .nil ∨ wtM S .typedNil t w = true)
    (hn : ((∀ x, p x = false) ∧ ∀ x, q x = false) ∨ (NoNaN S t u ∧ NoNaN S t v))
    (h1 : equalVT ⟨S, R, p⟩ t u v = .ok true) (h2 : equalVT ⟨S, R, q⟩ t v w = .ok true) : equalVT ⟨S, R, r⟩ t u w = .ok true := by
  have e1 := (equal_iff_same (C := ⟨S, R, p⟩) hS hR hf hu hv (hn.imp (·.1) (·.1))).1.1 h1
  have e2 := (equal_iff_same (C := ⟨S, R, q⟩) hS hR hf hv hw (hn.imp (·.2) (·.2))).1.1 h2
  exact equal_of_same (C := ⟨S, R, r⟩) hS hR hf hu hw (same_trans hR.trans e1 e2)

/-- C40. Two copies of a message without NaN are `EqualVT`, whatever they share. -/
theorem equal_refl {C : CEnv} (hS : schemaOK C.S = true) (hR : RuntimeEqual C.R) {t : Nat} (hf : (C.S.msg t).foreign = false) {v : Val}
    (hv : wtM C.S .typedNil t v = true) (hn : NoNaN C.S t v) : equalVT C t v v = .ok true :=
  equal_of_same hS hR hf (.inr hv) (.inr hv) (same_refl hS hR.refl hf hv hn)

/-- C40. Every message is `EqualVT` to itself (the same pointer). -/
theorem equal_self (C : CEnv) (h : C.same [] = true) (t : Nat) (v : Val) : equalVT C t v v = .ok true := by
  simp [equalVT, equalN, CEnv.ptrEq, h]

theorem big_noNaN : NoNaN Demo.schema 0 Demo.big := by
  intro n
  rcases n with _ | _ | n
  · trivial
  · intro _ f hf
    fin_cases hf <;> simp [slotOf, NoNaNElem, NoNaNN, numValue, ieee, Val.bits, Demo.small]
  · intro _ f hf
    fin_cases hf <;> simp [slotOf, NoNaNElem, NoNaNN, numValue, ieee, Val.bits, Demo.small, Demo.schema, Schema.msg]

example := equal_refl (C := cenv) Demo.schema_ok structural_ok (by decide) (by decide) big_noNaN
example := equal_symm (C := cenv) (t := 0) (v := Demo.big) (w := bigShuffled) Demo.schema_ok structural_ok (by decide) (.inr (by decide)) (.inr (by decide)) (.inl apart)
example : equalVT cenv 0 bigShuffled Demo.big = .ok true :=
  equal_trans (p := fun _ => false) (q := fun _ => false) (v := Demo.big) Demo.schema_ok structural_ok (by decide) (.inr (by decide)) (.inr (by decide))
    (.inr (by decide)) (.inl ⟨fun _ => rfl, fun _ => rfl⟩) (by decide) (by decide)

/-- C40, limit. Two copies of a message with a NaN in it are not `EqualVT`. -/
theorem nan_differs : ∃ v, wt Demo.schema 0 v = true ∧ equalVT cenv 0 v v = .ok false :=
  ⟨.msg [.num 0, .str [], .nil, .nil, .nil, .nil, .num 0x7ff8000000000001, .nil, .nil, .nil, .num 0] [] [], by decide⟩

/-- C40, C41, limit. With NaN, shared pointers make a difference: the copy is `EqualVT` to the message if the NaN is behind a shared
pointer, and not otherwise. -/
theorem nan_shared : ∃ (S : Schema) (v : Val), schemaOK S = true ∧ wt S 0 v = true ∧
    equalVT { S := S, R := structural, same := fun p => decide (p = [0]) } 0 v v = .ok true ∧
    equalVT { S := S, R := structural } 0 v v = .ok false :=
  ⟨[{ fields := [{ num := 1, slot := 0, kind := .message, presence := true, msg := 1 }], nslots := 1 },
    { fields := [{ num := 1, slot := 0, kind := .double }], nslots := 1 }],
   .msg [.msg [.num 0x7ff8000000000001] [] []] [] [], by decide⟩

/-! ## C42, second part -/

/-- C42. Messages that are `EqualVT` marshal to the same bytes, or both fail, with the second message's maps iterated in a suitable
order. Excluded are negative zeros (in elements and fields with presence), nil messages in lists, maps and oneofs if the type has
required fields, and receivers with NaN which share pointers with the argument; see the witnesses below. -/
theorem equal_marshals_same_partial {C : CEnv} (strict : Bool) (hS : schemaOK C.S = true) (hR : RuntimeEqual C.R) (hE : RuntimeEnc C.R)
    (hF : RuntimeSame C.S C.R) {t : Nat} (hf : (C.S.msg t).foreign = false) {v w : Val} (hv : wt C.S t v = true) (hw : wt C.S t w = true)
    (hn : C.apart ∨ NoNaN C.S t v) (tv : Tidy C.S t v) (tw : Tidy C.S t w) (h : equalVT C t v w = .ok true) :
    ∃ w', Shuffle w w' ∧ wt C.S t w' = true ∧
      (∀ b, marshalVT ⟨C.S, C.R⟩ strict t v = .ok (some b) ↔ marshalVT ⟨C.S, C.R⟩ strict t w' = .ok (some b)) ∧
      ((marshalVT ⟨C.S, C.R⟩ strict t v).Fails ↔ (marshalVT ⟨C.S, C.R⟩ strict t w').Fails) := by
  have hv' : wtM C.S .typedNil t v = true := members_weaken (by simp) (by simp) _ _ _ hv
  have hw' : wtM C.S .typedNil t w = true := members_weaken (by simp) (by simp) _ _ _ hw
  have hs := (equal_iff_same hS hR hf (.inr hv') (.inr hw') hn).1.1 h
  obtain ⟨w', h1, h2⟩ := enc_same (E := ⟨C.S, C.R⟩) (strict := strict) hS hF hE _ t v w hf (Nat.le_refl _) hv hw hs tv tw
  have hw'' := shuffle_wtM h1 hw
  refine ⟨w', h1, hw'', ?_, ?_⟩
  · intro b
    rw [(marshal_encodes (E := ⟨C.S, C.R⟩) strict hS hE hv hf).1, (marshal_encodes (E := ⟨C.S, C.R⟩) strict hS hE hw'' hf).1, h2]
  · rw [(marshal_encodes (E := ⟨C.S, C.R⟩) strict hS hE hv hf).2.1, (marshal_encodes (E := ⟨C.S, C.R⟩) strict hS hE hw'' hf).2.1, h2]

theorem big_tidy : Tidy Demo.schema 0 Demo.big := by
  intro n
  rcases n with _ | _ | n
  · trivial
  · intro _ f hf
    fin_cases hf <;> simp [slotOf, TidyElem, TidyN, Val.bits, negZero, Demo.small]
  · intro _ f hf
    fin_cases hf <;> simp [slotOf, TidyElem, TidyN, Val.bits, negZero, Demo.small, Demo.schema, Schema.msg]

theorem bigShuffled_tidy : Tidy Demo.schema 0 bigShuffled := by
  intro n
  rcases n with _ | _ | n
  · trivial
  · intro _ f hf
    fin_cases hf <;> simp [slotOf, TidyElem, TidyN, Val.bits, negZero, Demo.small]
  · intro _ f hf
    fin_cases hf <;> simp [slotOf, TidyElem, TidyN, Val.bits, negZero, Demo.small, Demo.schema, Schema.msg]

theorem structural_enc : RuntimeEnc structural := ⟨fun _ _ _ h => by cases h; rfl, fun _ => rfl⟩
theorem structural_same (S : Schema) : RuntimeSame S structural := by
  intro t v w _ h
  simp only [structural, decide_eq_true_iff] at h
  exact ⟨w, .refl _, by rw [h]⟩

example := equal_marshals_same_partial (C := cenv) (t := 0) (v := Demo.big) (w := bigShuffled) false Demo.schema_ok structural_ok structural_enc (structural_same _) (by decide)
  (by decide) (by decide) (.inl apart) big_tidy bigShuffled_tidy (by decide)

/-- C42, limit. The two zeros of a float are `EqualVT` but marshal differently in a field with presence. -/
theorem zeros_marshal_differently : ∃ v w, wt Demo.schema 0 v = true ∧ wt Demo.schema 0 w = true ∧ equalVT cenv 0 v w = .ok true ∧
    marshalVT Demo.env false 0 v ≠ marshalVT Demo.env false 0 w ∧ sizeVT Demo.env 0 v = sizeVT Demo.env 0 w :=
  ⟨.msg [.num 0, .str [], .nil, .nil, .nil, .nil, .num 0, .nil, .nil, .nil, .num 0] [] [],
   .msg [.num 0, .str [], .nil, .nil, .nil, .nil, .num 0x8000000000000000, .nil, .nil, .nil, .num 0] [] [], by decide⟩

/-- C42, limit. A nil message in a list is `EqualVT` to an empty one; but if its type has required fields only the former marshals. -/
theorem nil_marshals_differently : ∃ v w, wt Demo.schema 0 v = true ∧ wt Demo.schema 0 w = true ∧ equalVT cenv 0 v w = .ok true ∧
    (∃ b, marshalVT Demo.env false 0 v = .ok (some b)) ∧ (marshalVT Demo.env false 0 w).Fails :=
  ⟨.msg [.num 0, .str [], .nil, .nil, .nil, .nil, .nil, .list [.nil] [], .nil, .nil, .num 0] [] [],
   .msg [.num 0, .str [], .nil, .nil, .nil, .nil, .nil, .list [.msg [.nil, .nil] [] []] [], .nil, .nil, .num 0] [] [],
   by decide, by decide, by decide, ⟨[74, 0], by decide⟩, by decide⟩

end Vtp.Props
