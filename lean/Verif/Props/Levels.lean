import Verif.Props.Nesting
import Verif.Lemmas.Levels
import Verif.Lemmas.LevelsFuel
import Verif.Lemmas.LevelsEqual
import Verif.Lemmas.LevelsClone
/-! C100: how many messages are within one another in what the decoder makes, and how deep the calls on it nest. `sizeN E k` and `marshalToSizedN E strict k` are `SizeVT` and
`MarshalToSizedBufferVT` with at most `k` calls open at a time, and so on. -/

namespace Vtp.Props
open Vtp.Spec

/-- C100. Decoding `n` bytes never makes more than `P + n / 2` levels of messages, where `P` is the most a pool gives (one without pools), whether it ends with an error or not; only a receiver
that had more has more afterwards. -/
theorem decoded_levels {E : UEnv} {P : Nat} (hE : Shallow E P) (t : Nat) {b : Bytes} (hb : E.A.Fits b.length) (m : Val) :
    levels (unmarshalVT E t b m).1 ≤ max (levels m) (P + b.length / 2) :=
  (unmarshalN_keeps hE (b.length + 1) b.length hb 0 t b _ (Nat.le_refl _) (Nat.le_max_right _ _) m (Nat.le_max_left _ _)).1

/-- C100. `SizeVT` never has more calls open at a time than there are levels: more would not change the result. -/
theorem size_levels (E : Env) (t : Nat) (v : Val) {k : Nat} (hk : levels v ≤ k) : sizeN E k t v = sizeVT E t v := Lv.sizeN_eq E hk

/-- C100. The same of `MarshalToSizedBufferVT` and `MarshalToSizedBufferVTStrict`. -/
theorem marshal_levels (E : Env) (strict : Bool) (t : Nat) (v : Val) (buf : Bytes) {k : Nat} (hk : levels v ≤ k) :
    marshalToSizedN E strict k t v buf = marshalToSized E strict t v buf := Lv.marshalToSizedN_eq E strict hk buf

/-- C100. `EqualVT` has at most one more call open at a time than the deeper of the two has levels: the innermost call may be for a nil pointer. -/
theorem equal_levels (C : CEnv) (t : Nat) (v w : Val) {k : Nat} (hk : max (levels v) (levels w) < k) : equalN C k [] t v w = equalVT C t v w :=
  Lv.equalN_eq C (by omega) (by omega)

/-- C100. The same of `CloneVT`. -/
theorem clone_levels (K : KEnv) (t : Nat) (v : Val) {k : Nat} (hk : levels v < k) : cloneN K k [] t v = cloneVT K t v := Lv.cloneN_eq K hk

/-- C100. The same of `ResetVT`, on a message. -/
theorem reset_levels (S : Schema) (t : Nat) {v : Val} (hv : v ≠ .nil) {k : Nat} (hk : levels v < k) : resetN S k t v = resetVT S t v := Lv.resetN_eq S hv hk

/-- C100. Without pools, or with pools of new messages only, whatever was decoded from `n` bytes into a new message is measured and written with at most `1 + n / 2` calls open at a time. -/
theorem decoded_calls {E : UEnv} (hE : Shallow E 1) (t : Nat) {b : Bytes} (hb : E.A.Fits b.length) {k : Nat} (hk : 1 + b.length / 2 ≤ k) (F : Env) (strict : Bool) (buf : Bytes) :
    sizeN F k t (unmarshalVT E t b (zeroMsg E.S t)).1 = sizeVT F t (unmarshalVT E t b (zeroMsg E.S t)).1 ∧
    marshalToSizedN F strict k t (unmarshalVT E t b (zeroMsg E.S t)).1 buf = marshalToSized F strict t (unmarshalVT E t b (zeroMsg E.S t)).1 buf := by
  have h := decoded_levels hE t hb (zeroMsg E.S t)
  rw [zeroMsg_levels] at h
  exact ⟨size_levels F t _ (by omega), marshal_levels F strict t _ buf (by omega)⟩

/-! ## Cases -/

theorem nestenv_shallow : Shallow nestenv 1 where
  arch := .inr rfl
  pos := Nat.le_refl _
  pools := fun _ t h => by match t, h with | 0, h => cases h | t + 1, h => cases h
  runtime := fun _ _ _ h => by cases h
  ext := fun _ _ _ h => by cases h

/-- The first bound is attained: six bytes make four levels. With two calls `SizeVT` would give another result; what it calls for the innermost message is zero anyway. -/
example : levels (unmarshalVT nestenv 0 [10, 4, 10, 2, 10, 0] (zeroMsg nestenv.S 0)).1 = 1 + 6 / 2 ∧
    sizeN ⟨nestenv.S, Runtime.none⟩ 4 0 (unmarshalVT nestenv 0 [10, 4, 10, 2, 10, 0] (zeroMsg nestenv.S 0)).1 = 6 ∧
    sizeN ⟨nestenv.S, Runtime.none⟩ 2 0 (unmarshalVT nestenv 0 [10, 4, 10, 2, 10, 0] (zeroMsg nestenv.S 0)).1 ≠ 6 := by decide

example (b : Bytes) (hb : b.length < 2 ^ 62) : levels (unmarshalVT nestenv 0 b (zeroMsg nestenv.S 0)).1 ≤ 1 + b.length / 2 := by
  have h := decoded_levels nestenv_shallow 0 (b := b) (by unfold Arch.Fits; show b.length + 8 < 2 ^ 63; omega) (zeroMsg nestenv.S 0)
  rw [zeroMsg_levels] at h
  omega

/-- With pools that give new messages. -/
example (b : Bytes) (hb : b.length < 2 ^ 62) : levels (unmarshalVT Demo.uenv 0 b (zeroMsg Demo.uenv.S 0)).1 ≤ 1 + b.length / 2 := by
  have hE : Shallow Demo.uenv 1 := ⟨.inr rfl, Nat.le_refl _, fun _ t _ => by show levels (zeroMsg Demo.schema t) ≤ 1; rw [zeroMsg_levels],
    fun _ _ _ h => (by cases h), fun _ _ _ h => (by cases h)⟩
  have h := decoded_levels hE 0 (b := b) (by unfold Arch.Fits; show b.length + 8 < 2 ^ 63; omega) (zeroMsg Demo.uenv.S 0)
  rw [zeroMsg_levels] at h
  omega

/-- One call more, for the nil pointer, is needed. -/
example : cloneN { S := nestenv.S, R := Runtime.none, alloc := fun _ _ => .nil, direct := fun _ => true } 2 [] 0 (.msg [.msg [.nil] [] []] [] []) = .diverge ∧
    cloneN { S := nestenv.S, R := Runtime.none, alloc := fun _ _ => .nil, direct := fun _ => true } 3 [] 0 (.msg [.msg [.nil] [] []] [] []) = .ok (.msg [.msg [.nil] [] []] [] []) ∧
    levels (.msg [.msg [.nil] [] []] [] []) = 2 := by decide

/-- A receiver with more levels keeps them: the sixth byte is missing and the third level is left as it was. -/
example : levels (unmarshalVT nestenv 0 [10, 4, 10] (.msg [.msg [.msg [.nil] [] []] [] []] [] [])).1 = 3 ∧
    (unmarshalVT nestenv 0 [10, 4, 10] (.msg [.msg [.msg [.nil] [] []] [] []] [] [])).2 ≠ .ok () := by decide

end Vtp.Props
