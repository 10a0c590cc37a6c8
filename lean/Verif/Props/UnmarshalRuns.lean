import Verif.Lemmas.SimShape
import Verif.DemoDecode
/-!
# Properties that compare runs of `UnmarshalVT`: C21, C25, C47, C48
-/

namespace Vtp.Props
open Spec

/-! ## C21 -/

/-- C21. The bounds on recursion depth and loop turns in the model are immaterial: with any larger bound
`UnmarshalVT` does the same. -/
theorem unmarshal_depth {E : UEnv} (hS : schemaOK E.S = true) (hA : E.A.Valid) {t : Nat} (hf : (E.S.msg t).foreign = false) {b : Bytes}
    (hb : E.A.Fits b.length) {n : Nat} (hn : b.length < n) (m : Val) : unmarshalN E n 0 t b m = unmarshalVT E t b m := by
  unfold unmarshalVT
  rw [unmarshalN_fuel hA hS hf hn (Nat.lt_succ_self _) hb]

example (m : Val) : unmarshalN Demo.uenv 1000 0 0 Demo.bigBytes m = unmarshalVT Demo.uenv 0 Demo.bigBytes m :=
  unmarshal_depth Demo.schema_ok (.inr rfl) rfl (by decide) (by decide) m

/-! ## C25 -/

/-- The surroundings as the second of two calls meets them: the first has consumed `n` bytes of the buffer
and the pool has answered its requests. -/
def after (E : UEnv) (n : Nat) : UEnv := { E with later := E.later.drop n, alloc := fun off => E.alloc (n + off) }

/-- C25. Decoding a concatenation is decoding the pieces one after the other into the same message. -/
theorem concat_merges {E : UEnv} (hS : schemaOK E.S = true) (hA : E.A.Valid) {t : Nat} (hf : (E.S.msg t).foreign = false) {a b : Bytes}
    (hF : E.A.Fits (a ++ b).length) {m m1 m2 : Val} (h1 : unmarshalVT E t a m = (m1, .ok ()))
    (h2 : unmarshalVT (after E a.length) t b m1 = (m2, .ok ())) : unmarshalVT E t (a ++ b) m = (m2, .ok ()) := by
  refine unmarshalN_append (SameCode.refl E) (E2 := after E a.length) ⟨rfl, rfl, rfl, .inr (.inl rfl)⟩ hA hS hf hF (Nat.lt_succ_self _) (Nat.lt_succ_self _)
    (Nat.lt_succ_self _) ⟨fun _ _ _ => rfl, fun _ _ _ hp => by rw [UEnv.fresh_pooled (by exact hp)]; rfl⟩ ⟨fun k s _ => ?_, fun k t _ hp => ?_⟩ h1 h2
  · show UEnv.keep _ _ _ = UEnv.keep _ _ _
    simp [UEnv.keep, after]
  · show _ = _
    rw [UEnv.fresh_pooled (by exact hp)]
    simp [after]

example : after Demo.uenv 40 = Demo.uenv := by simp [after, Demo.uenv]

/-- A sub-message in two pieces, and a list: both pieces are accepted, hence so is the concatenation. -/
example : ∃ m2, unmarshalVT Demo.uenv 0 ([34, 2, 8, 7, 26, 1, 2] ++ [26, 1, 1, 34, 2, 8, 8]) (zeroMsg Demo.schema 0) = (m2, .ok ()) := by
  have h1 : (unmarshalVT Demo.uenv 0 [34, 2, 8, 7, 26, 1, 2] (zeroMsg Demo.schema 0)).2 = .ok () := by decide
  have h2 : (unmarshalVT Demo.uenv 0 [26, 1, 1, 34, 2, 8, 8] (unmarshalVT Demo.uenv 0 [34, 2, 8, 7, 26, 1, 2] (zeroMsg Demo.schema 0)).1).2 = .ok () := by decide
  have pair : ∀ {r : Val × Res Unit}, r.2 = .ok () → r = (r.1, .ok ()) := fun h => Prod.ext rfl h
  have h3 := pair h2
  rw [show Demo.uenv = after Demo.uenv [34, 2, 8, 7, 26, 1, 2].length from rfl] at h3
  exact ⟨_, concat_merges (E := Demo.uenv) Demo.schema_ok (.inr rfl) rfl (by decide) (pair h1) h3⟩

/-! ## C47 -/

/-- C47. As long as the buffer keeps its contents, `UnmarshalVTUnsafe` gives the same message and the same
outcome as `UnmarshalVT`, on acceptance and on rejection. On 32-bit targets this excludes maps with bytes
values, see `unsafe_differs_32`. -/
theorem unsafe_agrees_partial {E : UEnv} (hS : schemaOK E.S = true) (hA : E.A.Valid) (h32 : E.A.bits = 64 ∨ noBytesMaps E.S) {t : Nat}
    (hf : (E.S.msg t).foreign = false) {b : Bytes} (hF : E.A.Fits b.length) (m : Val) :
    unmarshalVT { E with aliasing := true, later := b } t b m = unmarshalVT { E with aliasing := false } t b m := by
  unfold unmarshalVT
  rw [unmarshalN_congr (E := { E with aliasing := true, later := b }) (E' := { E with aliasing := false }) (n' := b.length + 1) (off' := 0)
    ⟨rfl, rfl, rfl, h32.imp id .inr⟩ hA hS hf (Nat.lt_succ_self _) (Nat.lt_succ_self _) hF ?_]
  refine ⟨fun k s hs => ?_, fun _ _ _ hp => by rw [UEnv.fresh_pooled (by exact hp)]; rfl⟩
  show UEnv.keep _ _ _ = UEnv.keep _ _ _
  simp only [UEnv.keep, if_true, Nat.zero_add]
  rw [if_neg (by simp)]
  exact (List.prefix_iff_eq_take.1 hs).symm

example (m : Val) : unmarshalVT { Demo.uenv with aliasing := true, later := Demo.bigBytes } 0 Demo.bigBytes m = unmarshalVT Demo.uenv 0 Demo.bigBytes m :=
  unsafe_agrees_partial (E := Demo.uenv) Demo.schema_ok (.inr rfl) (.inl rfl) rfl (by decide) m

/-- The 32-bit exception: an entry that `UnmarshalVTUnsafe` accepts and on which `UnmarshalVT` panics. -/
theorem unsafe_differs_32 :
    (unmarshalVT { Demo.uenv2 .b32 with aliasing := true } 0 [10, 6, 18, 128, 128, 128, 128, 16] (.msg [.nil] [] [])).2 = .ok () ∧
    (unmarshalVT (Demo.uenv2 .b32) 0 [10, 6, 18, 128, 128, 128, 128, 16] (.msg [.nil] [] [])).2 = .panic .makeLen := by decide

/-! ## C48 -/

/-- C48. What `UnmarshalVT` builds does not depend on what the buffer holds afterwards. -/
theorem safe_no_alias {E : UEnv} (hS : schemaOK E.S = true) (hA : E.A.Valid) (ha : E.aliasing = false) {t : Nat} (hf : (E.S.msg t).foreign = false)
    {b : Bytes} (hF : E.A.Fits b.length) (x y : Bytes) (m : Val) :
    unmarshalVT { E with later := x } t b m = unmarshalVT { E with later := y } t b m := by
  unfold unmarshalVT
  rw [unmarshalN_congr (E := { E with later := x }) (E' := { E with later := y }) (n' := b.length + 1) (off' := 0)
    ⟨rfl, rfl, rfl, .inr (.inl rfl)⟩ hA hS hf (Nat.lt_succ_self _) (Nat.lt_succ_self _) hF ?_]
  refine ⟨fun k s hs => ?_, fun _ _ _ hp => by rw [UEnv.fresh_pooled (by exact hp)]; rfl⟩
  show UEnv.keep _ _ _ = UEnv.keep _ _ _
  simp [UEnv.keep, ha]

/-- C48. What `UnmarshalVTUnsafe` builds depends on what the buffer holds afterwards only in the contents of
strings and byte slices: overwriting the buffer changes neither their lengths nor anything else. -/
theorem unsafe_alias_only_strings {E : UEnv} (hS : schemaOK E.S = true) (hA : E.A.Valid) {t : Nat} (hf : (E.S.msg t).foreign = false) {b : Bytes}
    (hF : E.A.Fits b.length) {x y : Bytes} (hxy : x.length = y.length) (m : Val) :
    (unmarshalVT { E with later := x } t b m).2 = (unmarshalVT { E with later := y } t b m).2 ∧
    blank (unmarshalVT { E with later := x } t b m).1 = blank (unmarshalVT { E with later := y } t b m).1 := by
  have := sim_unmarshalN (lax := false) (simEnv_shape (E := { E with later := x }) (E' := { E with later := y }) ⟨rfl, rfl, rfl, .inr (.inl rfl)⟩ hA) hS
    (b.length + 1) (b.length + 1) 0 0 t b hf (by omega) hF ?_ m m rfl
  · change SimOut false _ _ (unmarshalVT { E with later := x } t b m) (unmarshalVT { E with later := y } t b m) at this
    generalize unmarshalVT { E with later := x } t b m = r at this ⊢
    generalize unmarshalVT { E with later := y } t b m = r' at this ⊢
    obtain ⟨m1, r⟩ := r
    obtain ⟨m2, r'⟩ := r'
    simp only [SimOut] at this
    cases r with
    | ok u => obtain ⟨h, v, rfl, _⟩ := this; exact ⟨rfl, h⟩
    | err e => simp only [Bool.false_eq_true, false_or] at this; exact ⟨this.2.symm, this.1⟩
    | panic e => simp only [Bool.false_eq_true, false_or] at this; exact ⟨this.2.symm, this.1⟩
    | diverge => simp only [Bool.false_eq_true, false_or] at this; exact ⟨this.2.symm, this.1⟩
  · refine ⟨fun k s hs => ?_, fun _ _ _ hp => by rw [UEnv.fresh_pooled (by exact hp)]; rfl⟩
    show (UEnv.keep _ _ _).length = (UEnv.keep _ _ _).length
    simp only [UEnv.keep, Nat.zero_add]
    split
    · simp [hxy]
    · rfl

/-- The string "hi" of the example turns into what is written to the buffer; with the copying decoder it does not. -/
example :
    ((unmarshalVT { Demo.uenv with aliasing := true, later := List.replicate 74 65 } 0 [18, 2, 104, 105] (zeroMsg Demo.schema 0)).1 !=
      (unmarshalVT { Demo.uenv with aliasing := true, later := List.replicate 74 66 } 0 [18, 2, 104, 105] (zeroMsg Demo.schema 0)).1) = true := by decide

example : (List.replicate 74 65 : Bytes).length = (List.replicate 74 66 : Bytes).length := by decide

end Vtp.Props
