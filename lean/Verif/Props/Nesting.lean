import Verif.Lemmas.Nesting
import Verif.Lemmas.Bomb
import Verif.Props.Unmarshal
import Verif.DemoDecode
/-! C99: how deep the calls of the decoder nest. `unmarshalN E k` is the decoder with at most `k` calls of `UnmarshalVT` open at a time; its result is `diverge` if it would
need more. -/

namespace Vtp.Props
open Vtp.Spec

/-- C99. Decoding `b` never has more than `1 + b.length / 2` calls open at a time: more would not change the result. -/
theorem nesting_bound {E : UEnv} (hE : DecodeEnv E) {t : Nat} (hf : (E.S.msg t).foreign = false) {m : Val} (hm : wtM E.S .solid t m = true) {b : Bytes}
    (hb : E.A.Fits b.length) {k : Nat} (hk : 1 + b.length / 2 ≤ k) :
    unmarshalN E k 0 t b m = unmarshalVT E t b m ∧ (unmarshalN E k 0 t b m).2 ≠ .diverge := by
  have h : unmarshalN E k 0 t b m = unmarshalVT E t b m :=
    congrFun (unmarshalN_half (n := k) (n' := b.length + 1) hE.arch hE.schema hf (by omega) (by omega) hb) m
  exact ⟨h, h ▸ unmarshal_terminates hE hf hm hb⟩

/-- C99. Nothing else limits the calls: messages within messages, along any fields, take a call for each, whether or not required fields are then found to be missing. -/
theorem nesting_reached {E : UEnv} (hS : schemaOK E.S = true) (hA : E.A.Valid) (hp : ∀ t, (E.S.msg t).pooled = false) {t : Nat} {fs : List FieldDesc}
    (hc : Chain E.S t fs) (hb : E.A.Fits (nested fs).length) {k : Nat} (hk : k ≤ fs.length) :
    (unmarshalN E k 0 t (nested fs) (zeroMsg E.S t)).2 = .diverge :=
  nested_diverges hS hA hp fs t hc hb k hk 0

/-- C99. A message type that can be within itself has, for any `n`, an encoding of at most `20 n` bytes which is accepted and has more than `n` calls open at a time. -/
theorem nesting_unlimited {E : UEnv} (hS : schemaOK E.S = true) (hA : E.A.Valid) (hp : ∀ t, (E.S.msg t).pooled = false)
    (hreq : ∀ t, ∀ g ∈ (E.S.msg t).fields, g.card ≠ .required) {t : Nat} (hf : (E.S.msg t).foreign = false) {f : FieldDesc} (hmem : f ∈ (E.S.msg t).fields)
    (hk : f.kind = .message) (hm : f.map = none) (ht : f.msg = t) (n : Nat) (hn : E.A.Fits (20 * n)) :
    ∃ b, b.length ≤ 20 * n ∧ (unmarshalVT E t b (zeroMsg E.S t)).2 = .ok () ∧ ∀ k ≤ n, (unmarshalN E k 0 t b (zeroMsg E.S t)).2 = .diverge := by
  have hc : ∀ n, Chain E.S t (List.replicate n f) := by
    intro n
    induction n with
    | zero => exact .nil t
    | succ n ih => exact .cons hmem hk hm (ht ▸ hf) (ht.symm ▸ ih)
  have hl := nested_length (List.replicate n f)
  rw [List.length_replicate] at hl
  have hF : E.A.Fits (nested (List.replicate n f)).length := by unfold Arch.Fits at hn ⊢; omega
  have hlow : ∀ fs : List FieldDesc, fs.length ≤ (nested fs).length := by
    intro fs
    induction fs with
    | nil => simp
    | cons g gs ih =>
      have : 0 < (tag g.num 2).length := by
        unfold tag varint leb
        split <;> simp
      simp only [nested, delimited, List.length_append, List.length_cons]
      omega
  refine ⟨nested (List.replicate n f), hl, ?_, fun k hk => nesting_reached hS hA hp (hc n) hF (by simpa using hk)⟩
  refine nested_accepted hS hA hp _ t (hc n) hreq hF _ ?_ 0
  have := hlow (List.replicate n f)
  omega

/-! ## Cases -/

/-- `message M { M m = 1; }` -/
def nestenv : UEnv := { S := [{ fields := [{ num := 1, slot := 0, kind := .message, presence := true, msg := 0 }], nslots := 1 }], R := Runtime.none, A := .b64, alloc := fun _ _ => .nil }

/-- Six bytes with four calls, as many as six bytes can have: three are not enough. -/
example : nested (List.replicate 3 { num := 1, slot := 0, kind := .message, presence := true, msg := 0 }) = [10, 4, 10, 2, 10, 0] ∧
    (unmarshalN nestenv 3 0 0 [10, 4, 10, 2, 10, 0] (zeroMsg nestenv.S 0)).2 = .diverge ∧
    (unmarshalN nestenv 4 0 0 [10, 4, 10, 2, 10, 0] (zeroMsg nestenv.S 0)).2 = .ok () := by decide

example (b : Bytes) (hb : b.length < 2 ^ 62) : unmarshalN Demo.uenv (1 + b.length / 2) 0 0 b (zeroMsg Demo.uenv.S 0) = unmarshalVT Demo.uenv 0 b (zeroMsg Demo.uenv.S 0) :=
  (nesting_bound Demo.uenv_ok rfl (by decide) (by unfold Arch.Fits; show b.length + 8 < 2 ^ 63; omega) (Nat.le_refl _)).1

/-- A million calls. -/
example : ∃ b, b.length ≤ 20000000 ∧ (unmarshalVT nestenv 0 b (zeroMsg nestenv.S 0)).2 = .ok () ∧
    ∀ k ≤ 1000000, (unmarshalN nestenv k 0 0 b (zeroMsg nestenv.S 0)).2 = .diverge :=
  nesting_unlimited (by decide) (.inr rfl) (fun t => by match t with | 0 => rfl | t + 1 => rfl)
    (fun t => by match t with | 0 => decide | t + 1 => intro g hg; cases hg) rfl (f := { num := 1, slot := 0, kind := .message, presence := true, msg := 0 })
    (by decide) rfl rfl rfl 1000000 (by unfold Arch.Fits; decide)

/-- Lists in lists, of `google.protobuf.ListValue`. -/
example : Chain structSchema 2 [{ num := 1, slot := 0, kind := .message, card := .repeated, msg := 1 },
    { num := 6, slot := 0, kind := .message, presence := true, oneof := true, msg := 2 }, { num := 1, slot := 0, kind := .message, card := .repeated, msg := 1 }] :=
  .cons (by decide) rfl rfl rfl (.cons (by decide) rfl rfl rfl (.cons (by decide) rfl rfl rfl (.nil _)))

end Vtp.Props
