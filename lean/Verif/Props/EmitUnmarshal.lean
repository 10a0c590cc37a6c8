import Verif.Lemmas.GoUOrder
import Verif.Props.Emit
import Verif.Props.Decode
import Verif.Props.RoundTrip
import Verif.Props.UnmarshalRuns
/-!
# Properties of the code the generator prints: C84, C85

`GoU.Emit` is the text the generator prints for `UnmarshalVT` and `UnmarshalVTUnsafe`, as syntax trees; `GoU.exec` is
its meaning, with the width of `int` of the target. `GoU.methodN G E fuel n 0 t b` is the printed method of type `t` on
input `b`, with at most `n` calls inside each other and loops of at most `fuel` rounds: any bounds larger than the input.
-/

namespace Vtp.Props
open Spec

/-! ## C84 -/

/-- C84. The printed `UnmarshalVT[Unsafe]`, on any input and any receiver of the type, leaves the receiver that
`unmarshalVT` says, and returns nil if and only if it does, or the error it does; if required fields are missing, the
error is about a missing field, the first in the order of the printed checks. -/
theorem emitted_unmarshal {G : GoU.GenCfg} {E : UEnv} (h : GoU.PrintEnv G E) {t : Nat} (hf : (E.S.msg t).foreign = false) {b : Bytes} (hb : E.A.Fits b.length)
    {m : Val} (hm : wtM E.S .solid t m = true) {n fuel : Nat} (hn : b.length < n) (hfuel : b.length + 11 ≤ fuel) :
    (GoU.methodN G E fuel n 0 t b m).1 = (unmarshalVT E t b m).1 ∧
    ((GoU.methodN G E fuel n 0 t b m).2 = (unmarshalVT E t b m).2 ∨
      ∃ x y, (GoU.methodN G E fuel n 0 t b m).2 = .err (.requiredNotSet x) ∧ (unmarshalVT E t b m).2 = .err (.requiredNotSet y)) := by
  rw [GoU.methodN_eq h n 0 t b m hf hn hb hfuel hm, ← unmarshal_depth h.env.schema h.env.arch hf hb hn]
  exact GoU.decodeIn_sameBut n 0 t b m

/-- C84. If the required fields of each message are declared in the order in which they are checked, the printed
`UnmarshalVT[Unsafe]` is `unmarshalVT`. -/
theorem emitted_unmarshal_exact {G : GoU.GenCfg} {E : UEnv} (h : GoU.PrintEnv G E) (ho : GoU.SameOrder G E.S) {t : Nat} (hf : (E.S.msg t).foreign = false)
    {b : Bytes} (hb : E.A.Fits b.length) {m : Val} (hm : wtM E.S .solid t m = true) {n fuel : Nat} (hn : b.length < n) (hfuel : b.length + 11 ≤ fuel) :
    GoU.methodN G E fuel n 0 t b m = unmarshalVT E t b m := by
  rw [GoU.methodN_eq h n 0 t b m hf hn hb hfuel hm, ← unmarshal_depth h.env.schema h.env.arch hf hb hn, GoU.decodeIn_eq ho]

/-- C84. The printed code terminates without a panic and leaves a value of the type, on any input. -/
theorem emitted_unmarshal_returns {G : GoU.GenCfg} {E : UEnv} (h : GoU.PrintEnv G E) {t : Nat} (hf : (E.S.msg t).foreign = false) {b : Bytes}
    (hb : E.A.Fits b.length) {m : Val} (hm : wtM E.S .solid t m = true) {n fuel : Nat} (hn : b.length < n) (hfuel : b.length + 11 ≤ fuel) :
    (GoU.methodN G E fuel n 0 t b m).2.Returns ∧ wtM E.S .solid t (GoU.methodN G E fuel n 0 t b m).1 = true := by
  obtain ⟨h1, h2⟩ := unmarshal_returns_partial h.env hf hm hb
  obtain ⟨h3, h4⟩ := emitted_unmarshal h hf hb hm hn hfuel
  refine ⟨?_, by rw [h3]; exact h2⟩
  rcases h4 with h4 | ⟨x, y, h4, -⟩
  · rw [h4]; exact h1
  · rw [h4]; trivial

/-- C84. The printed code accepts every encoding that `unmarshal_decodes_partial` speaks of and leaves the message it stands for. -/
theorem emitted_unmarshal_decodes {G : GoU.GenCfg} {E : UEnv} (hG : G.toGenCfg.OK E.S) (ha : G.aliasing = false) (hE : PlainEnv E) {t : Nat}
    (hf : (E.S.msg t).foreign = false) {b : Bytes} (hb : E.A.Fits (b.length + 1)) {m m' : Val} (hm : wtM E.S .solid t m = true)
    (h : Decodes E.S E.R t b m m') {n fuel : Nat} (hn : b.length < n) (hfuel : b.length + 11 ≤ fuel) :
    GoU.methodN G E fuel n 0 t b m = (m', .ok ()) := by
  have hu := unmarshal_decodes_partial hE hf hb hm h
  obtain ⟨h3, h4⟩ := emitted_unmarshal (G := G) ⟨hE.env, hG, by rw [ha, hE.copy]⟩ hf (by unfold Arch.Fits at hb ⊢; omega) hm hn hfuel
  rw [hu] at h3 h4
  rcases h4 with h4 | ⟨x, y, -, h4⟩
  · exact Prod.ext h3 h4
  · cases h4

/-! ## C85 -/

/-- C85. The printed `UnmarshalVT` on what the printed `MarshalVT[Strict]` returns for a message gives back the message. -/
theorem emitted_round_trip_partial {G : GoU.GenCfg} {E : UEnv} (hG : G.toGenCfg.OK E.S) (ha : G.aliasing = false) (hE : PlainEnv E) (hR : RuntimeEqual E.R)
    (hN : RuntimeEnc E.R) {strict : Bool} {t : Nat} (hf : (E.S.msg t).foreign = false) {v : Val} (hv : wt E.S t v = true) (hr : Restorable E.S E.R t v)
    {K : Nat} (hK : 2 * v.depth + 1 ≤ K) {b : Bytes} (hm : Go.runMarshal G.toGenCfg ⟨E.S, E.R⟩ strict K t v = .ok (some b)) (hb : E.A.Fits (b.length + 1))
    {n fuel : Nat} (hn : b.length < n) (hfuel : b.length + 11 ≤ fuel) :
    ∃ w, GoU.methodN G E fuel n 0 t b (zeroMsg E.S t) = (w, .ok ()) ∧
      (NoNaN E.S t v → ∀ p, equalVT ⟨E.S, E.R, p⟩ t v w = .ok true ∧ equalVT ⟨E.S, E.R, p⟩ t w v = .ok true) ∧
      ((E.S.msg t).keepUnknown = true → unknownOf w = unknownOf v) := by
  rw [emitted_marshal (E := ⟨E.S, E.R⟩) hG hE.env.schema strict hf (by rw [Bool.or_eq_true]; exact .inr (members_weaken (by simp) (by simp) _ _ _ hv)) K hK] at hm
  obtain ⟨w, h1, -, h2, h3⟩ := round_trip_partial hE hR hN hf hv hr hm hb
  obtain ⟨h4, h5⟩ := emitted_unmarshal (G := G) ⟨hE.env, hG, by rw [ha, hE.copy]⟩ hf (by unfold Arch.Fits at hb ⊢; omega) (zeroMsg_typed hE.env.schema t) hn hfuel
  rw [h1] at h4 h5
  refine ⟨w, ?_, h2, h3⟩
  rcases h5 with h5 | ⟨x, y, -, h5⟩
  · exact Prod.ext h4 h5
  · cases h5

/-! ## The hypotheses can be met -/

namespace EmitDemo

/-- Code that copies. -/
def genU (S : Schema) : GoU.GenCfg := { wellKnown := fun _ => false, isLocal := fun t => !(S.msg t).foreign, sorted := true, aliasing := false, unique := fun _ => false }
theorem genU_ok (S : Schema) : (genU S).toGenCfg.OK S := fun t h => ⟨rfl, by simp [genU, h]⟩
theorem penv_prints : GoU.PrintEnv (genU Demo.schema3) Demo.penv := ⟨Demo.penv_ok.env, genU_ok _, rfl⟩

/-- Two required fields, declared against the order of their numbers. -/
def swapped : Schema := [{ nslots := 2, fields := [{ num := 2, slot := 0, kind := .bool, card := .required, presence := true }, { num := 1, slot := 1, kind := .bool, card := .required, presence := true }] }]
def swappedEnv : UEnv := { S := swapped, R := Runtime.none, A := .b64, alloc := fun _ t => zeroMsg swapped t }

end EmitDemo

example : GoU.methodN (EmitDemo.genU Demo.schema3) Demo.penv 100 100 0 0 sampleBytes (zeroMsg Demo.schema3 0) = (sampleMsg, .ok ()) :=
  emitted_unmarshal_decodes (EmitDemo.genU_ok _) rfl Demo.penv_ok rfl (by decide) (by decide) sample_decodes (by decide) (by decide)
example (b : Bytes) (hb : b.length < 2 ^ 62) : (GoU.methodN (EmitDemo.genU Demo.schema3) Demo.penv (b.length + 11) (b.length + 1) 0 0 b (zeroMsg Demo.schema3 0)).2.Returns :=
  (emitted_unmarshal_returns EmitDemo.penv_prints rfl (by unfold Arch.Fits; simp [Demo.penv, Arch.b64]; omega) (by decide) (by omega) (by omega)).1

/-- The order does decide which missing field is named: that of the numbers if the feature `marshal` has sorted the fields. -/
theorem missing_field_order :
    (GoU.methodN (EmitDemo.genU EmitDemo.swapped) EmitDemo.swappedEnv 11 1 0 0 [] (zeroMsg EmitDemo.swapped 0)).2 = .err (.requiredNotSet 1) ∧
    (GoU.methodN { EmitDemo.genU EmitDemo.swapped with sorted := false } EmitDemo.swappedEnv 11 1 0 0 [] (zeroMsg EmitDemo.swapped 0)).2 = .err (.requiredNotSet 2) := by
  decide +kernel

example : ∃ b w, Go.runMarshal (EmitDemo.genU renv.S).toGenCfg ⟨renv.S, renv.R⟩ true 20 0 Demo.big = .ok (some b) ∧
    GoU.methodN (EmitDemo.genU renv.S) renv (b.length + 11) (b.length + 1) 0 0 b (zeroMsg renv.S 0) = (w, .ok ()) ∧
    equalVT ⟨renv.S, renv.R, fun _ => false⟩ 0 Demo.big w = .ok true := by
  have hw : wt renv.S 0 Demo.big = true := by decide
  obtain ⟨b, hb⟩ := (marshal_fails_iff (E := ⟨renv.S, renv.R⟩) true Demo.schema3_ok structural_enc (fun _ _ => rfl) hw (by decide)).2 (by decide)
  have hl : renv.A.Fits (b.length + 1) := by
    rw [size_eq_length (E := ⟨renv.S, renv.R⟩) true Demo.schema3_ok structural_enc hw (by decide) hb]
    decide
  rw [← emitted_marshal (G := (EmitDemo.genU renv.S).toGenCfg) (E := ⟨renv.S, renv.R⟩) (EmitDemo.genU_ok _) Demo.schema3_ok true (by decide) (by decide) 20 (by decide)] at hb
  obtain ⟨w, h1, h2, -⟩ := emitted_round_trip_partial (EmitDemo.genU_ok _) rfl renv_ok structural_ok structural_enc (t := 0) (by decide) hw big_restorable (K := 20) (by decide) hb hl
    (Nat.lt_succ_self _) (Nat.le_refl _)
  exact ⟨b, w, hb, h1, (h2 big3_noNaN _).1⟩

end Vtp.Props
