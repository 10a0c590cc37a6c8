import Verif.Props.EmitUnmarshal
import Verif.Props.Levels
import Verif.Props.Volume
/-! C98 and C100 for the code the generator prints. -/

namespace Vtp.Props
open Spec EmitDemo

/-- C98. The printed `UnmarshalVT[Unsafe]`, whatever the input, the message before and the outcome, adds at most `K` for each byte of the input. Missing: maps as above. -/
theorem emitted_memory_partial {G : GoU.GenCfg} {E : UEnv} (h : GoU.PrintEnv G E) (hm : SmallMaps E.S) {K : Nat} (hK : ∀ t, (E.S.msg t).nslots + 4 ≤ K)
    (hp : ∀ off t, (E.S.msg t).pooled = true → volume (E.alloc off t) + 3 ≤ K)
    (hR : ∀ t b v, E.R.unmarshal t b = some v → volume v + 2 ≤ K * (1 + b.length)) (hX : ∀ t b v, E.R.unmarshalPartial t b = some v → volume v ≤ K * b.length)
    {t : Nat} (hf : (E.S.msg t).foreign = false) {b : Bytes} (hb : E.A.Fits b.length) {m : Val} (hv : wtM E.S .solid t m = true) {n fuel : Nat} (hn : b.length < n)
    (hfuel : b.length + 11 ≤ fuel) : volume (GoU.methodN G E fuel n 0 t b m).1 ≤ volume m + K * b.length := by
  rw [(emitted_unmarshal h hf hb hv hn hfuel).1]
  exact decode_memory_partial h.env.schema h.env.arch hm hK hp hR hX hb t m

/-- C98. The printed decoder of `google.protobuf.Struct` accepts inputs of `60 n` bytes and makes messages of size `2 ^ n` of them. -/
theorem emitted_struct_memory {G : GoU.GenCfg} {E : UEnv} (h : GoU.PrintEnv G E) (hS : E.S = structSchema) (n : Nat) (hn : E.A.Fits (60 * n)) :
    ∃ b m, b.length ≤ 60 * n ∧ (∀ k fuel, b.length < k → b.length + 11 ≤ fuel → GoU.methodN G E fuel k 0 0 b (zeroMsg E.S 0) = (m, .ok ())) ∧ 2 ^ n ≤ volume m := by
  obtain ⟨b, m, h1, h2, h3⟩ := struct_memory hS h.env.arch n hn
  refine ⟨b, m, h1, fun k fuel hk hfuel => ?_, h3⟩
  obtain ⟨h4, h5⟩ := emitted_unmarshal h (t := 0) (by rw [hS]; rfl) (b := b) (by unfold Arch.Fits at *; omega) (zeroMsg_typed h.env.schema 0) hk hfuel
  rw [h2] at h4 h5
  rcases h5 with h5 | ⟨x, y, -, h5⟩
  · exact Prod.ext h4 h5
  · cases h5

/-- C100. The printed `UnmarshalVT[Unsafe]` makes no more than `P + n / 2` levels of messages of `n` bytes. -/
theorem emitted_levels {G : GoU.GenCfg} {E : UEnv} (h : GoU.PrintEnv G E) {P : Nat} (hE : Shallow E P) {t : Nat} (hf : (E.S.msg t).foreign = false) {b : Bytes}
    (hb : E.A.Fits b.length) {m : Val} (hv : wtM E.S .solid t m = true) {n fuel : Nat} (hn : b.length < n) (hfuel : b.length + 11 ≤ fuel) :
    levels (GoU.methodN G E fuel n 0 t b m).1 ≤ max (levels m) (P + b.length / 2) := by
  rw [(emitted_unmarshal h hf hb hv hn hfuel).1]
  exact decoded_levels hE t hb m

/-! ## Cases -/

/-- The printed decoder of `google.protobuf.Struct`. -/
example : ∃ b m, b.length ≤ 1200 ∧ (∀ k fuel, b.length < k → b.length + 11 ≤ fuel → GoU.methodN (genU structSchema) strenv fuel k 0 0 b (zeroMsg structSchema 0) = (m, .ok ())) ∧
    2 ^ 20 ≤ volume m :=
  emitted_struct_memory (G := genU structSchema) (E := strenv)
    ⟨⟨by decide, .inr rfl, fun _ t => zeroMsg_typed (by decide) t, fun _ _ _ h => (nomatch h), fun _ _ _ h => (nomatch h), .inl rfl⟩, genU_ok _, rfl⟩ rfl 20 (by decide)

example (b : Bytes) (hb : b.length < 2 ^ 62) : levels (GoU.methodN (genU Demo.schema3) Demo.penv (b.length + 11) (b.length + 1) 0 0 b (zeroMsg Demo.penv.S 0)).1 ≤ 1 + b.length / 2 := by
  have h := emitted_levels penv_prints (P := 1) ⟨.inr rfl, Nat.le_refl _, fun _ t _ => (by show levels (zeroMsg _ t) ≤ 1; rw [zeroMsg_levels]),
    fun _ _ _ h => (by cases h), fun _ _ _ h => (by cases h)⟩ (t := 0) rfl (b := b) (by unfold Arch.Fits; show b.length + 8 < 2 ^ 63; omega)
    (m := zeroMsg Demo.penv.S 0) (by decide) (n := b.length + 1) (by omega) (Nat.le_refl _)
  rw [zeroMsg_levels] at h
  omega

end Vtp.Props
