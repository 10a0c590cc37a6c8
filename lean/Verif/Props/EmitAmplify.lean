import Verif.Props.Amplify
import Verif.Props.EmitEvolve
/-! C101 for the code the generator prints. -/

namespace Vtp.Props
open Spec EmitDemo

/-- C101. The printed `UnmarshalVT[Unsafe]` and `MarshalVT[Strict]`: what is written is at most `60 * K` bytes for each byte read. Missing: maps as above. -/
theorem emitted_rewritten_partial {G : GoU.GenCfg} {E : UEnv} (h : GoU.PrintEnv G E) {K : Nat} (hK : ∀ t, (E.S.msg t).nslots + 4 ≤ K)
    (hp : ∀ off t, (E.S.msg t).pooled = true → volume (E.alloc off t) + 3 ≤ K) (hR : ∀ t b v, E.R.unmarshal t b = some v → volume v + 2 ≤ K * (1 + b.length))
    (hX : ∀ t b v, E.R.unmarshalPartial t b = some v → volume v ≤ K * b.length) (hZ : ∀ t v, E.R.size t v ≤ 60 * (volume v - 1)) (hN : RuntimeEnc E.R) {t : Nat}
    (hf : (E.S.msg t).foreign = false) {m0 : Val} (h0 : wtM E.S .solid t m0 = true) {b : Bytes} (hb : E.A.Fits b.length) {strict : Bool} {c : Bytes}
    (hc : printedWrite G E strict t (printedRead G E t b m0).1 = .ok (some c)) (hm : SmallMaps E.S) : c.length ≤ 60 * (volume m0 + K * b.length) := by
  have he : (printedRead G E t b m0).1 = (unmarshalVT E t b m0).1 := (emitted_unmarshal h hf hb h0 (Nat.lt_succ_self _) (Nat.le_refl _)).1
  have hv : wt E.S t (unmarshalVT E t b m0).1 = true := members_weaken (by simp) (by simp) _ _ _ (unmarshal_returns_partial h.env hf h0 hb).2
  rw [he, printedWrite_eq h hf hv] at hc
  exact rewritten_size_partial h.env hK hp hR hX hZ hN hf h0 hb hc hm

/-- C101. The printed methods of `google.protobuf.Struct` accept inputs of `60 n` bytes and write `2 ^ n - 1` bytes for what they made of them. -/
theorem emitted_struct_rewritten {G : GoU.GenCfg} {E : UEnv} (h : GoU.PrintEnv G E) (hS : E.S = structSchema) (hE : PlainEnv E) (hN : RuntimeEnc E.R)
    (hM : ∀ t b v, E.R.unmarshal t b = some v → E.R.marshal t v ≠ none) (n : Nat) (hn : E.A.Fits (60 * n)) (strict : Bool) :
    ∃ b m c, b.length ≤ 60 * n ∧ printedRead G E 0 b (zeroMsg E.S 0) = (m, .ok ()) ∧ printedWrite G E strict 0 m = .ok (some c) ∧ 2 ^ n ≤ c.length + 1 := by
  obtain ⟨b, m, c, h1, h2, h3, h4⟩ := struct_rewritten hS hE hN hM n hn strict
  have hb : E.A.Fits b.length := by unfold Arch.Fits at *; omega
  have hf : (E.S.msg 0).foreign = false := by rw [hS]; rfl
  have hz := zeroMsg_typed hE.env.schema 0
  have hv : wt E.S 0 m = true := members_weaken (by simp) (by simp) _ _ _ (decoded_typed hE.env hf hz (.one h2 hb))
  exact ⟨b, m, c, h1, (printedRead_ok h hf hb hz).2 h2, by rw [printedWrite_eq h hf hv]; exact h3, h4⟩

/-! ## Cases -/

theorem strenv_prints : GoU.PrintEnv (genU structSchema) strenv := ⟨strenv_ok.env, genU_ok _, rfl⟩

example : ∃ b m c, b.length ≤ 1800 ∧ printedRead (genU structSchema) strenv 0 b (zeroMsg strenv.S 0) = (m, .ok ()) ∧
    printedWrite (genU structSchema) strenv true 0 m = .ok (some c) ∧ 2 ^ 30 ≤ c.length + 1 :=
  emitted_struct_rewritten strenv_prints rfl strenv_ok none_enc (fun _ _ _ h => (nomatch h)) 30 (by decide) true

theorem venv_prints : GoU.PrintEnv (genU schemaV) venv := ⟨venv_ok, genU_ok _, rfl⟩

example (b c : Bytes) (hb : b.length < 2 ^ 62) (hc : printedWrite (genU schemaV) venv true 0 (printedRead (genU schemaV) venv 0 b (zeroMsg venv.S 0)).1 = .ok (some c)) :
    c.length ≤ 60 * (2 + 9 * b.length) :=
  emitted_rewritten_partial venv_prints (K := 9) venv_slots (fun _ t h => by rw [venv_pools] at h; cases h)
    (fun t b v h => by
      simp only [venv, opaqueRuntime] at h
      split at h
      · cases h; simp only [volume, volumes, List.length_nil]; omega
      · cases h)
    (fun t b v h => (nomatch h))
    (fun t v => by simp only [venv, opaqueRuntime]; cases v <;> (simp [unknownOf, volume]; try omega))
    (opaque_enc _) rfl (m0 := zeroMsg venv.S 0) (by decide) (by unfold Arch.Fits; show b.length + 8 < 2 ^ 63; omega) hc venv_maps

end Vtp.Props
