import Verif.Lemmas.Chunks
import Verif.Props.PooledFields
/-! What every input that is accepted is made of and does, also those that are not valid encodings (C96). -/

namespace Vtp.Props
open Vtp.Spec

/-- C96. An input that is accepted, whatever its bytes, by safe or unsafe decoding, with or without pools, is made of records: each required field has one, the
unknown fields of the receiver grow by exactly those with no field (none if they are dropped), a struct field no record is for is as it was, and a oneof
holds the member of its last record. -/
theorem accepted_input {E : UEnv} (hE : DecodeEnv E) {t : Nat} (hf : (E.S.msg t).foreign = false) (hx : (E.S.msg t).extRanges = []) {m m' : Val} (hm : wtM E.S .solid t m = true)
    {b : Bytes} (hF : E.A.Fits b.length) (h : unmarshalVT E t b m = (m', .ok ())) :
    ∃ ps, Cut E.A.bits (E.S.msg t) ps b ∧
      (∀ f ∈ (E.S.msg t).fields, f.card = .required → ∃ p ∈ ps, p.num = f.num) ∧
      unknownOf m' = unknownOf m ++ (if (E.S.msg t).keepUnknown = true then ((ps.filter fun p => fieldOf (E.S.msg t) p.num == none).map (·.raw)).flatten else []) ∧
      (∀ f ∈ (E.S.msg t).fields, (∀ p ∈ ps, ¬ Hits (E.S.msg t) p f) → get m' f = get m f) ∧
      ∀ f ∈ (E.S.msg t).fields, f.oneof = true → ∀ ps1 p ps2, ps = ps1 ++ p :: ps2 → p.num = f.num → (∀ q ∈ ps2, ¬ Hits (E.S.msg t) q f) → ∃ x, get m' f = .wrap f.num x := by
  have hr : RecSafe E (unmarshalN E b.length) b.length := safe_unmarshalN hE b.length hF b.length (by omega)
  unfold unmarshalVT at h
  rw [unmarshalN, unmarshalBody] at h
  replace h := UM.bind_eq h
  obtain ⟨m1, ⟨i, has⟩, h1, h⟩ := h
  simp only at h
  replace h := UM.bind_eq h
  obtain ⟨m2, u, h2, h⟩ := h
  replace h2 := UM.lift_eq h2
  obtain ⟨rfl, h2⟩ := h2
  have h3 : m2 = m' := by
    split at h
    · cases h
    · exact (UM.pure_eq h).1.symm
  subst h3
  obtain ⟨ps, g1, g2, g3, g4⟩ := recordLoop_chunks hE hr hF hf hx (Nat.zero_le _) (marked_noFields _) hm h1
  refine ⟨ps, ⟨by simpa using g2, g1⟩, fun f hf hc => ?_, g4.unknown, fun f _ => g4.untouched f, ?_⟩
  · rw [checkRequired_marked g3 _ fun _ h => h] at h2
    cases hc' : firstMissing ([] ++ ps.map (·.num)) (E.S.msg t).fields with
    | some f => rw [hc'] at h2; cases h2
    | none =>
      have := List.find?_eq_none.1 hc' f hf
      simpa [hc] using this
  · rintro f hf ho ps1 p ps2 rfl hp hq
    exact g4.member hf ho hp hq

/-- A field number of more than 32 bits, a packed record whose last element runs over its end, a member of a oneof, a group that ends with another number. -/
def oddBytes : Bytes := [136, 128, 128, 128, 128, 1, 5, 26, 1, 128, 1, 48, 2, 155, 6, 148, 6]

/-- `oddBytes` is not a valid encoding but is accepted, with a pool. -/
example : ∃ m', unmarshalVT poolsEnv 0 oddBytes worn = (m', .ok ()) ∧ unknownOf m' = [155, 6, 148, 6] ∧
    ∃ ps, Cut 64 (schemaP.msg 0) ps oddBytes ∧ (∀ f ∈ (schemaP.msg 0).fields, (∀ p ∈ ps, ¬ Hits (schemaP.msg 0) p f) → get m' f = get worn f) := by
  have h : (unmarshalVT poolsEnv 0 oddBytes worn).2 = .ok () := by decide
  obtain ⟨ps, h1, -, -, h4, -⟩ := accepted_input poolsEnv_ok.env (t := 0) (m := worn) (by decide) (by decide) (by decide) (b := oddBytes) (by decide) (Prod.ext rfl h)
  exact ⟨_, Prod.ext rfl h, by decide, ps, h1, h4⟩

end Vtp.Props
