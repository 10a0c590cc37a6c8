import Verif.Lemmas.Reorder
import Verif.Lemmas.Evolve
import Verif.Lemmas.NoNaN
import Verif.Props.RoundTrip
/-!
# Order of fields and schemas that have grown: C80, C81
-/

namespace Vtp.Props
open Spec

/-- C80. `UnmarshalVT` does not depend on the order in which the fields of a message arrive: only the order of the records that go to the same
struct field matters (those of a list, of a map, of a oneof, or a repeated occurrence), and that of unknown fields among themselves. Result and
error are the same. For valid records of unpooled schemas on 64-bit targets, required fields present or not. -/
theorem unmarshal_order_partial {E : UEnv} (hE : PlainEnv E) {t : Nat} (hf : (E.S.msg t).foreign = false) {b b' : Bytes} (hb : E.A.Fits b.length)
    (hb' : E.A.Fits b'.length) {m m' : Val} (hm : wtM E.S .solid t m = true) {rs rs' : List Rec} (h : Records rs b) (h' : Records rs' b')
    (hs : SameOrder (E.S.msg t) rs rs') (hg : Merges E.S E.R t rs m m') : unmarshalVT E t b' m = unmarshalVT E t b m := by
  obtain ⟨n, hg⟩ := hg
  rw [unmarshal_run hE hf hm hb h hg, unmarshal_run hE hf hm hb' h' (hg.reorder (schemaOK_msg hE.env.schema t) hs), firstMissing_reorder hs]

/-- The sample with its fields in another order. -/
def mixed : List Rec :=
  [⟨99, .varint 1, [152, 6, 1]⟩, ⟨3, .len [2, 1], [26, 2, 2, 1]⟩, ⟨6, .varint 1, [48, 1]⟩, ⟨3, .varint 4, [24, 4]⟩, ⟨4, .len [8, 7], [34, 2, 8, 7]⟩,
   ⟨1, .varint 5, [8, 0x85, 0x80, 0]⟩]

theorem mixed_records : Records mixed [152, 6, 1, 26, 2, 2, 1, 48, 1, 24, 4, 34, 2, 8, 7, 8, 0x85, 0x80, 0] := by
  have tag : ∀ b : UInt8, b < 128 → IsVarint b.toNat [b] := one_byte
  have h1 : IsVarint 5 [0x85, 0x80, 0] := ⟨.more _ _ (by decide) (.more _ _ (by decide) (.last _ (by decide))), by decide, by decide, by decide⟩
  have h99 : IsVarint (99 * 8 + 0) [152, 6] := ⟨.more _ _ (by decide) (.last _ (by decide)), by decide, by decide, by decide⟩
  exact .cons (.varint 99 1 [152, 6] _ (by decide) h99 (tag 1 (by decide))) (.cons (.len 3 [26] [2] _ (by decide) (tag 26 (by decide)) (tag 2 (by decide)))
    (.cons (.varint 6 1 [48] _ (by decide) (tag 48 (by decide)) (tag 1 (by decide))) (.cons (.varint 3 4 [24] _ (by decide) (tag 24 (by decide)) (tag 4 (by decide)))
    (.cons (.len 4 [34] [2] _ (by decide) (tag 34 (by decide)) (tag 2 (by decide))) (.cons (.varint 1 5 [8] _ (by decide) (tag 8 (by decide)) h1) .nil)))))

theorem mixed_sameOrder : SameOrder (Demo.schema3.msg 0) sample mixed := by
  intro c
  have h : ∀ k : Option Nat, k ∈ ([none, some 0, some 2, some 3, some 5] : List (Option Nat)) ∨ ∀ r ∈ sample ++ mixed, destination (Demo.schema3.msg 0) r ≠ k := by
    intro k
    by_cases hk : k ∈ ([none, some 0, some 2, some 3, some 5] : List (Option Nat))
    · exact .inl hk
    · refine .inr fun r hr h => hk ?_
      rw [← h]
      clear h hk
      simp only [sample, mixed, List.cons_append, List.nil_append, List.mem_cons, List.not_mem_nil, or_false] at hr
      rcases hr with rfl | rfl | rfl | rfl | rfl | rfl | rfl | rfl | rfl | rfl | rfl | rfl <;> decide
  rcases h c with hc | hc
  · simp only [List.mem_cons, List.not_mem_nil, or_false] at hc
    rcases hc with rfl | rfl | rfl | rfl | rfl <;> rfl
  · rw [List.filter_eq_nil_iff.2, List.filter_eq_nil_iff.2]
    · intro r hr; simpa using hc r (by simp [hr])
    · intro r hr; simpa using hc r (by simp [hr])

example : unmarshalVT Demo.penv 0 [152, 6, 1, 26, 2, 2, 1, 48, 1, 24, 4, 34, 2, 8, 7, 8, 0x85, 0x80, 0] (zeroMsg Demo.schema3 0) =
    unmarshalVT Demo.penv 0 sampleBytes (zeroMsg Demo.schema3 0) :=
  unmarshal_order_partial Demo.penv_ok rfl (by decide) (by decide) (by decide) sample_records mixed_records mixed_sameOrder ⟨1, sample_steps⟩

/-- C80 fails if a record is rejected: what was read before it stays in the message, and the first of two errors is returned. -/
theorem order_of_failures :
    (unmarshalVT Demo.penv 0 [10, 0, 24, 4] (zeroMsg Demo.schema3 0)).1 ≠ (unmarshalVT Demo.penv 0 [24, 4, 10, 0] (zeroMsg Demo.schema3 0)).1 ∧
    (unmarshalVT Demo.penv 0 [10, 0, 34, 1, 8] (zeroMsg Demo.schema3 0)).2 = .err (.wrongWireType 1) ∧
    (unmarshalVT Demo.penv 0 [34, 1, 8, 10, 0] (zeroMsg Demo.schema3 0)).2 = .err .unexpectedEOF := by decide

/-! ## C81 -/

/-- C81. A program built with an older version of the schema, lacking fields and members of oneofs at any depth, reads what a newer program
wrote, and writes on, in either order of fields and whatever the iteration order of its maps, as many bytes; the newer program reads these as
it would have read the original, up to the order of maps: `EqualVT` to the message written unless there is a NaN, with the same unknown
fields. No field is lost. The older version must keep unknown fields. Both leave the same messages to the same runtime. -/
theorem pass_on_partial {E E0 : UEnv} (hE : PlainEnv E) (hE0 : PlainEnv E0) (hS : Older E0.S E.S) (hRR : E0.R = E.R) (hP : RuntimePerm E.R) (hT : RuntimeStable E.S E.R)
    (hR : RuntimeEqual E.R) (hQ : RuntimeEqualShuffle E.R) (hN : RuntimeEnc E.R) {strict : Bool} {t : Nat} (hf : (E.S.msg t).foreign = false) {v : Val} (hv : wt E.S t v = true)
    (hr : Restorable E.S E.R t v) {b : Bytes} (hm : marshalVT ⟨E.S, E.R⟩ strict t v = .ok (some b)) (hb : E.A.Fits (b.length + 1)) (hb0 : E0.A.Fits (b.length + 1)) :
    ∃ w0, unmarshalVT E0 t b (zeroMsg E0.S t) = (w0, .ok ()) ∧ ∀ strict0 x, Shuffle w0 x →
      ∃ c, marshalVT ⟨E0.S, E0.R⟩ strict0 t x = .ok (some c) ∧ c.Perm b ∧
        ∃ w, unmarshalVT E t c (zeroMsg E.S t) = (w, .ok ()) ∧ Shuffle (back E.S E.R t v) w ∧
          (NoNaN E.S t v → ∀ p, equalVT ⟨E.S, E.R, p⟩ t v w = .ok true ∧ equalVT ⟨E.S, E.R, p⟩ t w v = .ok true) ∧
          ((E.S.msg t).keepUnknown = true → unknownOf w = unknownOf v) := by
  have hs := hE.env.schema
  have hs0 := hE0.env.schema
  have hN0 : RuntimeEnc E0.R := by rw [hRR]; exact hN
  have hn := shared_of hE.env hS hRR hP hT
  have hf0 : (E0.S.msg t).foreign = false := by rw [hn.foreign]; exact hf
  have he : encode ⟨E.S, E.R⟩ strict t v = some b := ((marshal_encodes (E := ⟨E.S, E.R⟩) strict hs hN hv hf).1 b).1 hm
  have hl : b.length + 1 ≤ 2 ^ 64 := by
    unfold Arch.Fits at hb
    rcases hE.env.arch with h | h <;> rw [h] at hb <;> omega
  have hp := fun strict0 => pass_on hE hE0 hn hS hl (fun n hn => by unfold Arch.Fits at *; omega) (fun n hn => by unfold Arch.Fits at *; omega) strict strict0 v.depth t v b
    (Nat.le_refl _) hf he (Nat.lt_succ_self _) hv (hr _)
  have h1 := unmarshal_decodes_partial hE0 hf0 hb0 (zeroMsg_typed hs0 t) ⟨_, (hp true).1⟩
  have hw0 := (unmarshal_returns_partial hE0.env hf0 (zeroMsg_typed hs0 t) (b := b) (by unfold Arch.Fits at *; omega)).2
  rw [h1] at hw0
  refine ⟨_, h1, fun strict0 x hx => ?_⟩
  obtain ⟨-, c, h2, h3, h4, h5⟩ := (hp strict0).2 x hx
  have hx' : wt E0.S t x = true := shuffle_wtM hx (members_weaken (by simp) (by simp) _ _ _ hw0)
  have hc : E.A.Fits (c.length + 1) := by rw [h3.length_eq]; exact hb
  have h6 := unmarshal_decodes_partial hE hf hc (zeroMsg_typed hs t) ⟨_, h4⟩
  have hw := (unmarshal_returns_partial hE.env hf (zeroMsg_typed hs t) (b := c) (by unfold Arch.Fits at *; omega)).2
  rw [h6] at hw
  refine ⟨c, ((marshal_encodes (E := ⟨E0.S, E0.R⟩) strict0 hs0 hN0 hx' hf0).1 c).2 h2, h3, _, h6, h5, fun hnan p => ?_, fun hk => ?_⟩
  · have hsm := (back_same hs hR v.depth t v (Nat.le_refl _) hf hv (hr _) (hnan _)).1
    obtain ⟨w1, a1, rfl, -⟩ := round_trip_partial hE hR hN hf hv hr hm hb
    have hw1 := (unmarshal_returns_partial hE.env hf (zeroMsg_typed hs t) (b := b) (by unfold Arch.Fits at *; omega)).2
    rw [a1] at hw1
    have hbb : NoNaN E.S t (back E.S E.R t v) :=
      noNaN_of_same hs (members_weaken (by simp) (by simp) _ _ _ hw1) (same_trans hR.trans (same_symm hR.symm hsm) hsm)
    have hsw := same_trans hR.trans hsm (same_shuffle hs hR hQ hf h5 (members_weaken (by simp) (by simp) _ _ _ hw1) hbb)
    have hv' : wtM E.S .typedNil t v = true := members_weaken (by simp) (by simp) _ _ _ hv
    have hw' := members_weaken (tn' := .typedNil) (by simp) (by simp) _ _ _ hw
    exact ⟨equal_of_same (C := ⟨E.S, E.R, p⟩) hs hR hf (.inr hv') (.inr hw') hsw,
      equal_of_same (C := ⟨E.S, E.R, p⟩) hs hR hf (.inr hw') (.inr hv') (same_symm hR.symm hsw)⟩
  · obtain ⟨s, u, e, rfl⟩ := wtM_isMsg hv
    obtain ⟨s', h7, -⟩ := shuffle_msg h5 _ _ _ (by rw [Val.depth, Nat.add_comm, backN])
    rw [h7]
    simp [unknownOf, hk]

/-- The example schema as it was before the fields 2, 4, 7, 8, 10, 11 and 12 of `Big`, the second member of its oneof among them, the field 2
of `Small` and the range for extensions were added; the Go structs are laid out differently. -/
def olderSchema : Schema := [
  { fields := [
      { num := 3, slot := 0, kind := .sint64, card := .repeated, packed := true },
      { num := 1, slot := 1, kind := .int32 },
      { num := 6, slot := 2, kind := .bool, presence := true, oneof := true },
      { num := 5, slot := 3, kind := .message, card := .repeated, map := some ⟨.int32, .message, 1⟩ },
      { num := 9, slot := 4, kind := .message, card := .repeated, msg := 1 }],
    nslots := 5 },
  { fields := [{ num := 1, slot := 0, kind := .int64, card := .required, presence := true }], nslots := 1, proto3 := false }]
  ++ Demo.schema3.drop 2

theorem olderSchema_ok : schemaOK olderSchema = true := by decide

theorem olderSchema_older : Older olderSchema Demo.schema3 := by
  intro t
  match t with
  | 0 => exact ⟨rfl, by decide, by decide, rfl, by decide⟩
  | 1 => exact ⟨rfl, by decide, by decide, rfl, by decide⟩
  | 2 => exact ⟨rfl, by decide, by decide, rfl, by decide⟩
  | 3 => exact ⟨rfl, by decide, by decide, rfl, by decide⟩
  | 4 => exact ⟨rfl, by decide, by decide, rfl, by decide⟩
  | 5 => exact ⟨rfl, by decide, by decide, rfl, by decide⟩
  | t + 6 => exact ⟨rfl, fun _ h => (nomatch h), fun _ h => (nomatch h), rfl, fun _ h => (nomatch h)⟩

theorem opaque_stable {S : Schema} {k} (hS : schemaOK S = true) : RuntimeStable S (opaqueRuntime k) := by
  intro t b w x _ h hx
  have hk : k t = true := by
    by_contra hk
    simp [opaqueRuntime, hk] at h
  obtain rfl : Val.msg [] b [] = w := by simpa [opaqueRuntime, hk] using h
  refine ⟨opaque_restored hk hS x, unknownOf x, .msg [] (unknownOf x) [], rfl, by simp [opaqueRuntime, hk], ?_⟩
  rw [← shuffle_unknown hx]
  exact .refl _

/-- The older program. -/
def oenv : UEnv := { S := olderSchema, R := opaqueRuntime (fun _ => false), A := .b64, alloc := fun _ t => zeroMsg olderSchema t }

theorem oenv_ok : PlainEnv oenv := by
  refine ⟨⟨olderSchema_ok, .inr rfl, fun _ t => zeroMsg_typed olderSchema_ok t, fun _ _ _ h => (nomatch h), fun _ _ _ h => (nomatch h), .inl rfl⟩, rfl, ?_, .inl rfl⟩
  intro t
  match t with
  | 0 | 1 | 2 | 3 | 4 | 5 => rfl
  | t + 6 => rfl

/-- The message with every field set, seven of them not known to the older program, passes through it. -/
example : ∃ b w0 c w, marshalVT ⟨senv.S, senv.R⟩ true 0 Demo.big = .ok (some b) ∧ unmarshalVT oenv 0 b (zeroMsg oenv.S 0) = (w0, .ok ()) ∧
    marshalVT ⟨oenv.S, oenv.R⟩ false 0 w0 = .ok (some c) ∧ unmarshalVT senv 0 c (zeroMsg senv.S 0) = (w, .ok ()) ∧
    equalVT ⟨senv.S, senv.R, fun _ => false⟩ 0 Demo.big w = .ok true ∧ unknownOf w = [0x98, 0x06, 0x01] := by
  have hw : wt senv.S 0 Demo.big = true := by decide
  obtain ⟨b, hb⟩ := (marshal_fails_iff (E := ⟨senv.S, senv.R⟩) true Demo.schema3_ok (opaque_enc _) (fun _ _ => rfl) hw (by decide)).2 (by decide)
  have hl : senv.A.Fits (b.length + 1) := by
    rw [size_eq_length (E := ⟨senv.S, senv.R⟩) true Demo.schema3_ok (opaque_enc _) hw (by decide) hb]
    decide
  obtain ⟨w0, h1, h2⟩ := pass_on_partial (E := senv) (E0 := oenv) (t := 0) senv_ok oenv_ok olderSchema_older rfl (opaque_perm _) (opaque_stable senv_ok.env.schema) (opaque_ok _) (opaque_shuffle _) (opaque_enc _) (by decide) hw big_restorable hb hl hl
  obtain ⟨c, h3, -, w, h4, -, h5, h6⟩ := h2 false w0 (.refl _)
  exact ⟨b, w0, c, w, hb, h1, h3, h4, (h5 big3_noNaN fun _ => false).1, h6 (by decide)⟩

/-- A field and a list whose messages are left to the runtime, and a string. Some numbers are set aside for extensions. -/
def crate : Schema := [
  { fields := [
      { num := 1, slot := 0, kind := .message, presence := true, msg := 1 },
      { num := 2, slot := 1, kind := .string },
      { num := 3, slot := 2, kind := .message, card := .repeated, msg := 1 }],
    nslots := 3, extRanges := [(100, 200)] },
  { fields := [], nslots := 0, foreign := true }]

/-- Before the list and the string were added. -/
def oldCrate : Schema := [
  { fields := [{ num := 1, slot := 0, kind := .message, presence := true, msg := 1 }], nslots := 1, extRanges := [(100, 200)] },
  { fields := [], nslots := 0, foreign := true }]

def crateEnv : UEnv := { S := crate, R := opaqueRuntime (fun t => t == 1), A := .b64, alloc := fun _ t => zeroMsg crate t }
def oldCrateEnv : UEnv := { S := oldCrate, R := opaqueRuntime (fun t => t == 1), A := .b64, alloc := fun _ t => zeroMsg oldCrate t }

theorem crateEnv_ok : PlainEnv crateEnv := by
  refine ⟨⟨by decide, .inr rfl, fun _ t => zeroMsg_typed (by decide) t, fun t b v h => ?_, fun _ _ _ h => (nomatch h), .inl rfl⟩, rfl, fun t => ?_, .inl rfl⟩
  · match t with
    | 0 => simp [crateEnv, opaqueRuntime] at h
    | 1 =>
      simp only [crateEnv, opaqueRuntime] at h
      cases h
      rfl
    | t + 2 => simp [crateEnv, opaqueRuntime] at h
  · match t with
    | 0 | 1 => rfl
    | t + 2 => rfl

theorem oldCrateEnv_ok : PlainEnv oldCrateEnv := by
  refine ⟨⟨by decide, .inr rfl, fun _ t => zeroMsg_typed (by decide) t, fun t b v h => ?_, fun _ _ _ h => (nomatch h), .inl rfl⟩, rfl, fun t => ?_, .inl rfl⟩
  · match t with
    | 0 => simp [oldCrateEnv, opaqueRuntime] at h
    | 1 =>
      simp only [oldCrateEnv, opaqueRuntime] at h
      cases h
      rfl
    | t + 2 => simp [oldCrateEnv, opaqueRuntime] at h
  · match t with
    | 0 | 1 => rfl
    | t + 2 => rfl

theorem oldCrate_older : Older oldCrate crate := by
  intro t
  match t with
  | 0 => exact ⟨rfl, by decide, by decide, rfl, by decide⟩
  | 1 => exact rfl
  | t + 2 => exact ⟨rfl, fun _ h => (nomatch h), fun _ h => (nomatch h), rfl, fun _ h => (nomatch h)⟩

def goods : Val := .msg [.msg [] [8, 1] [], .str [97], .list [.msg [] [16, 2] [], .msg [] [] []] []] [] []

theorem goods_restorable : Restorable crate crateEnv.R 0 goods := by
  intro n
  have f1 : (crate.msg 1).foreign = true := rfl
  have hr : ∀ v, Restored crate crateEnv.R 1 v := opaque_restored (k := fun t => t == 1) (t := 1) (by decide) (by decide)
  cases n with
  | zero => trivial
  | succ n =>
    refine ⟨fun _ => unknown_none _, fun f hf => ?_⟩
    fin_cases hf <;> simp [slotOf, RestorableElem, f1, hr]

theorem goods_noNaN : NoNaN crate 0 goods := by
  intro n
  rcases n with _ | _ | n
  · trivial
  · intro _ f hf
    fin_cases hf <;> simp [slotOf, NoNaNElem, NoNaNN, numeric]
  · intro _ f hf
    have f1 : (crate.msg 1).foreign = true := rfl
    fin_cases hf <;> simp [slotOf, NoNaNElem, NoNaNN, numeric, f1]

/-- Messages left to the runtime, in a field the older program has and in one it does not, pass through it. -/
example : ∃ w0 c w, unmarshalVT oldCrateEnv 0 [10, 2, 8, 1, 18, 1, 97, 26, 2, 16, 2, 26, 0] (zeroMsg oldCrate 0) = (w0, .ok ()) ∧
    marshalVT ⟨oldCrate, oldCrateEnv.R⟩ false 0 w0 = .ok (some c) ∧ unmarshalVT crateEnv 0 c (zeroMsg crate 0) = (w, .ok ()) ∧
    equalVT ⟨crate, crateEnv.R, fun _ => false⟩ 0 goods w = .ok true := by
  obtain ⟨w0, h1, h2⟩ := pass_on_partial (E := crateEnv) (E0 := oldCrateEnv) (t := 0) (strict := true) (v := goods) crateEnv_ok oldCrateEnv_ok oldCrate_older rfl (opaque_perm _)
    (opaque_stable crateEnv_ok.env.schema) (opaque_ok _) (opaque_shuffle _) (opaque_enc _) (by decide) (by decide) goods_restorable
    (b := [10, 2, 8, 1, 18, 1, 97, 26, 2, 16, 2, 26, 0]) (by decide +kernel) (by decide +kernel) (by decide +kernel)
  obtain ⟨c, h3, -, w, h4, -, h5, -⟩ := h2 false w0 (.refl _)
  exact ⟨w0, c, w, h1, h3, h4, (h5 goods_noNaN fun _ => false).1⟩

end Vtp.Props
