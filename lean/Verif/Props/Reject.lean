import Verif.Lemmas.Reject
import Verif.Props.Decode
import Verif.Props.Unmarshal
/-!
# What `UnmarshalVT` rejects: C28, C33, C34, C35, C37; and C36
-/

namespace Vtp.Props
open Spec

/-! ## C28 -/

/-- C28. An input that breaks off inside a record is rejected, for every cut point. -/
theorem cut_record_rejected {E : UEnv} (hE : DecodeEnv E) {t : Nat} (hf : (E.S.msg t).foreign = false) {m m1 : Val} (hm : wtM E.S .solid t m = true)
    {a : Bytes} (ha : Begins E t m a m1) {num : Nat} {p : Payload} {raw : Bytes} (hr : IsRecord num p raw) (hF : E.A.Fits (a ++ raw).length)
    {k : Nat} (h0 : 0 < k) (hk : k < raw.length) : ∃ e, (unmarshalVT E t (a ++ raw.take k) m).2 = .err e := by
  have hF' : E.A.Fits (a ++ raw.take k).length := by unfold Arch.Fits at hF ⊢; simp at hF ⊢; omega
  have hret := (unmarshal_returns_partial hE hf hm hF').1
  have hne : (unmarshalVT E t (a ++ raw.take k) m).2 ≠ .ok () := by
    intro h
    obtain ⟨has, m2, j, has2, hst⟩ := step_ok_after hE.schema hE.arch hf hF' ha (List.ne_nil_of_length_pos (by simp; omega)) h
    exact recordStep_cut hE hf hr hk hF hst
  generalize (unmarshalVT E t (a ++ raw.take k) m).2 = o at hret hne
  cases o with
  | ok => exact absurd rfl hne
  | err e => exact ⟨e, rfl⟩
  | panic => exact hret.elim
  | diverge => exact hret.elim

theorem sample_begins : Begins Demo.penv 0 (zeroMsg Demo.schema3 0) sampleBytes sampleMsg :=
  .records Demo.penv_ok (by decide) sample_records ⟨1, sample_steps⟩

example : ∃ e, (unmarshalVT Demo.penv 0 (sampleBytes ++ [34, 2, 8, 7].take 3) (zeroMsg Demo.schema3 0)).2 = .err e :=
  cut_record_rejected Demo.penv_ok.env rfl (by decide) sample_begins
    (.len 4 [34] [2] [8, 7] (by decide) (one_byte 34 (by decide)) (one_byte 2 (by decide))) (by decide) (by decide) (by decide)

/-- C28. A valid encoding cut anywhere but between two of its records is rejected. -/
theorem cut_encoding_rejected {E : UEnv} (hE : PlainEnv E) {t : Nat} (hf : (E.S.msg t).foreign = false) {m m' : Val} (hm : wtM E.S .solid t m = true)
    {rs : List Rec} {b : Bytes} (hF : E.A.Fits b.length) (hrs : Records rs b) (hst : Merges E.S E.R t rs m m') {k : Nat} (hk : k ≤ b.length)
    (hcut : ∀ n, ¬ Records (rs.take n) (b.take k)) : ∃ e, (unmarshalVT E t (b.take k) m).2 = .err e := by
  obtain ⟨q, hst⟩ := hst
  obtain ⟨a, rs1, r, rest, m1, h1, h2, h3, h4, h5, h6⟩ := cut_inside hrs hst hk hcut
  have : b.take k = a ++ r.raw.take (k - a.length) := by
    rw [h1, List.take_append, List.take_of_length_le (by omega), List.take_append_of_le_length (by omega)]
  rw [this]
  refine cut_record_rejected hE.env hf hm (.records hE hm h2 ⟨q, h3⟩) h4 ?_ (by omega) (by omega)
  unfold Arch.Fits at hF ⊢
  rw [h1] at hF
  simp at hF ⊢
  omega

example : ∃ e, (unmarshalVT Demo.penv 0 (sampleBytes.take 2) (zeroMsg Demo.schema3 0)).2 = .err e := by
  refine cut_encoding_rejected Demo.penv_ok rfl (by decide) (by decide) sample_records ⟨1, sample_steps⟩ (by decide) ?_
  intro n h
  match n, h with
  | 0, h => exact absurd (records_raw h) (by decide)
  | n + 1, h =>
    have h' := congrArg List.length (records_raw h)
    simp [sample] at h'
    omega

/-- C28. A declared length beyond the end of the input is an error, for known and unknown fields. Missing: on 32-bit targets
lengths from 2^31 on, which are accepted (`long_length_32`). -/
theorem long_length_rejected_partial {E : UEnv} (hE : DecodeEnv E) {t : Nat} (hf : (E.S.msg t).foreign = false) {m m1 : Val} {a : Bytes} (ha : Begins E t m a m1)
    {num n : Nat} (hn : ValidNum num) {tag lb rest : Bytes} (htag : IsVarint (num * 8 + 2) tag) (hlb : IsVarint n lb) (hl : rest.length < n)
    (h32 : E.A.bits = 64 ∨ n < 2 ^ 31) (hF : E.A.Fits (a ++ (tag ++ (lb ++ rest))).length) :
    ∃ e, unmarshalVT E t (a ++ (tag ++ (lb ++ rest))) m = (m1, .err e) := by
  have h32' : E.A.bits = 64 ∨ n < 2 ^ (E.A.bits - 1) := by
    rcases h32 with h | h
    · exact .inl h
    · exact .inr (Nat.lt_of_lt_of_le h (Nat.pow_le_pow_right (by omega) (by have := hE.arch.pos; omega)))
  obtain ⟨e, he⟩ := recordStep_short hE (t := t) (unmarshalN E (a ++ (tag ++ (lb ++ rest))).length) 0 h32' hn (i := a.length) hF (by simp) htag hlb (by simp) hl m1
  have htp := htag.shape.length_pos
  exact ⟨e, unmarshal_err_after hE.schema hE.arch hf hF ha (List.ne_nil_of_length_pos (by simp; omega)) he⟩

example : ∃ e, unmarshalVT Demo.penv 0 (sampleBytes ++ ([82] ++ ([5] ++ [1, 2]))) (zeroMsg Demo.schema3 0) = (sampleMsg, .err e) :=
  long_length_rejected_partial Demo.penv_ok.env rfl sample_begins (num := 10) (n := 5) (by decide) (one_byte 82 (by decide)) (one_byte 5 (by decide)) (by decide)
    (.inl rfl) (by decide)

/-- On 32-bit targets a declared length of 2^32+1 is taken for 1: the record is accepted. -/
theorem long_length_32 : IsVarint (2 ^ 32 + 1) [129, 128, 128, 128, 16] ∧
    unmarshalVT { Demo.penv with A := .b32 } 0 ([82] ++ ([129, 128, 128, 128, 16] ++ [7])) (zeroMsg Demo.schema3 0) =
      (.msg [.num 0, .str [], .nil, .nil, .nil, .nil, .nil, .nil, .str [7], .nil, .num 0] [] [], .ok ()) :=
  ⟨⟨.more _ _ (by decide) (.more _ _ (by decide) (.more _ _ (by decide) (.more _ _ (by decide) (.last _ (by decide))))), by decide, by decide, by decide⟩, by decide⟩

/-! ## C33 -/

/-- The wire types a field may come with: its own, and for repeated numbers the packed one. -/
def admits (f : FieldDesc) (wt : Nat) : Prop := wt = wireType f.kind ∨ f.card = .repeated ∧ f.map = none ∧ numeric f.kind = true ∧ wt = 2

/-- C33. A known field with another wire type is an error, whatever came before and comes after. Missing: the key and
value inside map entries, whose wire types are not looked at (`map_wire_type_accepted`). -/
theorem wrong_wire_type_partial {E : UEnv} (hS : schemaOK E.S = true) (hA : E.A.Valid) {t : Nat} (hf : (E.S.msg t).foreign = false) {m m1 : Val} {a : Bytes}
    (ha : Begins E t m a m1) {f : FieldDesc} (hmem : f ∈ (E.S.msg t).fields) {wt : Nat} (hw : wt < 8) (hno : ¬ admits f wt) {tag rest : Bytes}
    (htag : IsVarint (f.num * 8 + wt) tag) (hF : E.A.Fits (a ++ (tag ++ rest)).length) :
    unmarshalVT E t (a ++ (tag ++ rest)) m = (m1, .err (if wt = 4 then .endGroupForNonGroup else .wrongWireType f.num)) := by
  have hM := schemaOK_msg hS t
  have htp := htag.shape.length_pos
  refine unmarshal_err_after hS hA hf hF ha (List.ne_nil_of_length_pos (by simp; omega)) fun has => ?_
  rw [recordStep_tag _ 0 has ⟨(hM.fields f hmem).pos, (hM.fields f hmem).small⟩ hw htag (rest := rest) (by simp), find_num hM hmem]
  by_cases h4 : wt = 4
  · rw [if_pos h4, if_pos h4]
    rfl
  · rw [if_neg h4, if_neg h4]
    simp only
    rw [UM.bind_def, fieldCase_wrong hM hmem hw hno]

example : unmarshalVT Demo.penv 0 (sampleBytes ++ ([29] ++ [0, 0, 0, 0])) (zeroMsg Demo.schema3 0) = (sampleMsg, .err (.wrongWireType 3)) :=
  wrong_wire_type_partial Demo.schema3_ok (.inr rfl) rfl sample_begins (f := { num := 3, slot := 2, kind := .sint64, card := .repeated, packed := true }) (wt := 5)
    (by decide) (by decide) (by simp [admits, wireType]) (one_byte 29 (by decide)) (by decide)

/-- C33 fails inside map entries: the key and value are read without looking at their wire types. Here the key of a
`map<int32, int32>` comes as a length-delimited record, and its length is taken for the key. -/
theorem map_wire_type_accepted :
    unmarshalVT (Demo.uenv4 .b64) 0 [10, 4, 10, 5, 16, 7] (zeroMsg Demo.schema4 0) =
      (.msg [.map [(.num 5, .num 7)], .nil, .num 0, .nil] [] [], .ok ()) ∧
    IsRecord 1 (.len [16, 7, 0, 0, 0]) [10, 5, 16, 7, 0, 0, 0] :=
  ⟨by decide, .len 1 [10] [5] _ (by decide) (one_byte 10 (by decide)) (one_byte 5 (by decide))⟩

/-! ## C34 -/

/-- C34 fails: a message with a group field present is rejected, whatever came before, is in the group and comes after. The
generated code looks for the end of the group in the tag that started it. -/
theorem group_rejected {E : UEnv} (hE : DecodeEnv E) {t : Nat} (hf : (E.S.msg t).foreign = false) {m m1 : Val} {a : Bytes} (ha : Begins E t m a m1)
    {f : FieldDesc} (hmem : f ∈ (E.S.msg t).fields) (hk : f.kind = .group) {tag rest : Bytes} (htag : IsVarint (f.num * 8 + 3) tag)
    (hF : E.A.Fits (a ++ (tag ++ rest)).length) : ∃ e, unmarshalVT E t (a ++ (tag ++ rest)) m = (m1, .err e) := by
  have hM := schemaOK_msg hE.schema t
  have htp := htag.shape.length_pos
  have hv : ValidNum f.num := ⟨(hM.fields f hmem).pos, (hM.fields f hmem).small⟩
  obtain ⟨e, he⟩ := fieldCase_group hE hmem hk hF (unmarshalN E (a ++ (tag ++ rest)).length) 0 (a.length + tag.length) m1
  refine ⟨e, unmarshal_err_after hE.schema hE.arch hf hF ha (List.ne_nil_of_length_pos (by simp; omega)) fun has => ?_⟩
  rw [recordStep_tag _ 0 has hv (by decide) htag (rest := rest) (by simp), find_num hM hmem, if_neg (by decide)]
  simp only
  rw [UM.bind_def, he]

example : ∃ e, unmarshalVT Demo.uenv 2 ([] ++ ([11] ++ [16, 5, 12])) (zeroMsg Demo.schema 2) = (zeroMsg Demo.schema 2, .err e) :=
  group_rejected Demo.uenv_ok rfl .empty (f := { num := 1, slot := 0, kind := .group, presence := true, msg := 3 }) (by decide) rfl (one_byte 11 (by decide)) (by decide)

/-- C34 fails: what `MarshalVT` writes for a group is not accepted by `UnmarshalVT`. -/
theorem group_round_trip_fails :
    marshalVT Demo.env false 2 (.msg [.msg [.num 5] [] []] [] []) = .ok (some [11, 16, 5, 12]) ∧
    (unmarshalVT Demo.uenv 2 [11, 16, 5, 12] (zeroMsg Demo.schema 2)).2 = .err .unexpectedEOF := by decide

/-! ## C35 -/

/-- C35. On valid records the outcome is nil exactly if every required field has a record, and otherwise the error names a
required field without record; the fields are merged either way. Any number of required fields. -/
theorem required_iff {E : UEnv} (hE : PlainEnv E) {t : Nat} (hf : (E.S.msg t).foreign = false) {m m' : Val} (hm : wtM E.S .solid t m = true)
    {rs : List Rec} {b : Bytes} (hF : E.A.Fits b.length) (hrs : Records rs b) (hst : Merges E.S E.R t rs m m') :
    (unmarshalVT E t b m).1 = m' ∧
    ((∀ f ∈ (E.S.msg t).fields, f.card = .required → ∃ r ∈ rs, r.num = f.num) → (unmarshalVT E t b m).2 = .ok ()) ∧
    (¬ (∀ f ∈ (E.S.msg t).fields, f.card = .required → ∃ r ∈ rs, r.num = f.num) →
      ∃ f ∈ (E.S.msg t).fields, f.card = .required ∧ (∀ r ∈ rs, r.num ≠ f.num) ∧ (unmarshalVT E t b m).2 = .err (.requiredNotSet f.num)) := by
  obtain ⟨q, hst⟩ := hst
  have : unmarshalVT E t b m = _ := unmarshalBody_run hE hf hF (safe_unmarshalN hE.env b.length hF b.length (by omega)) (unmarshalN_run hE q b.length hF) 0 hm hrs hst
  rw [this]
  refine ⟨rfl, fun h => ?_, fun h => ?_⟩
  · simp only
    rw [firstMissing_complete.2 h]
  · cases hc : firstMissing (rs.map (·.num)) (E.S.msg t).fields with
    | none => exact absurd (firstMissing_complete.1 hc) h
    | some f =>
      refine ⟨f, List.mem_of_find?_eq_some hc, ?_, ?_, rfl⟩
      · have := List.find?_some hc
        simp at this
        exact this.1
      · have := List.find?_some hc
        simp at this
        intro r hr hn
        exact this.2 r hr hn

/-- The required `x` of `Small` is missing. -/
example : (unmarshalVT Demo.penv 1 [18, 1, 9] (zeroMsg Demo.schema3 1)).2 = .err (.requiredNotSet 1) := by
  have hrs : Records [⟨2, .len [9], [18, 1, 9]⟩] [18, 1, 9] := .cons (.len 2 [18] [1] [9] (by decide) (one_byte 18 (by decide)) (one_byte 1 (by decide))) .nil
  have hst : Merges Demo.schema3 Runtime.none 1 [⟨2, .len [9], [18, 1, 9]⟩] (zeroMsg Demo.schema3 1) (.msg [.nil, .str [9]] [] []) :=
    ⟨0, .cons (.scalar (f := { num := 2, slot := 1, kind := .bytes, presence := true }) (by decide) rfl (by decide) rfl) .nil⟩
  obtain ⟨f, h1, h2, _, h3⟩ := (required_iff Demo.penv_ok rfl (by decide) (by decide) hrs hst).2.2 (by
    intro h
    obtain ⟨r, hr, hn⟩ := h { num := 1, slot := 0, kind := .int64, card := .required, presence := true } (by decide) rfl
    simp at hr
    subst hr
    simp at hn)
  have : f.num = 1 := by revert f; decide
  rw [this] at h3
  exact h3

/-- A sub-message split over two records must have its required fields in each of them, though the wire format
merges the records. -/
theorem split_required_rejected :
    (unmarshalVT Demo.penv 0 [34, 2, 8, 7, 34, 3, 18, 1, 9] (zeroMsg Demo.schema3 0)).2 = .err (.requiredNotSet 1) ∧
    (unmarshalVT Demo.penv 0 [34, 5, 8, 7, 18, 1, 9] (zeroMsg Demo.schema3 0)).2 = .ok () := by decide

/-! ## C37 -/

/-- C37. A tag whose field number is 0 or negative as the int32 the decoder makes of it is rejected. Missing: field
numbers are cut to 32 bits first, and those from 2^29 on are not rejected (`field_number_accepted`). -/
theorem field_number_partial {E : UEnv} (hS : schemaOK E.S = true) (hA : E.A.Valid) {t : Nat} (hf : (E.S.msg t).foreign = false) {m m1 : Val} {a : Bytes}
    (ha : Begins E t m a m1) {x : Nat} {tag rest : Bytes} (htag : IsVarint x tag) (hx : x / 8 % 2 ^ 32 = 0 ∨ 2 ^ 31 ≤ x / 8 % 2 ^ 32)
    (hF : E.A.Fits (a ++ (tag ++ rest)).length) :
    unmarshalVT E t (a ++ (tag ++ rest)) m = (m1, .err (if x % 8 = 4 then .endGroupForNonGroup else .illegalTag)) := by
  have htp := htag.shape.length_pos
  refine unmarshal_err_after hS hA hf hF ha (List.ne_nil_of_length_pos (by simp; omega)) fun has => ?_
  exact recordStep_illegal _ 0 has htag hx (rest := rest) (by simp) m1

example : unmarshalVT Demo.penv 0 (sampleBytes ++ ([2] ++ [1, 2, 3])) (zeroMsg Demo.schema3 0) = (sampleMsg, .err .illegalTag) :=
  field_number_partial Demo.schema3_ok (.inr rfl) rfl sample_begins (x := 2) (one_byte 2 (by decide)) (by decide) (by decide)

/-- C37 fails: field number 2^32+1 is taken for field 1, and 2^29 is kept as an unknown field. -/
theorem field_number_accepted :
    (IsVarint ((2 ^ 32 + 1) * 8) [136, 128, 128, 128, 128, 1] ∧
      unmarshalVT Demo.penv 0 [136, 128, 128, 128, 128, 1, 5] (zeroMsg Demo.schema3 0) = unmarshalVT Demo.penv 0 [8, 5] (zeroMsg Demo.schema3 0) ∧
      (unmarshalVT Demo.penv 0 [8, 5] (zeroMsg Demo.schema3 0)).2 = .ok ()) ∧
    (IsVarint (2 ^ 29 * 8) [128, 128, 128, 128, 16] ∧
      unmarshalVT (Demo.uenv4 .b64) 0 [128, 128, 128, 128, 16, 5] (zeroMsg Demo.schema4 0) = (.msg [.nil, .nil, .num 0, .nil] [128, 128, 128, 128, 16, 5] [], .ok ())) := by
  refine ⟨⟨⟨?_, by decide, by decide, by decide⟩, by decide, by decide⟩, ⟨?_, by decide, by decide, by decide⟩, by decide⟩
  · exact .more _ _ (by decide) (.more _ _ (by decide) (.more _ _ (by decide) (.more _ _ (by decide) (.more _ _ (by decide) (.last _ (by decide))))))
  · exact .more _ _ (by decide) (.more _ _ (by decide) (.more _ _ (by decide) (.more _ _ (by decide) (.last _ (by decide)))))

/-! ## C36 -/

/-- C36 fails: decoding a record in an extension range leaves the message the runtime makes of that record alone. Whatever was
decoded before, and whatever the message held, is lost. -/
theorem extension_wipes {E : UEnv} (hE : DecodeEnv E) {t : Nat} (hf : (E.S.msg t).foreign = false) {m m1 : Val} (hm : wtM E.S .solid t m = true)
    {a : Bytes} (ha : Begins E t m a m1) {num : Nat} {p : Payload} {raw : Bytes} (hr : IsRecord num p raw) (hF : E.A.Fits (a ++ raw).length)
    (hno : ∀ f ∈ (E.S.msg t).fields, f.num ≠ num) (hext : ∃ e ∈ (E.S.msg t).extRanges, e.1 ≤ num ∧ num < e.2) {v : Val}
    (hv : E.R.unmarshalPartial t raw = some v) : (unmarshalVT E t (a ++ raw) m).1 = v :=
  unmarshal_extension hE hf hm ha hr hF hno hext hv

/-- A runtime that keeps extensions of `Small`. -/
def keeping : UEnv := { Demo.penv with R := { Runtime.none with unmarshalPartial := fun t b => if t = 1 then some (.msg [.nil, .nil] [] b) else none } }

theorem keeping_ok : DecodeEnv keeping :=
  ⟨Demo.schema3_ok, .inr rfl, fun _ t => zeroMsg_typed Demo.schema3_ok t, fun _ _ _ h => (nomatch h), fun t b v h => by
    (simp only [keeping] at h
     split at h
     · subst t
       cases h
       rfl
     · cases h), .inl rfl⟩

theorem tag_100 : IsVarint (100 * 8 + 0) [160, 6] := ⟨.more _ _ (by decide) (.last _ (by decide)), by decide, by decide, by decide⟩

/-- `x = 7` comes before the extension and is lost. -/
example : (unmarshalVT keeping 1 ([8, 7] ++ [160, 6, 1]) (zeroMsg Demo.schema3 1)).1 = .msg [.nil, .nil] [] [160, 6, 1] :=
  extension_wipes keeping_ok rfl (by decide) (m1 := Demo.small 7) (.accepted (by decide)) (.varint 100 1 [160, 6] [1] (by decide) tag_100 (one_byte 1 (by decide)))
    (by decide) (by decide) ⟨(100, 200), by decide⟩ rfl

/-- C36 fails for marshalling too: extensions are neither sized nor marshalled. -/
theorem extension_not_marshalled (x : Bytes) :
    marshalVT Demo.env false 1 (.msg [.num 7, .nil] [] x) = .ok (some [8, 7]) ∧ sizeVT Demo.env 1 (.msg [.num 7, .nil] [] x) = 2 := ⟨rfl, rfl⟩

end Vtp.Props
