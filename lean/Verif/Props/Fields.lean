import Verif.Lemmas.Steps
import Verif.Lemmas.PackedEnd
import Verif.Props.Reject
import Verif.Props.Marshal
/-!
# What `UnmarshalVT` does to each field: C26, C27, C29, C30, C31, C32, C38
-/

namespace Vtp.Props
open Spec

section
variable {E : UEnv} (hE : PlainEnv E) {t : Nat} (hf : (E.S.msg t).foreign = false) {m m' : Val} (hm : wtM E.S .solid t m = true)
  {rs : List Rec} {b : Bytes} (hF : E.A.Fits b.length) (hrs : Records rs b) (hst : Merges E.S E.R t rs m m')
include hE hf hm hF hrs hst

/-! ## C26 -/

/-- C26. A singular scalar ends up with the value of its last record. -/
theorem last_wins {f : FieldDesc} (hmem : f ∈ (E.S.msg t).fields) (ho : f.oneof = false) (hc : f.card ≠ .repeated) (hk : f.kind ≠ .message)
    {rs1 rs2 : List Rec} {r : Rec} (hsplit : rs = rs1 ++ r :: rs2) (hn : r.num = f.num) (hlast : ∀ q ∈ rs2, q.num ≠ f.num) :
    scalarValue f.kind r.payload = some (get (unmarshalVT E t b m).1 f) := by
  rw [(required_iff hE hf hm hF hrs hst).1]
  obtain ⟨n, hst⟩ := hst
  subst hsplit
  exact hst.last_scalar (schemaOK_msg hE.env.schema t) (Typed.sized hf hm) hmem ho hc hk hn hlast

/-- C26, C30. The elements the records of a repeated field denote are appended in order, to whatever the list held. -/
theorem lists_append {f : FieldDesc} (hmem : f ∈ (E.S.msg t).fields) (hc : f.card = .repeated) (hmap : f.map = none) :
    ∃ n xs, Elements E.S (subRel E.S E.R (DecodesN E.S E.R n)) f rs xs ∧ get (unmarshalVT E t b m).1 f = extend (get m f) xs := by
  rw [(required_iff hE hf hm hF hrs hst).1]
  obtain ⟨n, hst⟩ := hst
  exact ⟨n, hst.elements (schemaOK_msg hE.env.schema t) (Typed.sized hf hm) hmem hc hmap⟩

/-- C26. The records of a singular message are merged: together they have the effect of one record with their contents
joined, on the message there or a new one. (Not for foreign messages, where the last record wins:
`foreign_last_wins`.) -/
theorem messages_merge {f : FieldDesc} (hmem : f ∈ (E.S.msg t).fields) (ho : f.oneof = false) (hc : f.card ≠ .repeated) (hk : f.kind = .message)
    (hff : (E.S.msg f.msg).foreign = false) :
    (payloads f rs = [] ∧ get (unmarshalVT E t b m).1 f = get m f) ∨
    ∃ bs : List Bytes, bs ≠ [] ∧ payloads f rs = bs.map .len ∧
      Decodes E.S E.R f.msg bs.flatten (if get m f = .nil then zeroMsg E.S f.msg else get m f) (get (unmarshalVT E t b m).1 f) := by
  rw [(required_iff hE hf hm hF hrs hst).1]
  obtain ⟨n, hst⟩ := hst
  have hsub : ∀ a v v1, subRel E.S E.R (DecodesN E.S E.R n) f.msg a v v1 = DecodesN E.S E.R n f.msg a v v1 := by
    intro a v v1; unfold subRel; rw [hff]; rfl
  rcases hst.message (schemaOK_msg hE.env.schema t) (Typed.sized hf hm) hmem ho hc hk (fun a b v v1 v2 h1 h2 => by
    rw [hsub] at h1 h2 ⊢
    exact decodesN_append h1 h2) (fun b v v' hv h => by
    rw [hsub] at h
    exact decodesN_nonnil hv h) with h | ⟨bs, h1, h2, h3⟩
  · exact .inl h
  · rw [hsub] at h3
    exact .inr ⟨bs, h1, h2, n, h3⟩

/-! ## C27 -/

/-- C27. The bytes of the unknown records are kept, in order, after those the message had; or dropped if that is switched on. -/
theorem unknown_kept : unknownOf (unmarshalVT E t b m).1 =
    unknownOf m ++ if (E.S.msg t).keepUnknown then ((rs.filter fun r => !known (E.S.msg t) r).map (·.raw)).flatten else [] := by
  rw [(required_iff hE hf hm hF hrs hst).1]
  obtain ⟨n, hst⟩ := hst
  exact hst.unknown (Typed.sized hf hm)

/-- C27. Without the unknown records the outcome and the known fields are the same. -/
theorem unknown_inert {b' : Bytes} (hF' : E.A.Fits b'.length) (hrs' : Records (rs.filter (known (E.S.msg t))) b') :
    (unmarshalVT E t b' m).2 = (unmarshalVT E t b m).2 ∧
    setUnknown (unmarshalVT E t b' m).1 [] = setUnknown (unmarshalVT E t b m).1 [] := by
  obtain ⟨n, hst⟩ := hst
  have hst' := hst.drop_unknown (unknownOf m)
  rw [setUnknown_self (Typed.sized hf hm)] at hst'
  rw [unmarshal_run hE hf hm hF hrs hst, unmarshal_run hE hf hm hF' hrs' hst', firstMissing_known]
  exact ⟨rfl, setUnknown_twice _ _ _⟩

/-! ## C29 -/

/-- C29. A oneof holds the last member that has a record: its value, or the message merged from that record into the one held before it
if that was the same member. The other members are unset with it, as the struct field holds one value. -/
theorem oneof_last {f : FieldDesc} (hmem : f ∈ (E.S.msg t).fields) (ho : f.oneof = true)
    {rs1 rs2 : List Rec} {r : Rec} (hsplit : rs = rs1 ++ r :: rs2) (hn : r.num = f.num)
    (hlast : ∀ q ∈ rs2, ∀ g ∈ (E.S.msg t).fields, g.num = q.num → g.slot ≠ f.slot) :
    ∃ m1 x, Merges E.S E.R t rs1 m m1 ∧ get (unmarshalVT E t b m).1 f = .wrap f.num x ∧
      (scalarValue f.kind r.payload = some x ∨
        f.kind = .message ∧ ∃ n b, r.payload = .len b ∧ subRel E.S E.R (DecodesN E.S E.R n) f.msg b (heldOrNew E.S f (get m1 f)) x) := by
  rw [(required_iff hE hf hm hF hrs hst).1]
  obtain ⟨n, hst⟩ := hst
  subst hsplit
  obtain ⟨m1, x, h1, h2, h3⟩ := hst.last_member (schemaOK_msg hE.env.schema t) (Typed.sized hf hm) hmem ho hn hlast
  refine ⟨m1, x, ⟨n, h1⟩, h2, ?_⟩
  rcases h3 with h3 | ⟨h3, c, h4, h5⟩
  · exact .inl h3
  · exact .inr ⟨h3, n, c, h4, h5⟩

/-- C29. A oneof without records of its members is left alone. -/
theorem oneof_untouched {f : FieldDesc} (hno : ∀ q ∈ rs, ∀ g ∈ (E.S.msg t).fields, g.num = q.num → g.slot ≠ f.slot) :
    get (unmarshalVT E t b m).1 f = get m f := by
  rw [(required_iff hE hf hm hF hrs hst).1]
  obtain ⟨n, hst⟩ := hst
  exact hst.other hno

/-! ## C30 -/

/-- C30. The list a repeated number field ends up with is what it held, followed by the elements its records denote; whether they
come one by one, packed, or in any mixture. The field may be declared packed or not. -/
theorem any_chunking {f : FieldDesc} (hmem : f ∈ (E.S.msg t).fields) (hc : f.card = .repeated) (hk : numeric f.kind = true)
    {sub : SubRel} {xs : List Val} (hx : Elements E.S sub f rs xs) : get (unmarshalVT E t b m).1 f = extend (get m f) xs := by
  have hmap : f.map = none := by
    cases hcm : f.map with
    | none => rfl
    | some md =>
      have := (((schemaOK_msg hE.env.schema t).fields f hmem).map md hcm).2.1
      rw [this] at hk
      cases hk
  obtain ⟨n, ys, h1, h2⟩ := lists_append hE hf hm hF hrs hst hmem hc hmap
  rw [h2, elements_unique hk hx h1]

/-! ## C32 -/

/-- C32. The entries are inserted one after the other into the map there was: a key has the value of its last entry, or the
one it had before. `Entry` lets key and value come in any order, default and be mixed with unknown fields. Missing, because
the decoder does otherwise: entries without their message (`entry_no_message`), with two keys or two values (`entry_duplicate`). -/
theorem map_entries_partial {f : FieldDesc} (hmem : f ∈ (E.S.msg t).fields) {md : MapDesc} (hmap : f.map = some md) :
    ∃ n es, MapEntries E.S (subRel E.S E.R (DecodesN E.S E.R n)) f md rs es ∧
      ∀ k, lookup (get (unmarshalVT E t b m).1 f).entries k = ((es.reverse.find? fun e => e.1 == k).map (·.2)).or (lookup (get m f).entries k) := by
  rw [(required_iff hE hf hm hF hrs hst).1]
  obtain ⟨n, hst⟩ := hst
  obtain ⟨es, h1, h2, hz⟩ := hst.entries (schemaOK_msg hE.env.schema t) (Typed.sized hf hm) hmem hmap
  refine ⟨n, es, h1, fun k => ?_⟩
  rw [h2]
  clear h1 h2 hst hrs hz
  generalize (get m f).entries = acc
  induction es generalizing acc with
  | nil => rfl
  | cons e es ih =>
    rw [List.foldl_cons, ih, lookup_insert, List.reverse_cons, List.find?_append]
    cases es.reverse.find? fun e => e.1 == k with
    | some x => rfl
    | none =>
      by_cases h : e.1 = k
      · simp [h]
      · have h' : ¬ k = e.1 := fun c => h c.symm
        simp [h, h']

end

/-! ## Cases for the above -/

/-- Field 3 of the example. -/
def f3 : FieldDesc := { num := 3, slot := 2, kind := .sint64, card := .repeated, packed := true }

example : scalarValue .int32 (.varint 5) = some (get (unmarshalVT Demo.penv 0 sampleBytes (zeroMsg Demo.schema3 0)).1 { num := 1, slot := 0, kind := .int32 }) :=
  last_wins Demo.penv_ok rfl (by decide) (by decide) sample_records ⟨1, sample_steps⟩ (f := { num := 1, slot := 0, kind := .int32 }) (by decide) rfl (by decide) (by decide)
    (rs1 := []) (r := ⟨1, .varint 5, [8, 0x85, 0x80, 0]⟩) rfl rfl (by decide)

example : ∃ n xs, Elements Demo.schema3 (subRel Demo.schema3 Runtime.none (DecodesN Demo.schema3 Runtime.none n)) f3 sample xs ∧
    get (unmarshalVT Demo.penv 0 sampleBytes (zeroMsg Demo.schema3 0)).1 f3 = extend .nil xs :=
  lists_append Demo.penv_ok rfl (by decide) (by decide) sample_records ⟨1, sample_steps⟩ (f := f3) (by decide) rfl rfl

example := messages_merge Demo.penv_ok rfl (by decide) (by decide) sample_records ⟨1, sample_steps⟩
  (f := { num := 4, slot := 3, kind := .message, presence := true, msg := 1 }) (by decide) rfl (by decide) rfl rfl

example : unknownOf (unmarshalVT Demo.penv 0 sampleBytes (zeroMsg Demo.schema3 0)).1 = [152, 6, 1] :=
  unknown_kept Demo.penv_ok rfl (by decide) (by decide) sample_records ⟨1, sample_steps⟩

theorem known_records : Records (sample.filter (known (Demo.schema3.msg 0))) [8, 0x85, 0x80, 0, 26, 2, 2, 1, 34, 2, 8, 7, 48, 1, 24, 4] := by
  have tag : ∀ b : UInt8, b < 128 → IsVarint b.toNat [b] := one_byte
  have h1 : IsVarint 5 [0x85, 0x80, 0] := ⟨.more _ _ (by decide) (.more _ _ (by decide) (.last _ (by decide))), by decide, by decide, by decide⟩
  exact .cons (.varint 1 5 [8] _ (by decide) (tag 8 (by decide)) h1) (.cons (.len 3 [26] [2] _ (by decide) (tag 26 (by decide)) (tag 2 (by decide)))
    (.cons (.len 4 [34] [2] _ (by decide) (tag 34 (by decide)) (tag 2 (by decide))) (.cons (.varint 6 1 [48] _ (by decide) (tag 48 (by decide)) (tag 1 (by decide)))
    (.cons (.varint 3 4 [24] _ (by decide) (tag 24 (by decide)) (tag 4 (by decide))) .nil))))

example : (unmarshalVT Demo.penv 0 [8, 0x85, 0x80, 0, 26, 2, 2, 1, 34, 2, 8, 7, 48, 1, 24, 4] (zeroMsg Demo.schema3 0)).2 =
    (unmarshalVT Demo.penv 0 sampleBytes (zeroMsg Demo.schema3 0)).2 :=
  (unknown_inert Demo.penv_ok rfl (by decide) (by decide) sample_records ⟨1, sample_steps⟩ (by decide) known_records).1

example :=
  oneof_last Demo.penv_ok rfl (by decide) (by decide) sample_records ⟨1, sample_steps⟩
    (f := { num := 6, slot := 5, kind := .bool, presence := true, oneof := true }) (by decide) rfl
    (rs1 := sample.take 3) (r := ⟨6, .varint 1, [48, 1]⟩) (rs2 := sample.drop 4) rfl rfl (by decide)

example : get (unmarshalVT Demo.penv 0 [8, 0x85, 0x80, 0] (.msg [.num 9, .str [], .nil, .nil, .nil, .wrap 6 (.num 1), .nil, .nil, .nil, .nil, .num 0] [] [])).1
    { num := 6, slot := 5, kind := .bool, presence := true, oneof := true } = .wrap 6 (.num 1) :=
  oneof_untouched Demo.penv_ok rfl (m := (.msg [.num 9, .str [], .nil, .nil, .nil, .wrap 6 (.num 1), .nil, .nil, .nil, .nil, .num 0] [] [])) (by decide) (by decide)
    (rs := [⟨1, .varint 5, [8, 0x85, 0x80, 0]⟩])
    (.cons (.varint 1 5 [8] [0x85, 0x80, 0] (by decide) (one_byte 8 (by decide))
      ⟨.more _ _ (by decide) (.more _ _ (by decide) (.last _ (by decide))), by decide, by decide, by decide⟩) .nil)
    ⟨0, .cons (.scalar (f := { num := 1, slot := 0, kind := .int32 }) (by decide) rfl (by decide) rfl) .nil⟩ (by decide)

/-- The list 1, -1, 2 of the sample comes as a packed pair and a single. -/
theorem sample_elements (sub : SubRel) : Elements Demo.schema3 sub f3 sample [.num 1, .num (-1), .num 2] :=
  .other (by decide) (.packed (ys := [.num 1, .num (-1)]) rfl
    (.cons (bs := [2]) (.varint (one_byte 2 (by decide))) rfl (.cons (bs := [1]) (.varint (one_byte 1 (by decide))) rfl .nil))
    (.other (by decide) (.other (by decide) (.element rfl (.other (by decide) .nil)))))

example : get (unmarshalVT Demo.penv 0 sampleBytes (zeroMsg Demo.schema3 0)).1 f3 = .list [.num 1, .num (-1), .num 2] [] :=
  any_chunking Demo.penv_ok rfl (by decide) (by decide) sample_records ⟨1, sample_steps⟩ (f := f3) (by decide) rfl rfl (sample_elements fun _ _ _ _ => False)

theorem penv4_ok : PlainEnv (Demo.uenv4 .b64) := by
  refine ⟨⟨Demo.schema4_ok, .inr rfl, fun _ t => zeroMsg_typed Demo.schema4_ok t, fun _ _ _ h => (nomatch h), fun _ _ _ h => (nomatch h), .inl rfl⟩, rfl, ?_, .inl rfl⟩
  intro t
  match t with
  | 0 => rfl
  | t + 1 => rfl

/-- An entry with the value before the key, and one without value. -/
def mapRecs : List Rec := [⟨1, .len [16, 7, 8, 5], [10, 4, 16, 7, 8, 5]⟩, ⟨1, .len [8, 6], [10, 2, 8, 6]⟩]

theorem mapRecs_records : Records mapRecs [10, 4, 16, 7, 8, 5, 10, 2, 8, 6] :=
  .cons (.len 1 [10] [4] _ (by decide) (one_byte 10 (by decide)) (one_byte 4 (by decide)))
    (.cons (.len 1 [10] [2] _ (by decide) (one_byte 10 (by decide)) (one_byte 2 (by decide))) .nil)

theorem mapRecs_merges : Merges Demo.schema4 Runtime.none 0 mapRecs (zeroMsg Demo.schema4 0)
    (.msg [.map [(.num 5, .num 7), (.num 6, .num 0)], .nil, .num 0, .nil] [] []) := by
  refine ⟨0, .cons (.entry (f := { num := 1, slot := 0, kind := .message, card := .repeated, map := some ⟨.int32, .int32, 0⟩ }) (md := ⟨.int32, .int32, 0⟩)
    (k := .num 5) (v := .num 7) (by decide) rfl ?_)
    (.cons (.entry (f := { num := 1, slot := 0, kind := .message, card := .repeated, map := some ⟨.int32, .int32, 0⟩ }) (md := ⟨.int32, .int32, 0⟩)
    (k := .num 6) (v := .num 0) (by decide) rfl ?_) .nil)⟩
  · refine ⟨[⟨2, .varint 7, [16, 7]⟩, ⟨1, .varint 5, [8, 5]⟩], some (.num 5), some (.num 7), ?_, .value rfl (.key rfl .nil), rfl, by simp, rfl⟩
    exact .cons (.varint 2 7 [16] [7] (by decide) (one_byte 16 (by decide)) (one_byte 7 (by decide)))
      (.cons (.varint 1 5 [8] [5] (by decide) (one_byte 8 (by decide)) (one_byte 5 (by decide))) .nil)
  · refine ⟨[⟨1, .varint 6, [8, 6]⟩], some (.num 6), none, ?_, .key rfl .nil, rfl, by simp, rfl⟩
    exact .cons (.varint 1 6 [8] [6] (by decide) (one_byte 8 (by decide)) (one_byte 6 (by decide))) .nil

example := map_entries_partial penv4_ok rfl (by decide) (by decide) mapRecs_records mapRecs_merges
  (f := { num := 1, slot := 0, kind := .message, card := .repeated, map := some ⟨.int32, .int32, 0⟩ }) (by decide) rfl

/-! ## C26 fails for messages without generated code -/

/-- `message F { google.protobuf.Any-like Foreign a = 1; }`, the foreign type decoded by the runtime. -/
def foreignSchema : Schema := [
  { fields := [{ num := 1, slot := 0, kind := .message, presence := true, msg := 1 }], nslots := 1 },
  { fields := [], nslots := 0, foreign := true }]

/-- A runtime whose messages have only unknown fields. -/
def foreignEnv : UEnv :=
  { S := foreignSchema, R := { Runtime.none with unmarshal := fun _ b => some (.msg [] b []) }, A := .b64, alloc := fun _ t => zeroMsg foreignSchema t }

/-- C26 fails for foreign messages, which `proto.Unmarshal` resets: the last record wins. Merged, the field would hold `[8, 1, 16, 2]`. -/
theorem foreign_last_wins : unmarshalVT foreignEnv 0 [10, 2, 8, 1, 10, 2, 16, 2] (zeroMsg foreignSchema 0) = (.msg [.msg [] [16, 2] []] [] [], .ok ()) := by decide

/-! ## C27: marshalling -/

/-- C27. The unknown fields come after the known ones when the message is marshalled (unless switched off). -/
theorem unknown_marshalled {E : Env} (strict : Bool) (hS : schemaOK E.S = true) (hR : RuntimeEnc E.R) {t : Nat} {s : List Val} {u e : Bytes}
    (hv : wt E.S t (.msg s u e) = true) (hv' : wt E.S t (.msg s [] e) = true) (hf : (E.S.msg t).foreign = false) {b : Bytes}
    (h : marshalVT E strict t (.msg s [] e) = .ok (some b)) :
    marshalVT E strict t (.msg s u e) = .ok (some (b ++ if (E.S.msg t).keepUnknown then u else [])) := by
  rw [(marshal_encodes strict hS hR hv' hf).1, encode_msg] at h
  rw [(marshal_encodes strict hS hR hv hf).1, encode_msg]
  generalize (if strict = true then bodyStrict E (encode E strict) (E.S.msg t) s else bodyDefault E (encode E strict) (E.S.msg t) s) = o at h ⊢
  cases o with
  | none => simp at h
  | some a => simp at h; simp [h]

example : marshalVT Demo.env false 1 (.msg [.num 7, .nil] [16, 1] []) = .ok (some ([8, 7] ++ [16, 1])) :=
  unknown_marshalled false Demo.schema_ok Demo.runtime_ok (by decide) (by decide) rfl (by decide)

/-! ## C31 -/

/-- C31. A packed record which ends in the middle of an element is rejected, if nothing follows it. Missing: with more input after
it the last element is read across the end (`packed_overrun_accepted`). -/
theorem packed_overrun_rejected_partial {E : UEnv} (hE : DecodeEnv E) {t : Nat} (hf : (E.S.msg t).foreign = false) {m m1 : Val} (hm : wtM E.S .solid t m = true)
    {a : Bytes} (ha : Begins E t m a m1) {f : FieldDesc} (hmem : f ∈ (E.S.msg t).fields) (hr : f.card = .repeated) (hk : numeric f.kind = true) {tag lb bs : Bytes}
    (htag : IsVarint (f.num * 8 + 2) tag) (hlb : IsVarint bs.length lb) (hbad : ¬ Pieces f.kind bs) (hF : E.A.Fits (a ++ (tag ++ (lb ++ bs))).length) :
    ∃ e, (unmarshalVT E t (a ++ (tag ++ (lb ++ bs))) m).2 = .err e := by
  have hret := (unmarshal_returns_partial hE hf hm hF).1
  have htp := htag.shape.length_pos
  have hne : (unmarshalVT E t (a ++ (tag ++ (lb ++ bs))) m).2 ≠ .ok () := by
    intro h
    obtain ⟨has, m2, j, has2, hst⟩ := step_ok_after hE.schema hE.arch hf hF ha (List.ne_nil_of_length_pos (by simp; omega)) h
    exact hbad (recordStep_pieces hE hmem hr hk htag hlb hF (by simp) (by simp) hst)
  generalize (unmarshalVT E t (a ++ (tag ++ (lb ++ bs))) m).2 = o at hret hne
  cases o with
  | ok => exact absurd rfl hne
  | err e => exact ⟨e, rfl⟩
  | panic => exact hret.elim
  | diverge => exact hret.elim

/-- One byte with the continuation bit is no element. -/
theorem half_element : ¬ Pieces .int32 [128] := by
  intro h
  generalize hb : ([128] : Bytes) = b at h
  cases h with
  | nil => cases hb
  | @cons bs rest hp hrest =>
    match bs, hb, hp with
    | [], _, .varint _ h _ => have := h.length_pos; simp at this
    | [c], hb, .varint _ h _ =>
      simp at hb
      rw [← hb.1] at h
      cases h with
      | last _ h => exact absurd h (by decide)
      | more _ _ _ h => have := h.length_pos; simp at this
    | c :: c' :: cs, hb, _ => simp at hb

example : ∃ e, (unmarshalVT (Demo.uenv4 .b64) 0 ([24, 1] ++ ([34] ++ ([1] ++ [128]))) (zeroMsg Demo.schema4 0)).2 = .err e :=
  packed_overrun_rejected_partial penv4_ok.env rfl (by decide) (m1 := .msg [.nil, .nil, .num 1, .nil] [] []) (.accepted (by decide))
    (f := { num := 4, slot := 3, kind := .int32, card := .repeated }) (by decide) rfl rfl (one_byte 34 (by decide)) (one_byte 1 (by decide)) half_element (by decide)

/-- C31 fails with more input after the record: the record holds one byte, its element 128 takes the next one too. -/
theorem packed_overrun_accepted : ¬ Pieces .int32 [128] ∧
    unmarshalVT (Demo.uenv4 .b64) 0 ([34] ++ ([1] ++ [128]) ++ [1]) (zeroMsg Demo.schema4 0) = (.msg [.nil, .nil, .num 0, .list [.num 128] []] [] [], .ok ()) :=
  ⟨half_element, by decide⟩

/-! ## C38 -/

/-- C38. The number of elements preallocated for a packed record is at most its number of bytes. -/
theorem prealloc_bounded (k : Kind) (b : Bytes) : elementCount k b ≤ b.length := elementCount_le k b

/-- C38. For a well-formed record it is the number of its elements. Missing: enums, for which nothing is preallocated, and bools, for
which as much as there are bytes is (`prealloc_enum`, `prealloc_bool`). -/
theorem prealloc_exact_partial {k : Kind} {b : Bytes} {vs : List Val} (h : Packed k b vs) :
    (k ≠ .bool → k ≠ .enum → numeric k = true → elementCount k b = vs.length) ∧ (k = .bool → vs.length ≤ elementCount k b) := elementCount_packed h

/-- The elements 0x80 0x01 and 0x01. -/
theorem packed_two (k : Kind) (h : wireType k = 0) : ∃ vs, Packed k [128, 1, 1] vs ∧ vs.length = 2 :=
  ⟨[.num (varintNum k 128), .num (varintNum k 1)],
    .cons (bs := [128, 1]) (.varint (v := 128) ⟨.more _ _ (by decide) (.last _ (by decide)), by decide, by decide, by decide⟩) (by simp [scalarValue, h])
      (.cons (bs := [1]) (.varint (one_byte 1 (by decide))) (by simp [scalarValue, h]) .nil), rfl⟩

example : elementCount .int32 [128, 1, 1] = 2 := by
  obtain ⟨vs, h, hl⟩ := packed_two .int32 rfl
  rw [(prealloc_exact_partial h).1 (by decide) (by decide) rfl, hl]

/-- C38 fails for enums: 2 elements, none preallocated. -/
theorem prealloc_enum : (∃ vs, Packed .enum [128, 1, 1] vs ∧ vs.length = 2) ∧ elementCount .enum [128, 1, 1] = 0 := ⟨packed_two _ rfl, by decide⟩

/-- C38 fails for bools: 2 elements, 3 preallocated. -/
theorem prealloc_bool : (∃ vs, Packed .bool [128, 1, 1] vs ∧ vs.length = 2) ∧ elementCount .bool [128, 1, 1] = 3 := ⟨packed_two _ rfl, by decide⟩

end Vtp.Props
