import Verif.Lemmas.MarshalMsg
import Verif.Lemmas.Depth
import Verif.Lemmas.Missing
import Verif.Lemmas.Order
import Verif.Demo
/-!
# Properties of `SizeVT` and the marshalling methods: C10-C18, C65

`schemaOK E.S`: the schema is one protoc accepts and the generated code compiles for.
`RuntimeEnc E.R`: `proto.Size` is the length of `proto.Marshal`, for messages without vtproto methods.
`wt E.S t v`: `v` is a non-nil Go value of the generated type `t`.
-/

namespace Vtp.Props
open Spec

/-- The facts about a well-typed message from which the rest follows. -/
private theorem runs {E : Env} (strict : Bool) (hS : schemaOK E.S = true) (hR : RuntimeEnc E.R) {t : Nat} {v : Val}
    (hv : wt E.S t v = true) (hf : (E.S.msg t).foreign = false) :
    RunsSized (marshalToSized E strict t v) (encode E strict t v) (sizeVT E t v) :=
  runs_message E strict hS hR v.depth t v (by rw [Bool.or_eq_true]; exact Or.inr hv) hf

/-! ## C10 -/

/-- C10. If `MarshalVT` or `MarshalVTStrict` succeeds, the result has length `SizeVT()`. -/
theorem size_eq_length {E : Env} (strict : Bool) (hS : schemaOK E.S = true) (hR : RuntimeEnc E.R) {t : Nat} {v : Val}
    (hv : wt E.S t v = true) (hf : (E.S.msg t).foreign = false) {b : Bytes}
    (h : marshalVT E strict t v = .ok (some b)) : b.length = sizeVT E t v := by
  have hr := runs strict hS hR hv hf
  obtain ⟨s, u, e, rfl⟩ := wtN_shape hv
  rw [marshalVT] at h
  cases he : encode E strict t (.msg s u e) with
  | none =>
    rw [he] at hr
    obtain ⟨er, hr⟩ := (hr (List.replicate (sizeVT E t (.msg s u e)) 0)).1 (by simp)
    rw [hr] at h; simp at h
  | some c =>
    rw [he] at hr
    have := (hr.2 (List.replicate (sizeVT E t (.msg s u e)) 0)).1 (by simp)
    rw [this] at h
    simp only [Res.bind_ok] at h
    split at h
    · simp only [Res.ok.injEq, Option.some.injEq] at h
      rw [← h]
      simp [hr.1]
    · simp at h

/-! ## C11 -/

/-- C11. With a buffer of at least `SizeVT()` bytes the encoding goes to its end, the rest of the
buffer is untouched and `SizeVT()` is returned. -/
theorem marshalToSized_tail {E : Env} (strict : Bool) (hS : schemaOK E.S = true) (hR : RuntimeEnc E.R) {t : Nat} {v : Val}
    (hv : wt E.S t v = true) (hf : (E.S.msg t).foreign = false) {b : Bytes} (he : encode E strict t v = some b)
    (front back : Bytes) (hb : back.length = sizeVT E t v) :
    marshalToSized E strict t v (front ++ back) = .ok (front ++ b, sizeVT E t v) ∧ b.length = sizeVT E t v := by
  have hr := runs strict hS hR hv hf
  rw [he] at hr
  refine ⟨?_, hr.1⟩
  have := (hr.2 (front ++ back)).1 (by simp [hb])
  rw [this]
  simp [hb]

/-- C11. With a smaller buffer it panics; it does not report success. -/
theorem marshalToSized_short {E : Env} (strict : Bool) (hS : schemaOK E.S = true) (hR : RuntimeEnc E.R) {t : Nat} {v : Val}
    (hv : wt E.S t v = true) (hf : (E.S.msg t).foreign = false) {b : Bytes} (he : encode E strict t v = some b)
    (buf : Bytes) (hb : buf.length < sizeVT E t v) : (marshalToSized E strict t v buf).Panics := by
  have hr := runs strict hS hR hv hf
  rw [he] at hr
  exact (hr.2 buf).2 hb

/-! ## C12 -/

/-- C12. `MarshalToVT` writes the encoding at the start of the buffer and leaves what follows; the
buffer has to have the capacity, not the length. -/
theorem marshalTo_prefix {E : Env} (strict : Bool) (hS : schemaOK E.S = true) (hR : RuntimeEnc E.R) {t : Nat} {v : Val}
    (hv : wt E.S t v = true) (hf : (E.S.msg t).foreign = false) {b : Bytes} (he : encode E strict t v = some b)
    (front back : Bytes) (hb : front.length = sizeVT E t v) :
    marshalTo E strict t v (front ++ back) = .ok (b ++ back, sizeVT E t v) := by
  have h := (marshalToSized_tail strict hS hR hv hf he [] front hb).1
  rw [List.nil_append, List.nil_append] at h
  unfold marshalTo
  have : sizeVT E t v ≤ (front ++ back).length := by simp [hb]
  simp only [this, if_true]
  rw [← hb, List.take_left, h, List.drop_left, hb]
  rfl

/-- C12. Without the capacity it panics. -/
theorem marshalTo_short {E : Env} (strict : Bool) (t : Nat) (v : Val) (arr : Bytes) (hb : arr.length < sizeVT E t v) :
    (marshalTo E strict t v arr).Panics := by
  unfold marshalTo
  have : ¬ sizeVT E t v ≤ arr.length := by omega
  simp [this, Res.Panics]

/-! ## C13, C14 -/

/-- C13, C14. `MarshalVT` and `MarshalVTStrict` return exactly the specified encoding (for the order see
`encode_default`, `encode_strict`), and an error exactly when there is none. -/
theorem marshal_encodes {E : Env} (strict : Bool) (hS : schemaOK E.S = true) (hR : RuntimeEnc E.R) {t : Nat} {v : Val}
    (hv : wt E.S t v = true) (hf : (E.S.msg t).foreign = false) :
    (∀ b, marshalVT E strict t v = .ok (some b) ↔ encode E strict t v = some b) ∧
    ((marshalVT E strict t v).Fails ↔ encode E strict t v = none) ∧ (marshalVT E strict t v).Returns := by
  have hr := runs strict hS hR hv hf
  obtain ⟨s, u, e, rfl⟩ := wtN_shape hv
  rw [marshalVT]
  cases he : encode E strict t (.msg s u e) with
  | none =>
    rw [he] at hr
    obtain ⟨er, hr⟩ := (hr (List.replicate (sizeVT E t (.msg s u e)) 0)).1 (by simp)
    rw [hr]
    simp [Res.Fails, Res.Returns]
  | some c =>
    rw [he] at hr
    have := (hr.2 (List.replicate (sizeVT E t (.msg s u e)) 0)).1 (by simp)
    rw [this]
    have hl := hr.1
    simp [Res.Fails, Res.Returns, hl]
    rw [← hl]
    simp

/-- C13. What the default encoding is: the records of the plain fields in ascending order of number,
then those of the oneofs, then the unknown fields. The contents of sub-messages are encodings. -/
theorem encode_default (E : Env) (t : Nat) (slots : List Val) (unk ext : Bytes) :
    encode E false t (.msg slots unk ext) =
      concat ((((ascending (E.S.msg t).fields).filter (fun f => !f.oneof)).map fun f => field E (encode E false) f (slotOf slots f)) ++
        (oneofLast (E.S.msg t).fields).map (fun f => oneof E (encode E false) (E.S.msg t) f.slot (slotOf slots f)) ++
        [some (if (E.S.msg t).keepUnknown then unk else [])]) := by
  rw [encode_msg, concat_append, bodyDefault]
  simp only [Bool.false_eq_true, if_false]
  cases concat (List.map (fun f => field E (encode E false) f (slotOf slots f)) (List.filter (fun f => !f.oneof) (ascending (E.S.msg t).fields)) ++
        (oneofLast (E.S.msg t).fields).map (fun f => oneof E (encode E false) (E.S.msg t) f.slot (slotOf slots f))) <;>
    simp [concat, optAppend]

/-- The fields are sorted by number, and nothing is lost. -/
theorem ascending_correct (d : MsgDesc) (h : msgDescOK d = true) :
    (ascending d.fields).Perm d.fields ∧ (ascending d.fields).Pairwise (fun a b => a.num < b.num) :=
  ⟨ascending_perm _, ascending_strict (MsgFacts.of h).nodup⟩

/-- C14. Strict order: one item per field, in ascending order, oneof members at their own numbers. -/
theorem encode_strict (E : Env) (t : Nat) (slots : List Val) (unk ext : Bytes) :
    encode E true t (.msg slots unk ext) =
      concat ((ascending (E.S.msg t).fields).map (chunkStrict E (encode E true) slots) ++
        [some (if (E.S.msg t).keepUnknown then unk else [])]) := by
  rw [encode_msg, concat_append, bodyStrict]
  simp only [if_true]
  change Option.bind (concat ((ascending (E.S.msg t).fields).map (chunkStrict E (encode E true) slots))) _ = _
  cases concat ((ascending (E.S.msg t).fields).map (chunkStrict E (encode E true) slots)) <;> simp [concat, optAppend]

/-- C14. For the same encodings of sub-messages, the non-empty records written in strict order are a
permutation of those written in default order. -/
theorem strict_permutes {E : Env} (hS : schemaOK E.S = true) (t : Nat) (slots : List Val) (rec : Nat → Val → Option Bytes) :
    (((ascending (E.S.msg t).fields).map (chunkStrict E rec slots)).filter (fun c => c != some [])).Perm
      (((((ascending (E.S.msg t).fields).filter (fun f => !f.oneof)).map fun f => field E rec f (slotOf slots f)) ++
        (oneofLast (E.S.msg t).fields).map (fun f => oneof E rec (E.S.msg t) f.slot (slotOf slots f))).filter (fun c => c != some [])) :=
  chunks_perm E rec (schemaOK_msg hS t) slots

/-- C14. Both orders give the same number of bytes and fail together. -/
theorem strict_length {E : Env} (hS : schemaOK E.S = true) (hR : RuntimeEnc E.R) {t : Nat} {v : Val}
    (hv : wt E.S t v = true) (hf : (E.S.msg t).foreign = false) {b c : Bytes}
    (h1 : marshalVT E false t v = .ok (some b)) (h2 : marshalVT E true t v = .ok (some c)) : b.length = c.length := by
  rw [size_eq_length false hS hR hv hf h1, size_eq_length true hS hR hv hf h2]

/-! ## C15 -/

/-- C15. `SizeVT` does not depend on map iteration order, at any depth. -/
theorem size_shuffle {E : Env} (hR : RuntimeShuffle E.R) {t : Nat} {v w : Val} (h : Shuffle v w) :
    sizeVT E t v = sizeVT E t w := sizeVT_shuffle hR h

/-- C15. With the entries of a map in another order, the same entry records are written in another order. -/
theorem map_order (E : Env) (rec : Nat → Val → Option Bytes) (f : FieldDesc) (md : MapDesc) (hm : f.map = some md)
    {es es' : List (Key × Val)} (h : es.Perm es') :
    ∃ rs rs', field E rec f (.map es) = concat rs ∧ field E rec f (.map es') = concat rs' ∧ rs.Perm rs' ∧
      rs.length = es.length ∧ ∀ r ∈ rs, ∃ e ∈ es, r = entry E rec f.num md e := by
  refine ⟨es.reverse.map (entry E rec f.num md), es'.reverse.map (entry E rec f.num md), ?_, ?_, ?_, by simp, ?_⟩
  · simp [field, hm, Val.entries]
  · simp [field, hm, Val.entries]
  · exact (((List.reverse_perm es).trans h).trans (List.reverse_perm es').symm).map _
  · intro r hr
    obtain ⟨e, he, rfl⟩ := List.mem_map.1 hr
    exact ⟨e, List.mem_reverse.1 he, rfl⟩

/-! ## C16 -/

/-- C16. `MarshalVT` returns an error if and only if a required field is missing in the message or in a
message it contains; otherwise it succeeds. It never panics. -/
theorem marshal_fails_iff {E : Env} (strict : Bool) (hS : schemaOK E.S = true) (hR : RuntimeEnc E.R)
    (hT : ∀ t v, (E.R.marshal t v).isSome = true) {t : Nat} {v : Val}
    (hv : wt E.S t v = true) (hf : (E.S.msg t).foreign = false) :
    ((marshalVT E strict t v).Fails ↔ missing E.S t v = true) ∧
    (missing E.S t v = false → ∃ b, marshalVT E strict t v = .ok (some b)) := by
  obtain ⟨h1, h2, h3⟩ := marshal_encodes strict hS hR hv hf
  have hm := encodeN_none E strict hS hT v.depth t v (by rw [Bool.or_eq_true]; exact Or.inr hv) hf
  refine ⟨h2.trans hm, fun h => ?_⟩
  cases he : encode E strict t v with
  | none => rw [hm.1 he |> fun x => (show missing E.S t v = true from x)] at h; simp at h
  | some b => exact ⟨b, (h1 b).2 he⟩

/-- C16. The buffer-taking methods likewise return an error, whatever is in the buffer. -/
theorem marshalToSized_missing {E : Env} (strict : Bool) (hS : schemaOK E.S = true) (hR : RuntimeEnc E.R)
    (hT : ∀ t v, (E.R.marshal t v).isSome = true) {t : Nat} {v : Val}
    (hv : wt E.S t v = true) (hf : (E.S.msg t).foreign = false) (hm : missing E.S t v = true) (buf : Bytes)
    (hb : sizeVT E t v ≤ buf.length) : (marshalToSized E strict t v buf).Fails := by
  have hr := runs strict hS hR hv hf
  have := (encodeN_none E strict hS hT v.depth t v (by rw [Bool.or_eq_true]; exact Or.inr hv) hf).2 hm
  have : encode E strict t v = none := this
  rw [this] at hr
  obtain ⟨er, h⟩ := (hr buf).1 hb
  rw [h]; trivial

/-! The hypotheses hold of a message using every field shape, and of one with a missing field. -/

example : schemaOK Demo.schema = true ∧ wt Demo.schema 0 Demo.big = true ∧ missing Demo.schema 0 Demo.big = false ∧
    ((Demo.schema.msg 0).foreign = false) := by decide
example : RuntimeEnc Demo.env.R ∧ RuntimeShuffle Demo.env.R ∧ ∀ t v, (Demo.env.R.marshal t v).isSome = true :=
  ⟨Demo.runtime_ok, fun _ _ _ _ => rfl, fun _ _ => rfl⟩
example : ∃ b, encode Demo.env false 0 Demo.big = some b ∧ b.length = sizeVT Demo.env 0 Demo.big := by
  obtain ⟨b, hb⟩ := (marshal_fails_iff (E := Demo.env) false Demo.schema_ok Demo.runtime_ok (fun _ _ => rfl) Demo.big_wt
    (by decide)).2 (by decide)
  exact ⟨b, ((marshal_encodes false Demo.schema_ok Demo.runtime_ok Demo.big_wt (by decide)).1 b).1 hb,
    size_eq_length false Demo.schema_ok Demo.runtime_ok Demo.big_wt (by decide) hb⟩
/-- A message inside a map value lacks its required field. -/
def lacking : Val := .msg [.num 0, .str [], .nil, .nil, .map [(.num 1, .msg [.nil, .nil] [] [])], .nil, .nil, .nil, .str [], .nil,
  .num 0] [] []
example : wt Demo.schema 0 lacking = true ∧ missing Demo.schema 0 lacking = true := by decide
example : Shuffle Demo.big (.msg [
    .num 150, .str [104, 105], .list [.num 1, .num (-1)] [], Demo.small 7,
    .map [(.num 3, .msg [.num 4, .str [9]] [] []), (.num 1, Demo.small 2)],
    .wrap 7 (Demo.small 5), .num 0x3ff0000000000000, .list [Demo.small 1, Demo.small 2] [], .str [1, 2, 3],
    .list [.str [], .str [65]] [], .num 0x3f800000] [0x98, 0x06, 0x01] []) :=
  Shuffle.slot (a := [.num 150, .str [104, 105], .list [.num 1, .num (-1)] [], Demo.small 7]) (.perm (List.Perm.swap _ _ _))

/-- C10, C16 do not extend to typed nil oneof wrappers: a Go value `(*Big_F)(nil)` in the oneof has
size 0 and makes `MarshalVT` panic. -/
theorem typed_nil_wrapper_panics : ∃ (E : Env) (v : Val), schemaOK E.S = true ∧ wtM E.S .typedNil 0 v = true ∧
    sizeVT E 0 v = 0 ∧ (marshalVT E false 0 v).Panics :=
  ⟨Demo.env, .msg [.num 0, .str [], .nil, .nil, .nil, .wrapNil 6, .nil, .nil, .nil, .nil, .num 0] [] [], by decide⟩

/-! ## C17 -/

/-- The value is the default of its kind: zero (either zero for floats), empty. -/
def IsDefault (k : Kind) (v : Val) : Prop :=
  match k with
  | .string => v = .str []
  | .bytes => v = .str [] ∨ v = .nil
  | .float => v.bits = 0 ∨ v.bits = 0x80000000
  | .double => v.bits = 0 ∨ v.bits = 0x8000000000000000
  | _ => v.bits = 0

theorem isZero_default (k : Kind) (v : Val) (h : scalarOK k v = true) : isZeroVal k v = true ↔ IsDefault k v := by
  unfold scalarOK at h
  unfold isZeroVal IsDefault
  cases k <;> cases v <;> simp [isZeroNum, Val.bits, Val.bytes] at h ⊢
  case float.num n =>
    simp only [inRange, decide_eq_true_eq] at h
    constructor
    · intro hz
      have h1 : (BitVec.setWidth 32 n).toNat * 2 % 2 ^ 32 = 0 := by
        have := congrArg BitVec.toNat hz; simpa [BitVec.toNat_shiftLeft, Nat.shiftLeft_eq] using this
      rw [BitVec.toNat_setWidth, Nat.mod_eq_of_lt h] at h1
      have : n.toNat = 0 ∨ n.toNat = 0x80000000 := by omega
      rcases this with h | h
      · left; apply BitVec.eq_of_toNat_eq; simpa using h
      · right; apply BitVec.eq_of_toNat_eq; simpa using h
    · rintro (rfl | rfl) <;> decide
  case double.num n =>
    constructor
    · intro hz
      have h1 : n.toNat * 2 % 2 ^ 64 = 0 := by
        have := congrArg BitVec.toNat hz; simpa [BitVec.toNat_shiftLeft, Nat.shiftLeft_eq] using this
      have := n.isLt
      have : n.toNat = 0 ∨ n.toNat = 0x8000000000000000 := by omega
      rcases this with h | h
      · left; apply BitVec.eq_of_toNat_eq; simpa using h
      · right; apply BitVec.eq_of_toNat_eq; simpa using h
    · rintro (rfl | rfl) <;> decide

theorem tag_ne_nil (n w : Nat) : tag n w ≠ [] := by
  unfold tag varint leb
  split <;> simp

/-- C17. A singular field with implicit presence contributes bytes if and only if it is not the default
of its kind; the number of bytes `SizeVT` counts for it agrees. -/
theorem implicit_presence (E : Env) (rec : Nat → Val → Option Bytes) (f : FieldDesc) (v : Val)
    (hc : f.card = .optional) (hm : f.map = none) (hp : f.presence = false) (hk : f.hasMessage = false)
    (hv : scalarOK f.kind v = true) :
    ∃ b, field E rec f v = some b ∧ (b = [] ↔ IsDefault f.kind v) := by
  unfold field
  have hc' : f.card ≠ .repeated := by rw [hc]; simp
  simp only [hm, if_neg hc', hp, hk, Bool.or_self, Bool.false_eq_true, if_false]
  by_cases hz : isZeroVal f.kind v = true
  · simp [hz, (isZero_default _ _ hv).1 hz]
  · have hd : ¬ IsDefault f.kind v := fun h => hz ((isZero_default _ _ hv).2 h)
    simp only [hz, Bool.false_eq_true, if_false]
    unfold FieldDesc.hasMessage at hk
    cases hkk : f.kind <;> rw [hkk] at hk hd <;> simp at hk <;>
      exact ⟨_, rfl, by simp [tag_ne_nil, hd]⟩

/-- C17. A singular field with explicit presence contributes bytes if and only if it is set, whatever
its value. -/
theorem explicit_presence (E : Env) (rec : Nat → Val → Option Bytes) (f : FieldDesc) (v : Val)
    (hc : f.card = .optional) (hm : f.map = none) (hp : f.presence = true) (hr : (∀ t v, (rec t v).isSome = true))
    (hR : ∀ t v, (E.R.marshal t v).isSome = true) :
    ∃ b, field E rec f v = some b ∧ (b = [] ↔ v = .nil) := by
  unfold field
  simp only [hm, hp, Bool.true_or, if_true, hc]
  by_cases hz : v = .nil
  · simp [hz]
  · simp only [hz, if_false]
    have : ∃ c, sub E rec f.msg v = some c := by
      unfold sub
      split
      · exact Option.isSome_iff_exists.1 (hR _ _)
      · exact Option.isSome_iff_exists.1 (hr _ _)
    obtain ⟨c, hs⟩ := this
    cases hkk : f.kind <;> simp [record, hs, tag_ne_nil]

example : ∃ f ∈ (Demo.schema.msg 0).fields, f.card = .optional ∧ f.map = none ∧ f.presence = false ∧ f.hasMessage = false ∧
    scalarOK f.kind (.num 7) = true := by decide
example : ∃ f ∈ (Demo.schema.msg 0).fields, f.card = .optional ∧ f.map = none ∧ f.presence = true ∧ f.kind = .double := by decide

/-- C17 fails for negative zero: it is not emitted, so decoding cannot restore it. -/
theorem negative_zero_dropped : ∃ (E : Env) (v : Val), schemaOK E.S = true ∧ wt E.S 0 v = true ∧
    slotOf (match v with | .msg s _ _ => s | _ => []) { num := 12, slot := 10, kind := .float } = .num 0x80000000 ∧
    marshalVT E false 0 v = .ok (some []) :=
  ⟨Demo.env, .msg [.num 0, .str [], .nil, .nil, .nil, .nil, .nil, .nil, .nil, .nil, .num 0x80000000] [] [], by decide⟩

/-! ## C18 -/

/-- C18. A nil message has size 0 and marshals to nothing, in every method, without touching the buffer. -/
theorem nil_marshal (E : Env) (strict : Bool) (t : Nat) (buf : Bytes) :
    sizeVT E t .nil = 0 ∧ marshalVT E strict t .nil = .ok none ∧ marshalTo E strict t .nil buf = .ok (buf, 0) ∧
      marshalToSized E strict t .nil buf = .ok (buf, 0) := by
  refine ⟨rfl, rfl, ?_, rfl⟩
  have : sizeVT E t .nil = 0 := rfl
  simp [marshalTo, this, marshalToSized, Val.depth, marshalToSizedN]

/-! ## C65 -/

/-- C65. The wire type in the generator's table is that of the encoding document, for each kind; packed
fields use the length-delimited type. -/
theorem wireType_table (k : Kind) : protoWireType k = wireType k := by cases k <;> rfl

end Vtp.Props
