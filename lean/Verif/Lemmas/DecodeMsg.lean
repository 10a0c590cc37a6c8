import Verif.Lemmas.Decode
/-! The decoder on well-formed map entries, sub-messages and records. -/

namespace Vtp
open Spec

/-- The decoder of sub-messages does what the relation says. -/
def SubOK (E : UEnv) (rec : SubDec) (sub : SubRel) (N : Nat) : Prop :=
  ∀ off t b v v', b.length < N → Typed E.S t v → sub t b v v' → decodeMessage E rec off t b v = (v', .ok ())

section
variable {E : UEnv} {t : Nat} {d : Bytes}

theorem UEnv.copy_eq (h : E.aliasing = false) : { E with aliasing := false } = E := by
  cases E; simp_all

theorem Res.bind_assoc {α β γ : Type} (x : Res α) (f : α → Res β) (g : β → Res γ) : ((x >>= f) >>= g) = (x >>= fun a => f a >>= g) := by
  cases x <;> rfl

theorem mapItem_num {rec : SubDec} {k : Kind} (hk : numeric k = true) (t : Nat) (d : Bytes) (base i : Nat) {old : Val} (ho : old.bits = 0) :
    mapItem E rec k t d base i old = (readNum E.A k d i >>= fun r => .ok (.num r.1, r.2)) := by
  unfold mapItem
  have h32 : (0 : BitVec 64).setWidth 32 = (0 : BitVec 32) := rfl
  cases k <;> simp [numeric] at hk <;> simp only [ho, h32] <;> unfold readNum <;> simp only [decodeVarint, Res.bind_assoc] <;> rfl

/-- A scalar map key or value. -/
theorem mapItem_scalar (hE : PlainEnv E) (hF : E.A.Fits d.length) (rec : SubDec) {k : Kind} (hb : E.A.bits = 64 ∨ k ≠ .bool) (t base : Nat) {i : Nat}
    (hi : i ≤ d.length) {p : Payload} {bs rest : Bytes} (hp : PackedItem p bs ∨ ∃ lb b, p = .len b ∧ bs = lb ++ b ∧ IsVarint b.length lb)
    {v : Val} (hv : scalarValue k p = some v) (hd : d.drop i = bs ++ rest) {old : Val} (ho : old.bits = 0) :
    mapItem E rec k t d base i old = .ok (v, i + bs.length) := by
  have hA := hE.env.arch
  rcases hp with hp | ⟨lb, b, rfl, rfl, hlb⟩
  · obtain ⟨n, rfl, hn⟩ := readNum_value hA hb hF hi hp hv hd
    have hk : numeric k = true := by
      cases hp <;> cases k <;> simp_all [scalarValue, wireType, numeric]
    rw [mapItem_num hk t d base i ho, hn]
    rfl
  · simp only [scalarValue] at hv
    split at hv
    · rename_i hk
      simp only [Option.some.injEq] at hv
      subst hv
      have hs := slice_len hi hd
      have hle := le_of_drop hd hi
      unfold mapItem
      rcases hk with rfl | rfl
      · simp only
        rw [readSpan_len hA (.inl rfl) hF hi hlb hd]
        simp only [Res.bind_ok]
        rw [hs]
        simp only [Res.bind_ok]
        rw [UEnv.keep_copy hE.copy]
      · simp only
        rw [readSpan_len hA (.inl rfl) hF hi hlb hd, decodeVarint_isVarint hlb 64 (by rw [hd, List.append_assoc])]
        simp only [Res.bind_ok]
        rw [if_neg, hs]
        · simp only [Res.bind_ok]
          rw [UEnv.keep_copy hE.copy]
        · have h1 : (BitVec.ofNat 64 b.length).toNat = b.length := by
            rw [BitVec.toNat_ofNat, Nat.mod_eq_of_lt hlb.small]
          unfold Arch.Fits at hF
          simp only [List.length_append] at hle
          simp only [h1, Bool.and_eq_true, decide_eq_true_eq, not_and]
          intro _
          omega
    · simp at hv

theorem Tail.scalar {num : Nat} {p : Payload} {bs : Bytes} (h : Tail num p bs) {k : Kind} {v : Val} (hv : scalarValue k p = some v) :
    PackedItem p bs ∨ ∃ lb b, p = .len b ∧ bs = lb ++ b ∧ IsVarint b.length lb := by
  cases h with
  | varint h => exact .inl (.varint h)
  | i64 h => exact .inl (.i64 h)
  | len h => exact .inr ⟨_, _, rfl, rfl, h⟩
  | group => simp [scalarValue] at hv
  | i32 h => exact .inl (.i32 h)

theorem Tail.len_inv {num : Nat} {b bs : Bytes} (h : Tail num (.len b) bs) : ∃ lb, bs = lb ++ b ∧ IsVarint b.length lb := by
  cases h with
  | len h => exact ⟨_, rfl, h⟩

theorem zeroScalar_bits (k : Kind) : (zeroScalar k).bits = 0 := by cases k <;> rfl

theorem skipAt_run (hA : E.A.Valid) (hF : E.A.Fits d.length) {num : Nat} {p : Payload} {raw rest : Bytes} (hr : IsRecord num p raw) {i limit : Nat}
    (hi : i ≤ d.length) (hd : d.drop i = raw ++ rest) (hl : i + raw.length ≤ limit) : skipAt E.A d i limit = .ok (i + raw.length) := by
  have hle := le_of_drop hd hi
  have hFr : E.A.Fits raw.length := by unfold Arch.Fits at hF ⊢; omega
  have hFd : E.A.Fits (raw ++ rest).length := by
    rw [← hd]; unfold Arch.Fits at hF ⊢; simp; omega
  unfold skipAt
  rw [slice_all hi (Nat.le_refl _)]
  simp only [Res.bind_ok]
  rw [List.take_of_length_le (by simp), hd, skip_complete E.A hA raw rest hFd (hr.loose E.A hA hFr)]
  simp only [Res.bind_ok]
  unfold Arch.Fits at hF
  rw [Arch.wrap_small hA _ (by omega) (by omega), if_neg (by omega), if_neg (by omega)]
  congr 1

theorem ofNat_num_eq {n c : Nat} (hn : ValidNum n) (hc : c < 2 ^ 32) : BitVec.ofNat 32 n = BitVec.ofNat 32 c ↔ n = c := by
  obtain ⟨h1, h2⟩ := hn
  constructor
  · intro h
    have := congrArg BitVec.toNat h
    simp only [BitVec.toNat_ofNat] at this
    omega
  · rintro rfl; rfl

theorem entryLoop_run (hE : PlainEnv E) (hF : E.A.Fits d.length) {rec : SubDec} {sub : SubRel} (hsub : SubOK E rec sub d.length) {md : MapDesc}
    (hbk : E.A.bits = 64 ∨ md.key ≠ .bool) (hbv : E.A.bits = 64 ∨ md.val ≠ .bool) (base : Nat) {rs : List Rec} {k v k' v' : Option Val}
    (h : EntrySteps E.S sub md rs k v k' v') : ∀ (bs rest : Bytes) (n i : Nat), Records rs bs → i ≤ d.length → d.length - i < n → d.drop i = bs ++ rest →
      entryLoop E rec md d base (i + bs.length) n i (k.getD (zeroScalar md.key)) (v.getD (zeroScalar md.val)) =
        .ok (k'.getD (zeroScalar md.key), v'.getD (zeroScalar md.val)) := by
  have hA := hE.env.arch
  have start : ∀ {r : Rec} {rs : List Rec} {bs rest : Bytes} {n i : Nat} {key val : Val}, Records (r :: rs) bs → i ≤ d.length → d.length - i < n →
      d.drop i = bs ++ rest → ∃ tag body bs', bs = (tag ++ body) ++ bs' ∧ r.raw = tag ++ body ∧ ValidNum r.num ∧ IsRecord r.num r.payload (tag ++ body) ∧
        Tail r.num r.payload body ∧ Records rs bs' ∧ 1 ≤ tag.length ∧ i + tag.length ≤ d.length ∧ d.drop (i + tag.length) = body ++ (bs' ++ rest) ∧
        entryLoop E rec md d base (i + bs.length) n i key val =
          (if r.num = 1 then do
            let (key, j) ← mapItem E rec md.key 0 d base (i + tag.length) key
            entryLoop E rec md d base (i + bs.length) (n - 1) j key val
          else if r.num = 2 then do
            let (val, j) ← mapItem E rec md.val md.valMsg d base (i + tag.length) val
            entryLoop E rec md d base (i + bs.length) (n - 1) j key val
          else do
            let j ← skipAt E.A d i (i + bs.length)
            entryLoop E rec md d base (i + bs.length) (n - 1) j key val) := by
    intro r rs bs rest n i key val hrs hi hn hd
    cases hrs with
    | @cons _ _ bs' hr hrs =>
      obtain ⟨hnum, tag, body, hraw, htag, htail⟩ := hr.split
      rw [hraw] at hd ⊢
      have hd1 : d.drop i = tag ++ (body ++ (bs' ++ rest)) := by rw [hd]; simp
      have htl := le_of_drop hd1 hi
      have htp := htag.shape.length_pos
      refine ⟨tag, body, bs', rfl, rfl, hnum, hraw ▸ hr, htail, hrs, htp, htl, drop_add hd1, ?_⟩
      obtain ⟨n, rfl⟩ : ∃ q, n = q + 1 := ⟨n - 1, by omega⟩
      have hwt : payloadType r.payload < 8 := by cases r.payload <;> simp [payloadType]
      obtain ⟨b1, b2, b3, b4⟩ := tag_bits hnum hwt
      conv => lhs; rw [entryLoop]
      rw [if_pos (by simp; omega), decodeVarint_isVarint htag 64 hd1]
      simp only [Res.bind_ok, b2, UEnv.copy_eq hE.copy]
      rw [show (1 : BitVec 32) = BitVec.ofNat 32 1 from rfl, show (2 : BitVec 32) = BitVec.ofNat 32 2 from rfl]
      simp only [ofNat_num_eq hnum (show 1 < 2 ^ 32 by omega), ofNat_num_eq hnum (show 2 < 2 ^ 32 by omega), Nat.add_sub_cancel]
  induction h with
  | nil =>
    intro bs rest n i hrs hi hn hd
    cases hrs
    obtain ⟨n, rfl⟩ : ∃ q, n = q + 1 := ⟨n - 1, by omega⟩
    rw [entryLoop, if_neg (by simp)]
  | @key p raw rs k v k' v' hv _ ih =>
    intro bs rest n i hrs hi hn hd
    obtain ⟨tag, body, bs', rfl, _, hnum, hr, htail, hrs', htp, htl, hd2, he⟩ := start (key := (none : Option Val).getD (zeroScalar md.key))
      (val := v.getD (zeroScalar md.val)) hrs hi hn hd
    rw [he, if_pos rfl]
    rw [mapItem_scalar hE hF rec hbk 0 base htl (htail.scalar hv) hv hd2 (by exact zeroScalar_bits _)]
    simp only [Res.bind_ok]
    have hd3 := drop_add hd2
    have := ih bs' rest (n - 1) (i + tag.length + body.length) hrs' (le_of_drop hd2 htl) (by omega) hd3
    rw [show i + (tag ++ body ++ bs').length = i + tag.length + body.length + bs'.length by simp; omega]
    exact this
  | @value p raw rs v k k' v' hv _ ih =>
    intro bs rest n i hrs hi hn hd
    obtain ⟨tag, body, bs', rfl, _, hnum, hr, htail, hrs', htp, htl, hd2, he⟩ := start (key := k.getD (zeroScalar md.key))
      (val := (none : Option Val).getD (zeroScalar md.val)) hrs hi hn hd
    rw [he, if_neg (by simp), if_pos rfl]
    rw [mapItem_scalar hE hF rec hbv md.valMsg base htl (htail.scalar hv) hv hd2 (by exact zeroScalar_bits _)]
    simp only [Res.bind_ok]
    have hd3 := drop_add hd2
    have := ih bs' rest (n - 1) (i + tag.length + body.length) hrs' (le_of_drop hd2 htl) (by omega) hd3
    rw [show i + (tag ++ body ++ bs').length = i + tag.length + body.length + bs'.length by simp; omega]
    exact this
  | @message b raw rs v k k' v' hk hv _ ih =>
    intro bs rest n i hrs hi hn hd
    obtain ⟨tag, body, bs', rfl, _, hnum, hr, htail, hrs', htp, htl, hd2, he⟩ := start (key := k.getD (zeroScalar md.key))
      (val := (none : Option Val).getD (zeroScalar md.val)) hrs hi hn hd
    rw [he, if_neg (by simp), if_pos rfl]
    obtain ⟨lb, rfl, hlb⟩ := htail.len_inv
    have hle := le_of_drop hd2 htl
    have hmi : mapItem E rec md.val md.valMsg d base (i + tag.length) ((none : Option Val).getD (zeroScalar md.val)) =
        .ok (v, i + tag.length + (lb ++ b).length) := by
      rw [hk]
      unfold mapItem
      simp only
      rw [readSpan_len hA (.inr rfl) hF htl hlb hd2]
      simp only [Res.bind_ok]
      rw [slice_len htl hd2]
      simp only [Res.bind_ok]
      rw [hsub _ md.valMsg b _ v (by simp at hle; omega) (zeroMsg_typed hE.env.schema _) hv]
    rw [hmi]
    simp only [Res.bind_ok]
    have hd3 := drop_add hd2
    have := ih bs' rest (n - 1) (i + tag.length + (lb ++ b).length) hrs' hle (by omega) hd3
    rw [show i + (tag ++ (lb ++ b) ++ bs').length = i + tag.length + (lb ++ b).length + bs'.length by simp; omega]
    exact this
  | @other r rs k v k' v' h1 h2 _ ih =>
    intro bs rest n i hrs hi hn hd
    obtain ⟨tag, body, bs', rfl, _, hnum, hr, htail, hrs', htp, htl, hd2, he⟩ := start (key := k.getD (zeroScalar md.key))
      (val := v.getD (zeroScalar md.val)) hrs hi hn hd
    rw [he, if_neg h1, if_neg h2]
    have hd1 : d.drop i = (tag ++ body) ++ (bs' ++ rest) := by rw [hd]; simp
    have hle := le_of_drop hd1 hi
    rw [skipAt_run hA hF hr hi hd1 (by simp)]
    simp only [Res.bind_ok]
    have := ih bs' rest (n - 1) (i + (tag ++ body).length) hrs' hle (by simp; omega) (drop_add hd1)
    rw [show i + (tag ++ body ++ bs').length = i + (tag ++ body).length + bs'.length by simp; omega]
    exact this

end

theorem mapInsert_eq (es : List (Key × Val)) (k : Key) (v : Val) (h : (es.map (·.1)).Nodup) : mapInsert es k v = insertEntry es k v := by
  induction es with
  | nil => rfl
  | cons e es ih =>
    obtain ⟨k', v'⟩ := e
    simp only [List.map_cons, List.nodup_cons] at h
    simp only [mapInsert]
    by_cases hk : k' = k
    · subst hk
      rw [if_pos rfl]
      simp only [insertEntry, List.any_cons, beq_self_eq_true, Bool.true_or, if_true, List.map_cons]
      congr 1
      symm
      rw [List.map_congr_left (g := id), List.map_id]
      intro e he
      rw [if_neg]
      · rfl
      · rintro rfl
        exact h.1 (List.mem_map_of_mem he)
    · rw [if_neg hk, ih h.2]
      have hb : (k' == k) = false := by simpa using hk
      simp only [insertEntry, List.any_cons, hb, Bool.false_or, List.map_cons, hk, if_false]
      split <;> rfl

section
variable {E : UEnv} {t : Nat} {d : Bytes}

/-- What a map field holds. -/
theorem mapSlot_of {S : Schema} (hS : schemaOK S = true) (hf : (S.msg t).foreign = false) {f : FieldDesc} (h : f ∈ (S.msg t).fields)
    {md : MapDesc} (hmap : f.map = some md) {m : Val} (hm : Typed S t m) :
    (get m f = .nil ∨ get m f = .map (get m f).entries) ∧ ((get m f).entries.map (·.1)).Nodup := by
  obtain ⟨s, u, e, rfl⟩ := hm.nonnil
  have hF := (schemaOK_msg hS t).fields f h
  rw [typed_iff hf] at hm
  have := hm.2 f h
  have ho : f.oneof = false := by
    by_contra hc
    have := (hF.oneof (by simpa using hc)).1
    rw [(hF.map md hmap).1] at this; simp at this
  simp only [slotOK, ho, Bool.false_eq_true, if_false, fieldOK, hmap] at this
  rw [get_msg]
  cases hv : slotOf s f <;> simp only [hv, Bool.false_eq_true] at this
  · exact ⟨.inl rfl, List.nodup_nil⟩
  · simp only [Bool.and_eq_true, decide_eq_true_eq] at this
    exact ⟨.inr rfl, this.1⟩

theorem mapEntry_run (hE : PlainEnv E) (hf : (E.S.msg t).foreign = false) (hF : E.A.Fits d.length) {rec : SubDec} {sub : SubRel}
    (hsub : SubOK E rec sub d.length) {f : FieldDesc} (h : f ∈ (E.S.msg t).fields) {md : MapDesc} (hmap : f.map = some md) (base : Nat) {i : Nat}
    (hi : i ≤ d.length) {b rest : Bytes} (hd : d.drop i = b ++ rest) {k : Key} {v : Val} (hen : Entry E.S sub md b k v) {m : Val} (hm : Typed E.S t m) :
    mapEntry E rec f md d base i (i + b.length) m = (put m f (.map (insertEntry (get m f).entries k v)), .ok ()) := by
  obtain ⟨rs, k', v', hrs, hst, rfl, hmsg, rfl⟩ := hen
  obtain ⟨hs1, hs2⟩ := mapSlot_of hE.env.schema hf h hmap hm
  have hbo : E.A.bits = 64 ∨ (md.key ≠ .bool ∧ md.val ≠ .bool) := hE.bool.imp id fun hb => (hb t f h).2 md hmap
  have hnn := hm.nonnil
  obtain ⟨_, _, hkk, hvg⟩ := ((schemaOK_msg hE.env.schema t).fields f h).map md hmap
  unfold mapEntry
  rw [UM.bind_run (getSlot_run hnn f)]
  have hs : (if (get m f).isNil then Val.map [] else get m f) = .map (get m f).entries := by
    rcases hs1 with h' | h'
    · rw [h']; rfl
    · rw [h']; rfl
  simp only [hs]
  rw [UM.bind_run (setSlot_run hnn f _)]
  have hel := entryLoop_run hE hF hsub (hbo.imp id (·.1)) (hbo.imp id (·.2)) base hst b rest (d.length + 1) i hrs hi (by omega) hd
  simp only [Option.getD_none] at hel
  rw [hel, UM.lift_ok_bind]
  simp only [mapPut]
  rw [setSlot_run (put_msg hnn f _), put_put, mapInsert_eq _ _ _ hs2]
  have e1 : toKey (k'.getD (zeroScalar md.key)) = (k'.map asKey).getD (zeroKey md.key) := by
    cases k' with
    | none => cases hk : md.key <;> simp [hk, mapKeyKind] at hkk <;> rfl
    | some k => cases k <;> rfl
  have e2 : v'.getD (zeroScalar md.val) = v'.getD (zeroValue md.val) := by
    cases v' with
    | none =>
      have := hmsg rfl
      cases hk : md.val <;> simp [hk] at hvg this <;> rfl
    | some v => rfl
  rw [e1, e2]

/-- The message a record of a message field is merged into. -/
def target (S : Schema) (f : FieldDesc) (m : Val) : Val :=
  if f.oneof then heldOrNew S f (get m f) else if f.card = .repeated then zeroMsg S f.msg
  else if get m f = .nil then zeroMsg S f.msg else get m f

theorem newSub_plain (hE : PlainEnv E) (D : MsgDesc) (off t : Nat) : newSub E D off t = zeroMsg E.S t := by
  simp [newSub, hE.unpooled]

theorem subTarget_run (hE : PlainEnv E) (hf : (E.S.msg t).foreign = false) {f : FieldDesc} (h : f ∈ (E.S.msg t).fields) (hk : f.kind = .message)
    (hmap : f.map = none) (off : Nat) {m : Val} (hm : Typed E.S t m) :
    subTarget E (E.S.msg t) f off (get m f) = .ok (target E.S f m) ∧ Typed E.S f.msg (target E.S f m) ∧
      ∀ x, put m f (subAssign f (get m f) x) = stored f m x := by
  have hS := schemaOK_msg hE.env.schema t
  have hmsg : f.hasMessage = true := by simp [FieldDesc.hasMessage, hk]
  obtain ⟨s, u, e, rfl⟩ := hm.nonnil
  rw [typed_iff hf] at hm
  have hs := hm.2 f h
  have hz := zeroMsg_typed hE.env.schema f.msg
  unfold target stored subTarget subAssign
  rw [get_msg]
  generalize slotOf s f = v at hs
  cases ho : f.oneof with
  | true =>
    simp only [slotOK, ho, if_true] at hs ⊢
    cases v <;> simp only [oneofOK, Bool.false_eq_true] at hs
    · simp only [heldOrNew, newSub_plain hE]
      exact ⟨trivial, hz, fun _ => trivial⟩
    · rename_i n x
      simp only [heldOrNew, newSub_plain hE]
      refine ⟨trivial, ?_, fun _ => trivial⟩
      split
      · rename_i hn
        subst hn
        rw [member_of hS h ho] at hs
        simp only [hk, elemOK, Bool.and_eq_true, Bool.or_eq_true, Bool.not_eq_true'] at hs
        unfold Typed
        cases hx : x.isNil <;> simp_all
      · exact hz
    · simp at hs
  | false =>
    simp only [slotOK, ho, Bool.false_eq_true, if_false, fieldOK, hmap, hmsg, if_true] at hs ⊢
    by_cases hc : f.card = .repeated
    · simp only [hc, beq_self_eq_true, if_true] at hs ⊢
      cases v <;> simp only [Bool.false_eq_true] at hs
      · exact ⟨rfl, hz, fun _ => rfl⟩
      · simp only [hE.unpooled, Bool.false_eq_true, if_false]
        refine ⟨trivial, hz, fun x => ?_⟩
        simp [extend]
    · have hp := (hS.fields f h).singMsg hc hmsg
      have hc' : (f.card == .repeated) = false := by simpa using hc
      simp only [hc', hc, hp, Bool.false_eq_true, if_false, if_true, newSub_plain hE] at hs ⊢
      have hnil : v.isNil = true ↔ v = .nil := by cases v <;> simp [Val.isNil]
      refine ⟨?_, ?_, fun _ => trivial⟩
      · congr 1
        by_cases hv : v = .nil
        · rw [if_pos hv, if_pos (hnil.2 hv)]
        · rw [if_neg hv, if_neg (fun c => hv (hnil.1 c))]
      · split
        · exact hz
        · rename_i hv
          have : v.isNil = false := by
            cases hb : v.isNil
            · rfl
            · exact absurd (hnil.1 hb) hv
          simp only [this, Bool.false_or, hk, elemOK] at hs
          exact hs

theorem messageItem_run (hE : PlainEnv E) (hf : (E.S.msg t).foreign = false) {N : Nat} {rec : SubDec} {sub : SubRel}
    (hsub : SubOK E rec sub N) {f : FieldDesc} (h : f ∈ (E.S.msg t).fields) (hk : f.kind = .message)
    (hmap : f.map = none) (off : Nat) {b : Bytes} (hb : b.length < N) {m x : Val} (hm : Typed E.S t m) (hx : sub f.msg b (target E.S f m) x) :
    messageItem E rec (E.S.msg t) f off b m = (stored f m x, .ok ()) := by
  obtain ⟨h1, h2, h3⟩ := subTarget_run hE hf h hk hmap off hm
  have hnn := hm.nonnil
  unfold messageItem
  rw [UM.bind_run (getSlot_run hnn f), h1, UM.lift_ok_bind, hsub off f.msg b _ x hb h2 hx]
  simp only
  split
  · rw [UM.lift_ok_bind, setSlot_run hnn, h3]
  · rw [UM.bind_run (setSlot_run hnn f _), h3]
    rfl

/-- One record of a known field, after its tag. -/
theorem fieldCase_run (hE : PlainEnv E) (hf : (E.S.msg t).foreign = false) (hF : E.A.Fits d.length) {rec : SubDec} {sub : SubRel}
    (hsub : SubOK E rec sub d.length) {r : Rec} {m m' : Val} (hm : Typed E.S t m) (hst : Step E.S sub (E.S.msg t) r m m')
    {f : FieldDesc} (h : f ∈ (E.S.msg t).fields) (hfn : f.num = r.num) {wire : BitVec 64} (hw : (wire &&& 7).toNat = payloadType r.payload)
    (base : Nat) {i : Nat} (hi : i ≤ d.length) {bs rest : Bytes} (hd : d.drop i = bs ++ rest) (htail : Tail r.num r.payload bs) (hi0 : 0 < i) :
    fieldCase E rec (E.S.msg t) f wire d base i m = (m', .ok (i + bs.length)) := by
  have hA := hE.env.arch
  have hS := schemaOK_msg hE.env.schema t
  have hnn := hm.nonnil
  have same : ∀ {g : FieldDesc}, g ∈ (E.S.msg t).fields → f.num = g.num → f = g := fun hg hn => hS.num_inj h hg hn
  have hlist : f.oneof = false → f.card = .repeated → f.map = none → ListSlot f m := fun _ h2 h3 => listSlot_of hE.env.schema hf h h2 h3 hm
  have mapno : ∀ {p : Payload} {v : Val}, scalarValue f.kind p = some v → f.map = none := by
    intro p v hv
    cases hmd : f.map with
    | none => rfl
    | some md =>
      have := ((hS.fields f h).map md hmd).2.1
      rw [this] at hv
      cases p <;> simp [scalarValue, wireType] at hv
  have notrep : f.oneof = true → f.card ≠ .repeated := by
    intro ho hc
    have := ((hS.fields f h).oneof ho).1
    rw [hc] at this; simp at this
  -- a scalar record
  have hscalar : ∀ {v : Val}, scalarValue f.kind r.payload = some v →
      fieldCase E rec (E.S.msg t) f wire d base i m = (stored f m v, .ok (i + bs.length)) := by
    intro v hv
    have hwt : (wire &&& 7).toNat = protoWireType f.kind := by
      rw [hw]
      cases hp : r.payload <;> rw [hp] at hv <;> cases hk : f.kind <;> simp_all [scalarValue, wireType, payloadType, protoWireType]
    have hit : ∀ p3, fieldItem E rec (E.S.msg t) f p3 wire d base i m = (stored f m v, .ok (i + bs.length)) := fun p3 =>
      fieldItem_scalar hE h hF rec _ p3 wire base hi (htail.scalar hv) hv hd hnn (fun h1 h2 => hlist h1 h2 (mapno hv))
    unfold fieldCase
    simp only
    by_cases hl : (f.isList && protoWireType f.kind != 2) = true
    · rw [if_pos hl, if_pos hwt]; exact hit _
    · rw [if_neg hl, if_neg (fun c => c hwt)]; exact hit _
  -- a length-delimited record of a message field
  have hmessage : f.kind = .message → ∀ {b : Bytes} {m' : Val}, r.payload = .len b → (∀ j, j ≤ d.length → d.drop j = b ++ rest → b.length < d.length →
      (match f.map with
        | some md => mapEntry E rec f md d base j (j + b.length)
        | none => do
          let s ← UM.lift (slice d j (j + b.length))
          messageItem E rec (E.S.msg t) f (base + j) s : UM Unit) m = (m', .ok ())) →
      fieldCase E rec (E.S.msg t) f wire d base i m = (m', .ok (i + bs.length)) := by
    intro hk b m' hp hin
    rw [hp] at htail hw
    obtain ⟨lb, rfl, hlb⟩ := htail.len_inv
    have hle := le_of_drop hd hi
    have hd2 : d.drop (i + lb.length) = b ++ rest := drop_add (by rw [hd, List.append_assoc])
    have := hin (i + lb.length) (by simp at hle; omega) hd2 (by simp at hle; omega)
    unfold fieldCase
    simp only
    rw [if_neg (by simp [hk, protoWireType]), if_neg (by rw [hw, hk]; simp [protoWireType, payloadType])]
    unfold fieldItem
    simp only [hk]
    rw [readSpan_len hA (.inr rfl) hF hi hlb hd, UM.lift_ok_bind]
    simp only
    have e : i + (lb ++ b).length = i + lb.length + b.length := by simp; omega
    rw [e]
    cases hmd : f.map with
    | none =>
      simp only [hmd] at this ⊢
      have hsl := slice_len hi hd
      rw [e] at hsl
      rw [hsl, UM.lift_ok_bind] at this ⊢
      exact (UM.bind_run this _).trans rfl
    | some md =>
      simp only [hmd] at this ⊢
      exact (UM.bind_run this _).trans rfl
  have hsubmsg : f.kind = .message → f.map = none → ∀ {b : Bytes} {x : Val}, r.payload = .len b → sub f.msg b (target E.S f m) x →
      fieldCase E rec (E.S.msg t) f wire d base i m = (stored f m x, .ok (i + bs.length)) := by
    intro hk hmd b x hp hx
    refine hmessage hk hp fun j hj hdj hlt => ?_
    rw [hmd]
    simp only
    have hsl : slice d j (j + b.length) = .ok b := by
      have := le_of_drop hdj hj
      rw [slice_all (by omega) this, hdj]
      simp
    rw [hsl, UM.lift_ok_bind]
    exact messageItem_run hE hf hsub h hk hmd _ hlt hm hx
  cases hst with
  | scalar hg ho hc hv =>
    cases same hg hfn
    rw [hscalar hv]
    simp [stored, ho, hc]
  | member hg ho hv =>
    cases same hg hfn
    rw [hscalar hv]
    simp [stored, ho]
  | element hg hc hmd hv =>
    cases same hg hfn
    rw [hscalar hv]
    have : f.oneof = false := by
      cases ho : f.oneof
      · rfl
      · exact absurd hc (notrep ho)
    simp [stored, hc, this]
  | packed hg hc hmd hk hp =>
    cases same hg hfn
    obtain ⟨lb, rfl, hlb⟩ := htail.len_inv
    have hwk : protoWireType f.kind ≠ 2 := by cases hkk : f.kind <;> simp [hkk, numeric, protoWireType] at hk ⊢
    unfold fieldCase
    simp only
    rw [if_pos (by simp [FieldDesc.isList, hc, hmd, hwk]), if_neg (by rw [hw]; simpa [payloadType] using hwk.symm), if_pos (by rw [hw]; rfl)]
    exact packed_run hE hf h hc hmd hk hF rec wire base hi hlb hp hd hm
  | message hg ho hc hk hx =>
    cases same hg hfn
    have hmd : f.map = none := by
      cases hmd : f.map with
      | none => rfl
      | some md => exact absurd ((hS.fields f h).map md hmd).1 hc
    rw [hsubmsg hk hmd rfl (by simpa [target, ho, hc] using hx)]
    simp [stored, ho, hc]
  | memberMessage hg ho hk hx =>
    cases same hg hfn
    have hmd : f.map = none := by
      cases hmd : f.map with
      | none => rfl
      | some md => exact absurd ((hS.fields f h).map md hmd).1 (notrep ho)
    rw [hsubmsg hk hmd rfl (by simpa [target, ho] using hx)]
    simp [stored, ho]
  | elementMessage hg hc hmd hk hx =>
    cases same hg hfn
    have ho : f.oneof = false := by
      cases ho : f.oneof
      · rfl
      · exact absurd hc (notrep ho)
    rw [hsubmsg hk hmd rfl (by simpa [target, ho, hc] using hx)]
    simp [stored, hc, ho]
  | entry hg hmd hen =>
    cases same hg hfn
    have hk := ((hS.fields f h).map _ hmd).2.1
    refine hmessage hk rfl fun j hj hdj hlt => ?_
    rw [hmd]
    exact mapEntry_run hE hf hF hsub h hmd base hj hdj hen hm
  | unknown hn _ => exact absurd hfn (hn f h)

theorem Marked.other {D : MsgDesc} {has : List (BitVec 64)} {seen : List Nat} (h : Marked D has seen) {n : Nat} (hn : ∀ f ∈ D.fields, f.num ≠ n) :
    Marked D has (seen ++ [n]) := by
  refine ⟨h.len, fun f hf hc => ?_⟩
  rw [h.bit f hf hc]
  simp [hn f hf]

theorem Spec.Step.known {S : Schema} {sub : SubRel} {D : MsgDesc} {r : Rec} {m m' : Val} (h : Step S sub D r m m') :
    (∃ f ∈ D.fields, f.num = r.num) ∨ (∀ f ∈ D.fields, f.num ≠ r.num) ∧ (∀ e ∈ D.extRanges, ¬(e.1 ≤ r.num ∧ r.num < e.2)) ∧
      m' = if D.keepUnknown then addUnknown m r.raw else m := by
  cases h with
  | unknown h1 h2 => exact .inr ⟨h1, h2, rfl⟩
  | scalar h => exact .inl ⟨_, h, rfl⟩
  | member h => exact .inl ⟨_, h, rfl⟩
  | element h => exact .inl ⟨_, h, rfl⟩
  | packed h => exact .inl ⟨_, h, rfl⟩
  | message h => exact .inl ⟨_, h, rfl⟩
  | memberMessage h => exact .inl ⟨_, h, rfl⟩
  | elementMessage h => exact .inl ⟨_, h, rfl⟩
  | entry h => exact .inl ⟨_, h, rfl⟩

theorem tail_not_end {num : Nat} {p : Payload} {bs : Bytes} (_ : Tail num p bs) : payloadType p ≠ 4 := by
  cases p <;> simp [payloadType]

/-- One record. -/
theorem recordStep_run (hE : PlainEnv E) (hf : (E.S.msg t).foreign = false) (hF : E.A.Fits d.length) {rec : SubDec} {sub : SubRel}
    (hsub : SubOK E rec sub d.length) {r : Rec} {m m' : Val} (hm : Typed E.S t m) (hst : Step E.S sub (E.S.msg t) r m m')
    (base : Nat) {i : Nat} (hi : i ≤ d.length) {rest : Bytes} (hd : d.drop i = r.raw ++ rest) (hr : IsRecord r.num r.payload r.raw)
    {has : List (BitVec 64)} {seen : List Nat} (hmk : Marked (E.S.msg t) has seen) :
    ∃ has', recordStep E rec t d base i has m = (m', .ok (i + r.raw.length, has')) ∧ Marked (E.S.msg t) has' (seen ++ [r.num]) := by
  have hA := hE.env.arch
  have hS := schemaOK_msg hE.env.schema t
  obtain ⟨hnum, tag, bs, hraw, htag, htail⟩ := hr.split
  have hd1 : d.drop i = tag ++ (bs ++ rest) := by rw [hd, hraw, List.append_assoc]
  have htp := htag.shape.length_pos
  have htl := le_of_drop hd1 hi
  have hwt : payloadType r.payload < 8 := by cases r.payload <;> simp [payloadType]
  obtain ⟨b1, b2, b3, b4⟩ := tag_bits hnum hwt
  have hstart : ∀ (K : UM (Nat × List (BitVec 64))),
      (match (E.S.msg t).fields.find? (fun f => f.num == r.num) with
        | some f => do
          let j ← fieldCase E rec (E.S.msg t) f (BitVec.ofNat 64 (r.num * 8 + payloadType r.payload)) d base (i + tag.length)
          let has ← UM.lift (markField (E.S.msg t) f has)
          pure (j, has)
        | none => do
          let j ← unknownCase E t r.num d i
          pure (j, has) : UM (Nat × List (BitVec 64))) = K → recordStep E rec t d base i has m = K m := by
    intro K hK
    subst hK
    unfold recordStep
    rw [decodeVarint_isVarint htag 64 hd1, UM.lift_ok_bind]
    simp only
    rw [if_neg (by rw [b1]; exact tail_not_end htail), b2, if_neg (by rw [b3]; have := hnum.1; omega), b4]
    cases (E.S.msg t).fields.find? (fun f => f.num == r.num) <;> rfl
  cases hfind : (E.S.msg t).fields.find? (fun f => f.num == r.num) with
  | some f =>
    have hmem := List.mem_of_find?_eq_some hfind
    have hfn : f.num = r.num := by simpa using List.find?_some hfind
    obtain ⟨has', hmf, hmk'⟩ := markField_marked hS hmem hmk
    refine ⟨has', ?_, hfn ▸ hmk'⟩
    rw [hstart _ rfl, hfind]
    simp only
    rw [UM.bind_run (fieldCase_run hE hf hF hsub hm hst hmem hfn b1 base htl (drop_add hd1) htail (by omega)), hmf, UM.lift_ok_bind, hraw]
    show (_, _) = _
    simp only [List.length_append, Nat.add_assoc]
  | none =>
    have hno : ∀ f ∈ (E.S.msg t).fields, f.num ≠ r.num := by
      intro f hf'
      simpa using List.find?_eq_none.1 hfind f hf'
    refine ⟨has, ?_, hmk.other hno⟩
    rcases hst.known with ⟨f, h1, h2⟩ | ⟨_, hext, rfl⟩
    · exact absurd h2 (hno f h1)
    rw [hstart _ rfl, hfind]
    simp only
    have hle := le_of_drop hd hi
    have huc : unknownCase E t r.num d i m = (if (E.S.msg t).keepUnknown then addUnknown m r.raw else m, .ok (i + r.raw.length)) := by
      unfold unknownCase
      simp only
      rw [skipAt_run hA hF hr hi hd hle, UM.lift_ok_bind, if_neg]
      · rw [slice_all (by omega) hle, hd, UM.lift_ok_bind]
        simp only [Nat.add_sub_cancel_left, List.take_left]
        obtain ⟨s, u, e, rfl⟩ := hm.nonnil
        cases (E.S.msg t).keepUnknown <;> rfl
      · simp only [List.any_eq_true, Bool.and_eq_true, decide_eq_true_eq, not_exists, not_and]
        intro e he h1 h2
        exact hext e he ⟨h1, h2⟩
    rw [UM.bind_run huc]
    rfl

/-- The loop over well-formed records. -/
theorem recordLoop_run (hE : PlainEnv E) (hf : (E.S.msg t).foreign = false) (hF : E.A.Fits d.length) {rec : SubDec} (hr : RecSafe E rec d.length)
    {sub : SubRel} (hsub : SubOK E rec sub d.length) (base : Nat) {rs : List Rec} {m m' : Val} (hst : Steps E.S sub (E.S.msg t) rs m m') :
    ∀ (bs : Bytes) (n i : Nat) (has : List (BitVec 64)) (seen : List Nat), Typed E.S t m → Records rs bs → i ≤ d.length → d.length - i < n → d.drop i = bs →
      Marked (E.S.msg t) has seen →
      ∃ has', recordLoop E rec t d base n i has m = (m', .ok (d.length, has')) ∧ Marked (E.S.msg t) has' (seen ++ rs.map (·.num)) ∧ Typed E.S t m' := by
  induction hst with
  | nil =>
    intro bs n i has seen hm hrs hi hn hd hmk
    cases hrs
    obtain ⟨n, rfl⟩ : ∃ q, n = q + 1 := ⟨n - 1, by omega⟩
    have hil : i = d.length := by
      have := congrArg List.length hd
      simp at this; omega
    refine ⟨has, ?_, by simpa using hmk, hm⟩
    rw [recordLoop, if_neg (by omega), hil]
    rfl
  | @cons r rs m m1 m2 hst _ ih =>
    intro bs n i has seen hm hrs hi hn hd hmk
    cases hrs with
    | @cons _ _ rest hr1 hrs =>
      obtain ⟨n, rfl⟩ : ∃ q, n = q + 1 := ⟨n - 1, by omega⟩
      have hle := le_of_drop hd hi
      have hpos : 1 ≤ r.raw.length := by
        obtain ⟨_, tag, _, hraw, htag, _⟩ := hr1.split
        rw [hraw, List.length_append]
        have := htag.shape.length_pos
        omega
      obtain ⟨has1, h1, h2⟩ := recordStep_run hE hf hF hsub hm hst base hi hd hr1 hmk
      have hty : Typed E.S t m1 := by
        have := (safe_recordStep hE.env hr hF hf base hi hmk.len m hm).1
        rw [h1] at this
        exact this
      obtain ⟨has', h3, h4, h5⟩ := ih rest n (i + r.raw.length) has1 (seen ++ [r.num]) hty hrs hle (by omega) (drop_add hd) h2
      refine ⟨has', ?_, by simpa using h4, h5⟩
      rw [recordLoop, if_pos (by omega), UM.bind_run h1]
      exact h3

/-- The whole method on well-formed records: the message is what the records say, and the outcome is decided by the
required fields. -/
theorem unmarshalBody_run (hE : PlainEnv E) (hf : (E.S.msg t).foreign = false) (hF : E.A.Fits d.length) {rec : SubDec} (hr : RecSafe E rec d.length)
    {sub : SubRel} (hsub : SubOK E rec sub d.length) (base : Nat) {rs : List Rec} {m m' : Val} (hm : Typed E.S t m) (hrs : Records rs d)
    (hst : Steps E.S sub (E.S.msg t) rs m m') :
    unmarshalBody E rec base t d m = (m', match firstMissing (rs.map (·.num)) (E.S.msg t).fields with
      | none => .ok ()
      | some f => .err (.requiredNotSet f.num)) := by
  obtain ⟨has, h1, h2, _⟩ := recordLoop_run hE hf hF hr hsub base hst d (d.length + 1) 0 (noFields (E.S.msg t)) [] hm hrs (by omega) (by omega) rfl
    (marked_noFields _)
  unfold unmarshalBody
  rw [UM.bind_run h1]
  simp only
  rw [checkRequired_marked h2 _ fun _ h => h]
  simp only [List.nil_append]
  cases firstMissing (rs.map (·.num)) (E.S.msg t).fields with
  | none =>
    simp only
    rw [UM.lift_ok_bind, if_neg (by omega)]
    rfl
  | some f => rfl

end

section
variable {E : UEnv}

theorem firstMissing_complete {D : MsgDesc} {rs : List Rec} : firstMissing (rs.map (·.num)) D.fields = none ↔ Complete D rs := by
  unfold firstMissing Complete
  rw [List.find?_eq_none]
  constructor
  · intro h f hf hc
    have := h f hf
    simpa [hc] using this
  · intro h f hf
    simp only [Bool.and_eq_true, beq_iff_eq, Bool.not_eq_true', not_and, Bool.not_eq_false]
    intro hc
    obtain ⟨r, h1, h2⟩ := h f hf hc
    simp only [List.contains_iff_mem, List.mem_map]
    exact ⟨r, h1, h2⟩

/-- The method does what the relation says. -/
theorem unmarshalN_run (hE : PlainEnv E) : ∀ (n N : Nat), E.A.Fits N → SubOK E (unmarshalN E N) (subRel E.S E.R (DecodesN E.S E.R n)) N := by
  intro n
  induction n with
  | zero =>
    intro N hN off t b v v' hb hv hsub
    unfold subRel at hsub
    unfold decodeMessage
    cases hf : (E.S.msg t).foreign with
    | true =>
      rw [hf] at hsub
      simp only [if_true] at hsub ⊢
      rw [hv.not_nil, hsub]
      rfl
    | false =>
      rw [hf] at hsub
      simp [DecodesN] at hsub
  | succ n ih =>
    intro N hN off t b v v' hb hv hsub
    unfold subRel at hsub
    unfold decodeMessage
    cases hf : (E.S.msg t).foreign with
    | true =>
      rw [hf] at hsub
      simp only [if_true] at hsub ⊢
      rw [hv.not_nil, hsub]
      rfl
    | false =>
      rw [hf] at hsub
      simp only [Bool.false_eq_true, if_false] at hsub ⊢
      obtain ⟨rs, h1, h2, h3⟩ := hsub
      obtain ⟨N, rfl⟩ : ∃ q, N = q + 1 := ⟨N - 1, by omega⟩
      have hFN : E.A.Fits N := by unfold Arch.Fits at hN ⊢; omega
      have hFb : E.A.Fits b.length := by unfold Arch.Fits at hN ⊢; omega
      rw [unmarshalN]
      have hsub' : SubOK E (unmarshalN E N) (subRel E.S E.R (DecodesN E.S E.R n)) b.length := by
        intro off t b' v v' hb' hv hs
        exact ih N hFN off t b' v v' (by omega) hv hs
      have hrec : RecSafe E (unmarshalN E N) b.length := fun off t b' hf' hb' =>
        safe_unmarshalN hE.env N hFN N (by omega) off t b' hf' (by omega)
      rw [unmarshalBody_run hE hf hFb hrec hsub' off hv h1 h2, firstMissing_complete.2 h3]

end

end Vtp
