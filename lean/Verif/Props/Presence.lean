import Verif.Props.RoundTrip
import Verif.Props.Clone
import Verif.Props.Reject
import Verif.Model.HeapClone
import Verif.Model.HeapPool
/-!
# Reading back scalars, nil messages and wire types: C17, C18, C65
-/

namespace Vtp.Props
open Spec

/-! ## C17 -/

/-- `w` is what should be read back for the value `v` of a singular scalar field: `v`, bit by bit, and without presence the zero value for a default. -/
def ReadBack (f : FieldDesc) (v w : Val) : Prop := w = v ∨ (f.presence = false ∧ IsDefault f.kind v ∧ w = zeroField f)

theorem slot_back {S : Schema} {R : Runtime} {t : Nat} (hM : MsgFacts (S.msg t)) {s : List Val} {u e : Bytes} :
    ∃ s' u', back S R t (.msg s u e) = .msg s' u' [] ∧ ∀ f ∈ (S.msg t).fields, f.oneof = false →
      slotOf s' f = backField S R (backN S R (Val.depthList s)) f (slotOf s f) := by
  refine ⟨_, _, by rw [back, Val.depth, Nat.add_comm, backN], fun f hf ho => ?_⟩
  have hl := (hM.fields f hf).slot
  have := backSlot_eq (E := ⟨S, R⟩) hM (rec := backN S R (Val.depthList s)) s hf
  simp only [ho, Bool.false_eq_true, if_false] at this
  rw [← this]
  simp [slotOf, List.getD_eq_getElem?_getD, List.getElem?_range hl]

/-- C17. `UnmarshalVT` of what `MarshalVT` wrote restores every singular scalar field outside of oneofs exactly, floats bit by bit; without presence a negative zero
comes back as zero (`negative_zero_dropped`). Missing: messages that are not `Restorable` (see C23). -/
theorem scalars_restored_partial {E : UEnv} {t : Nat} {v : Val} {strict : Bool} {b : Bytes} (hE : PlainEnv E) (hR : RuntimeEqual E.R) (hN : RuntimeEnc E.R)
    (hf : (E.S.msg t).foreign = false) (hv : wt E.S t v = true) (hr : Restorable E.S E.R t v) (hm : marshalVT ⟨E.S, E.R⟩ strict t v = .ok (some b))
    (hb : E.A.Fits (b.length + 1)) :
    ∃ s s' u u' e e', v = .msg s u e ∧ unmarshalVT E t b (zeroMsg E.S t) = (.msg s' u' e', .ok ()) ∧
      ∀ f ∈ (E.S.msg t).fields, f.oneof = false → f.card ≠ .repeated → f.hasMessage = false → ReadBack f (slotOf s f) (slotOf s' f) := by
  obtain ⟨w, h1, rfl, -, -⟩ := round_trip_partial hE hR hN hf hv hr hm hb
  obtain ⟨s, u, e, rfl⟩ := wtM_isMsg hv
  have hM := schemaOK_msg hE.env.schema t
  obtain ⟨s', u', h2, h3⟩ := slot_back (R := E.R) hM (s := s) (u := u) (e := e)
  refine ⟨s, s', u, u', e, [], rfl, by rw [h1, h2], fun f hfm ho hc hk => ?_⟩
  rw [h3 f hfm ho]
  have hok : fieldOK (wtM E.S .plain) f (slotOf s f) = true := by
    rw [wt, wtM_msg, hf, Bool.false_or, Bool.and_eq_true, List.all_eq_true] at hv
    have := hv.2 f hfm
    rwa [ho] at this
  have hmap : f.map = none := by
    cases hmm : f.map with
    | none => rfl
    | some md => exact absurd ((hM.fields f hfm).map _ hmm).1 hc
  unfold fieldOK at hok
  simp only [hmap] at hok
  rw [if_neg (by simpa using hc)] at hok
  unfold backField
  simp only [hmap, if_neg hc]
  have hkm : f.kind ≠ .message := by intro h; simp [FieldDesc.hasMessage, h] at hk
  have hkg : f.kind ≠ .group := by intro h; simp [FieldDesc.hasMessage, h] at hk
  have helem : ∀ x : Val, x ≠ .nil → scalarOK f.kind x = true → backElem E.S E.R (backN E.S E.R (Val.depthList s)) f.kind f.msg x = x := by
    intro x hx hs
    unfold backElem
    rw [if_neg hkm]
    split
    · next hb =>
      rw [hb] at hs
      cases x <;> simp [scalarOK, Val.bytes] at hs hx ⊢
    · rfl
  by_cases hp : f.presence = true
  · left
    rw [if_pos hp]
    rw [if_pos hp] at hok
    by_cases hn : slotOf s f = .nil
    · rw [if_pos hn, hn]
    · rw [if_neg hn]
      refine helem _ hn ?_
      simp only [Bool.or_eq_true] at hok
      rcases hok with h | h
      · cases hx : slotOf s f <;> rw [hx] at h hn <;> simp [Val.isNil] at h hn
      · revert h
        unfold elemOK
        cases hkk : f.kind <;> simp_all
  · rw [if_neg hp] at hok ⊢
    have hd := isZero_default _ _ hok
    split
    · next hz => exact .inr ⟨by simpa using hp, hd.1 hz, rfl⟩
    · next hz =>
      left
      refine helem _ ?_ hok
      intro hn
      rw [hn] at hz hok
      cases hkk : f.kind <;> rw [hkk] at hz hok <;> simp [scalarOK, isZeroVal, Val.bytes] at hz hok

example : ∃ b, marshalVT ⟨renv.S, renv.R⟩ true 0 Demo.big = .ok (some b) ∧ ∃ s s' u u' e e', Demo.big = .msg s u e ∧
    unmarshalVT renv 0 b (zeroMsg renv.S 0) = (.msg s' u' e', .ok ()) ∧
      ∀ f ∈ (renv.S.msg 0).fields, f.oneof = false → f.card ≠ .repeated → f.hasMessage = false → ReadBack f (slotOf s f) (slotOf s' f) := by
  have hw : wt renv.S 0 Demo.big = true := by decide
  obtain ⟨b, hb⟩ := (marshal_fails_iff (E := ⟨renv.S, renv.R⟩) true Demo.schema3_ok structural_enc (fun _ _ => rfl) hw (by decide)).2 (by decide)
  have hl : renv.A.Fits (b.length + 1) := by
    rw [size_eq_length (E := ⟨renv.S, renv.R⟩) true Demo.schema3_ok structural_enc hw (by decide) hb]
    decide
  exact ⟨b, hb, scalars_restored_partial renv_ok structural_ok structural_enc (by decide) hw big_restorable hb hl⟩

/-! ## C18 -/

/-- C18. A nil message is equal to nil, and neither equal to any message nor any message to it, not even an empty one. -/
theorem nil_equal (C : CEnv) (t : Nat) : equalVT C t .nil .nil = .ok true ∧
    ∀ {tn : Members} {v : Val}, wtM C.S tn t v = true → equalVT C t .nil v = .ok false ∧ equalVT C t v .nil = .ok false := by
  refine ⟨by simp [equalVT, equalN, CEnv.ptrEq, Val.isNil], fun h => ?_⟩
  obtain ⟨s, u, e, rfl⟩ := wtM_isMsg h
  constructor <;> simp [equalVT, equalN, CEnv.ptrEq, Val.isNil]

example := (nil_equal cenv 0).2 (show wtM Demo.schema .plain 0 (zeroMsg Demo.schema 0) = true by decide)

/-- C18. `ResetVT` and `ReturnToVTPool` on nil do nothing, in particular put nothing into a pool. -/
theorem nil_reset (S : Schema) (t : Nat) : resetVT S t .nil = .ok (.nil, []) ∧ returnToVTPool S t .nil = .ok [] ∧
    ∀ σ, hresetVT S t .nil σ = (σ, .ok ()) ∧ hreturnToVTPool S t .nil σ = (σ, .ok ()) :=
  ⟨rfl, rfl, fun _ => ⟨rfl, rfl⟩⟩

/-- C18. `CloneVT` of nil is nil and leaves memory and pools alone. -/
theorem nil_clone (t : Nat) : (∀ E : KEnv, cloneVT E t .nil = .ok .nil) ∧ ∀ (E : HKEnv) (σ : HState), hcloneVT E t .nil σ = (σ, .ok .nil) :=
  ⟨fun _ => rfl, fun _ _ => rfl⟩

/-! ## C65 -/

section
variable {E : UEnv}

theorem readNum_none (hA : E.A.Valid) {k : Kind} (hk : numeric k = true) {b : Bytes} (hF : E.A.Fits b.length) :
    readNum E.A k b b.length = .err .unexpectedEOF := by
  have hw : ∀ n : Nat, 0 < n → n ≤ 8 → decodeFixed E.A n b b.length = .err .unexpectedEOF := by
    intro n h0 h8
    unfold decodeFixed
    unfold Arch.Fits at hF
    rw [Arch.wrap_small hA _ (by omega) (by omega), if_pos (by omega)]
  have hv : ∀ w, decodeVarint w b b.length = .err .unexpectedEOF := by
    intro w
    unfold decodeVarint decodeVarintLoop
    simp
  cases k <;> simp [numeric] at hk <;> simp [readNum, hw, hv]

theorem readSpan_none (w : Nat) (b : Bytes) : readSpan E.A w b b.length = .err .unexpectedEOF := by
  unfold readSpan decodeVarint decodeVarintLoop
  simp

theorem fieldItem_none (hA : E.A.Valid) (rec : SubDec) (d : MsgDesc) (f : FieldDesc) (p3 : Bool) (wire : BitVec 64) (b : Bytes) (base : Nat)
    (hF : E.A.Fits b.length) {s : List Val} {u e : Bytes} :
    ∃ m', fieldItem E rec d f p3 wire b base b.length (.msg s u e) = (m', .err .unexpectedEOF) := by
  have hn : ∀ k, numeric k = true → ∃ m', (do
      if !f.oneof && f.card != .repeated && p3 && !f.synthetic then
        match direct E.A k b b.length with
        | some v => setSlot f.slot (.num v)
        | none => pure ()
      let (v, i) ← UM.lift (readNum E.A k b b.length)
      store f (.num v)
      pure i : UM Nat) (.msg s u e) = (m', .err .unexpectedEOF) := by
    intro k hk
    rw [readNum_none hA hk hF]
    split
    · cases direct E.A k b b.length with
      | none => exact ⟨_, rfl⟩
      | some v => exact ⟨_, rfl⟩
    · exact ⟨_, rfl⟩
  unfold fieldItem
  cases hk : f.kind
  case string => simp only [readSpan_none]; exact ⟨_, rfl⟩
  case bytes => simp only [readSpan_none]; exact ⟨_, rfl⟩
  case message => simp only [readSpan_none]; exact ⟨_, rfl⟩
  case group =>
    refine ⟨.msg s u e, ?_⟩
    have hv : decodeVarint 64 b b.length = .err .unexpectedEOF := by
      unfold decodeVarint decodeVarintLoop
      simp
    simp only [groupLoop, hv]
    rfl
  all_goals exact hn _ rfl

/-- C65. What the decoder makes of a tag alone: it complains about the wire type exactly if the field does not admit it, and otherwise about the missing payload. So
the wire types `UnmarshalVT` expects are those the field admits, after any accepted beginning. -/
theorem expected_wire_types (hS : schemaOK E.S = true) (hA : E.A.Valid) {t : Nat} (hf : (E.S.msg t).foreign = false) {m m1 : Val} {a : Bytes}
    (hm : wtM E.S .solid t m1 = true) (ha : Begins E t m a m1) {f : FieldDesc} (hmem : f ∈ (E.S.msg t).fields) {wt : Nat} (hw : wt < 8) (h4 : wt ≠ 4) {tag : Bytes}
    (htag : IsVarint (f.num * 8 + wt) tag) (hF : E.A.Fits (a ++ tag).length) :
    (admits f wt → (unmarshalVT E t (a ++ tag) m).2 = .err .unexpectedEOF) ∧
    (¬ admits f wt → (unmarshalVT E t (a ++ tag) m).2 = .err (.wrongWireType f.num)) := by
  have hM := schemaOK_msg hS t
  have htp := htag.shape.length_pos
  have hff := hM.fields f hmem
  refine ⟨fun had => ?_, fun hno => ?_⟩
  · obtain ⟨s, u, e, rfl⟩ := wtM_isMsg hm
    have hlen : a.length + tag.length = (a ++ tag).length := by simp
    obtain ⟨b1, -⟩ := tag_bits ⟨hff.pos, hff.small⟩ hw
    have hwt : protoWireType f.kind = wireType f.kind := by cases f.kind <;> rfl
    have hcase : ∃ m', fieldCase E (unmarshalN E (a ++ tag).length) (E.S.msg t) f (BitVec.ofNat 64 (f.num * 8 + wt)) (a ++ tag) 0 (a ++ tag).length (.msg s u e) =
        (m', .err .unexpectedEOF) := by
      have item := fun p3 => fieldItem_none hA (unmarshalN E (a ++ tag).length) (E.S.msg t) f p3 (BitVec.ofNat 64 (f.num * 8 + wt)) (a ++ tag) 0 hF (s := s) (u := u) (e := e)
      unfold fieldCase
      simp only [b1]
      rw [hwt]
      by_cases hc : (f.isList && wireType f.kind != 2) = true
      · rw [if_pos hc]
        by_cases h1 : wt = wireType f.kind
        · rw [if_pos h1]
          exact item false
        · have h2 : wt = 2 := by
            rcases had with h | h
            · exact absurd h h1
            · exact h.2.2.2
          rw [if_neg h1, if_pos h2, readSpan_none]
          exact ⟨_, rfl⟩
      · have h1 : wt = wireType f.kind := by
          rcases had with h | ⟨h, h', h'', rfl⟩
          · exact h
          · simp only [FieldDesc.isList, h, h'] at hc
            simpa using Eq.symm (by simpa using hc)
        rw [if_neg hc, if_neg (by simpa using h1)]
        exact item _
    obtain ⟨m', hcase⟩ := hcase
    rw [unmarshal_err_after hS hA hf hF ha (List.ne_nil_of_length_pos htp) (m2 := m') (e := .unexpectedEOF) fun has => ?_]
    rw [recordStep_tag _ 0 has ⟨hff.pos, hff.small⟩ hw htag (rest := []) (by simp), find_num hM hmem, if_neg h4]
    simp only
    rw [UM.bind_def, hlen, hcase]
  · have := wrong_wire_type_partial hS hA hf ha hmem hw hno htag (rest := []) (by simpa using hF)
    rw [List.append_nil, if_neg h4] at this
    rw [this]

/-- C65. Whatever `MarshalVT` emits for a field, in a oneof or not, begins with the tag of the field, with a wire type that the field admits. With
`expected_wire_types`: the decoder expects the wire types that are emitted. -/
theorem emitted_wire_types {S : Schema} (hS : schemaOK S = true) {R : Runtime} {t : Nat} {f : FieldDesc} (hmem : f ∈ (S.msg t).fields) (rec : Nat → Val → Option Bytes)
    {v : Val} {b : Bytes} (h : record ⟨S, R⟩ rec f.num f.kind f.msg v = some b ∨ (field ⟨S, R⟩ rec f v = some b ∧ b ≠ [])) :
    ∃ w rest, b = tag f.num w ++ rest ∧ w < 8 ∧ w ≠ 4 ∧ admits f w := by
  have hff := (schemaOK_msg hS t).fields f hmem
  have hk : wireType f.kind < 8 ∧ wireType f.kind ≠ 4 := by cases f.kind <;> decide
  have hrec : ∀ {v : Val} {b : Bytes}, record ⟨S, R⟩ rec f.num f.kind f.msg v = some b → ∃ rest, b = tag f.num (wireType f.kind) ++ rest := by
    intro v b h
    unfold record at h
    cases hkk : f.kind <;> rw [hkk] at h
    case message =>
      obtain ⟨c, -, h⟩ := Option.bind_eq_some_iff.1 h
      exact ⟨_, (Option.some.inj h).symm⟩
    case group =>
      obtain ⟨c, -, h⟩ := Option.bind_eq_some_iff.1 h
      exact ⟨_, (Option.some.inj h).symm⟩
    all_goals exact ⟨_, (Option.some.inj h).symm⟩
  have own : ∀ {v : Val} {b : Bytes}, record ⟨S, R⟩ rec f.num f.kind f.msg v = some b → ∃ w rest, b = tag f.num w ++ rest ∧ w < 8 ∧ w ≠ 4 ∧ admits f w := by
    intro v b h
    obtain ⟨r, h⟩ := hrec h
    exact ⟨_, r, h, hk.1, hk.2, .inl rfl⟩
  have many : ∀ {xs : List (Option Bytes)} {b : Bytes}, concat xs = some b → b ≠ [] →
      (∀ x ∈ xs, ∀ c, x = some c → ∃ rest, c = tag f.num (wireType f.kind) ++ rest) → ∃ rest, b = tag f.num (wireType f.kind) ++ rest := by
    intro xs b h hb hx
    cases xs with
    | nil => exact absurd (Option.some.inj h).symm hb
    | cons x xs =>
      obtain ⟨c, rfl, h⟩ := Option.bind_eq_some_iff.1 h
      obtain ⟨d, -, h⟩ := Option.bind_eq_some_iff.1 h
      obtain ⟨rest, rfl⟩ := hx _ (List.mem_cons_self ..) c rfl
      exact ⟨rest ++ d, by rw [← Option.some.inj h, List.append_assoc]⟩
  rcases h with h | ⟨h, hb⟩
  · exact own h
  · unfold field at h
    cases hmap : f.map with
    | some md =>
      have hm := hff.map md hmap
      rw [hmap] at h
      obtain ⟨rest, h⟩ := many h hb fun x hx c hc => by
        obtain ⟨e, -, rfl⟩ := List.mem_map.1 hx
        unfold entry at hc
        obtain ⟨k, -, hc⟩ := Option.bind_eq_some_iff.1 hc
        obtain ⟨w, -, hc⟩ := Option.bind_eq_some_iff.1 hc
        exact ⟨_, by rw [← Option.some.inj hc, hm.2.1]; rfl⟩
      exact ⟨_, rest, h, hk.1, hk.2, .inl rfl⟩
    | none =>
      rw [hmap] at h
      simp only at h
      by_cases hc : f.card = .repeated
      · rw [if_pos hc] at h
        by_cases hp : f.packed = true
        · rw [if_pos hp] at h
          split at h
          · exact absurd (Option.some.inj h).symm hb
          · exact ⟨2, _, (Option.some.inj h).symm, by decide, by decide, .inr ⟨hc, hmap, (hff.packed hp).2.2, rfl⟩⟩
        · rw [if_neg hp] at h
          obtain ⟨rest, h⟩ := many h hb fun x hx c hc => by
            obtain ⟨e, -, rfl⟩ := List.mem_map.1 hx
            exact hrec hc
          exact ⟨_, rest, h, hk.1, hk.2, .inl rfl⟩
      · rw [if_neg hc] at h
        split at h
        · split at h
          · split at h
            · cases h
            · exact absurd (Option.some.inj h).symm hb
          · exact own h
        · split at h
          · exact absurd (Option.some.inj h).symm hb
          · exact own h

end

example : (unmarshalVT Demo.penv 0 (sampleBytes ++ [26]) (zeroMsg Demo.schema3 0)).2 = .err .unexpectedEOF :=
  (expected_wire_types (E := Demo.penv) Demo.schema3_ok (.inr rfl) rfl (by decide) sample_begins (f := { num := 3, slot := 2, kind := .sint64, card := .repeated, packed := true }) (by decide)
    (wt := 2) (by decide) (by decide) (one_byte 26 (by decide)) (by decide)).1 (by simp [admits, numeric])

example := emitted_wire_types Demo.schema3_ok (R := structural) (t := 0) (f := { num := 3, slot := 2, kind := .sint64, card := .repeated, packed := true }) (by decide) (fun _ _ => none)
  (v := .list [.num 1, .num 2] []) (b := [26, 2, 2, 4]) (.inr (by decide))

end Vtp.Props
