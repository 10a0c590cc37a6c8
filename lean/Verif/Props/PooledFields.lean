import Verif.Props.Pooled
import Verif.Props.Presence
import Verif.Props.Codec
/-!
# What `UnmarshalVT` with pools does to each field: C17, C27, C28, C29, C30, C32, C35, C64

What `Fields.lean` and `Reject.lean` say of code without pools, for code that takes messages from pools and reuses the memory of the message decoded into. `m` is the
message decoded into, perhaps from a pool; `m0` is what it holds, without memory kept for reuse.
-/

namespace Vtp.Props
open Spec

/-- Memory kept for reuse is not in the unknown fields. -/
theorem unknownOf_reuse {S : Schema} {t : Nat} (hf : (S.msg t).foreign = false) {v w : Val} (h : Reuse S t v w) : unknownOf v = unknownOf w := by
  rcases reuse_cases hf h with ⟨s1, u1, e1, s2, u2, e2, rfl, rfl⟩ | ⟨h, -⟩
  · exact ((reuse_msg hf).1 h).1
  · rw [h]

section
variable {E : UEnv} (hE : PoolEnv E) {t : Nat} (hf : (E.S.msg t).foreign = false)
  {m m0 m' : Val} (hm : wtM E.S .solid t m0 = true) (hr : Reuse E.S t m m0) {rs : List Rec} {b : Bytes} (hF : E.A.Fits b.length) (hrs : Records rs b)
  (hst : Merges (unpool E.S) E.R t rs m0 m')
include hE hf hm hr hF hrs hst

/-- What is decoded without pools, and that the message decoded is the same up to memory kept for reuse. -/
theorem decoded_pooled : Reuse E.S t (unmarshalVT E t b m).1 m' ∧ (unmarshalVT E t b m).2 = (unmarshalVT { E with S := unpool E.S } t b m0).2 := by
  have h1 := pooled_sim hE.env.schema hE.env.arch hE.runtime hE.pools hf hF hr
  have h2 := (required_iff hE.plain (t := t) (by rw [unpool_msg]; exact hf) (by rw [unpool_typed]; exact hm) hF hrs hst).1
  rw [h2] at h1
  exact h1.symm

/-! ## C35 -/

/-- C35. With pools too, the outcome on valid records is nil exactly if every required field has a record, and otherwise the error names a required field without
record; the fields are merged either way, up to memory kept for reuse. -/
theorem required_iff_pooled : Reuse E.S t (unmarshalVT E t b m).1 m' ∧
    ((∀ f ∈ (E.S.msg t).fields, f.card = .required → ∃ r ∈ rs, r.num = f.num) → (unmarshalVT E t b m).2 = .ok ()) ∧
    (¬ (∀ f ∈ (E.S.msg t).fields, f.card = .required → ∃ r ∈ rs, r.num = f.num) →
      ∃ f ∈ (E.S.msg t).fields, f.card = .required ∧ (∀ r ∈ rs, r.num ≠ f.num) ∧ (unmarshalVT E t b m).2 = .err (.requiredNotSet f.num)) := by
  obtain ⟨h1, h2⟩ := decoded_pooled hE hf hm hr hF hrs hst
  have h3 := (required_iff hE.plain (t := t) (by rw [unpool_msg]; exact hf) (by rw [unpool_typed]; exact hm) hF hrs hst).2
  rw [h2]
  simp only [unpool_msg] at h3
  exact ⟨h1, h3⟩

/-! ## C27 -/

/-- C27. With pools too, the bytes of the unknown records are kept, in order, after those the message had; or dropped if that is switched on. -/
theorem unknown_kept_pooled : unknownOf (unmarshalVT E t b m).1 =
    unknownOf m ++ if (E.S.msg t).keepUnknown then ((rs.filter fun r => !known (E.S.msg t) r).map (·.raw)).flatten else [] := by
  obtain ⟨h1, h2⟩ := decoded_pooled hE hf hm hr hF hrs hst
  have h3 := required_iff hE.plain (t := t) (by rw [unpool_msg]; exact hf) (by rw [unpool_typed]; exact hm) hF hrs hst
  have h4 := unknown_kept hE.plain (t := t) (by rw [unpool_msg]; exact hf) (by rw [unpool_typed]; exact hm) hF hrs hst
  rw [unknownOf_reuse hf h1, ← h3.1, h4, unknownOf_reuse hf hr]
  simp only [unpool_msg]
  rfl

/-- C27. With pools too, the outcome and the known fields are the same without the unknown records, up to memory kept for reuse. -/
theorem unknown_inert_pooled {b' : Bytes} (hF' : E.A.Fits b'.length) (hrs' : Records (rs.filter (known (E.S.msg t))) b') :
    (unmarshalVT E t b' m).2 = (unmarshalVT E t b m).2 ∧
    ∃ x, Reuse E.S t (setUnknown (unmarshalVT E t b' m).1 []) x ∧ Reuse E.S t (setUnknown (unmarshalVT E t b m).1 []) x := by
  have h1 := pooled_sim hE.env.schema hE.env.arch hE.runtime hE.pools hf hF hr
  have h2 := pooled_sim hE.env.schema hE.env.arch hE.runtime hE.pools hf hF' hr
  have h3 := unknown_inert hE.plain (t := t) (by rw [unpool_msg]; exact hf) (by rw [unpool_typed]; exact hm) hF hrs hst hF'
    (by simp only [unpool_msg]; exact hrs')
  have key : ∀ {v w : Val}, Reuse E.S t v w → Reuse E.S t (setUnknown v []) (setUnknown w []) := by
    intro v w h
    rcases reuse_cases hf h with ⟨s1, u1, e1, s2, u2, e2, rfl, rfl⟩ | ⟨rfl, h'⟩
    · have := (reuse_msg hf).1 h
      exact (reuse_msg hf).2 ⟨rfl, this.2⟩
    · cases v with
      | msg s u e => exact absurd rfl (h' s u e)
      | _ => exact h
  refine ⟨by rw [h1.1, h2.1, h3.1], _, key h2.2, ?_⟩
  rw [h3.2]
  exact key h1.2

/-! ## C29 -/

/-- C29. With pools too, a oneof holds the last member that has a record: its value, or the message merged from that record into the one held before it if that was
the same member, up to memory kept for reuse. -/
theorem oneof_last_pooled {f : FieldDesc} (hmem : f ∈ (E.S.msg t).fields) (ho : f.oneof = true)
    {rs1 rs2 : List Rec} {r : Rec} (hsplit : rs = rs1 ++ r :: rs2) (hn : r.num = f.num)
    (hlast : ∀ q ∈ rs2, ∀ g ∈ (E.S.msg t).fields, g.num = q.num → g.slot ≠ f.slot) :
    ∃ m1 x y, Merges (unpool E.S) E.R t rs1 m0 m1 ∧ get (unmarshalVT E t b m).1 f = .wrap f.num y ∧
      (scalarValue f.kind r.payload = some x ∧ y = x ∨
        f.kind = .message ∧ (∃ n b, r.payload = .len b ∧
          subRel (unpool E.S) E.R (DecodesN (unpool E.S) E.R n) f.msg b (heldOrNew (unpool E.S) f (get m1 f)) x) ∧ Reuse E.S f.msg y x) := by
  obtain ⟨h1, -⟩ := decoded_pooled hE hf hm hr hF hrs hst
  have h3 := (required_iff hE.plain (t := t) (by rw [unpool_msg]; exact hf) (by rw [unpool_typed]; exact hm) hF hrs hst).1
  obtain ⟨m1, x, h4, h5, h6⟩ := oneof_last hE.plain (t := t) (by rw [unpool_msg]; exact hf) (by rw [unpool_typed]; exact hm) hF hrs hst (f := f)
    (by rw [unpool_msg]; exact hmem) ho hsplit hn (by rw [unpool_msg]; exact hlast)
  rw [h3] at h5
  generalize (unmarshalVT E t b m).1 = v at h1
  rcases reuse_cases hf h1 with ⟨s1, u1, e1, s2, u2, e2, rfl, rfl⟩ | ⟨rfl, h'⟩
  · have h7 := ((reuse_msg hf).1 h1).2.2.2.2 f hmem
    rw [if_pos ho] at h7
    have h8 : slotOf s2 f = .wrap f.num x := h5
    rw [h8] at h7
    unfold ReuseOneof at h7
    split at h7
    · rename_i n y n' z heq heq'
      cases heq'
      obtain ⟨rfl, g, h9, h10⟩ := h7
      rw [member_of (schemaOK_msg hE.env.schema t) hmem ho] at h9
      cases h9
      refine ⟨m1, x, y, h4, heq, ?_⟩
      unfold ReuseElem at h10
      split at h10
      · rename_i hk
        rcases h6 with h6 | ⟨hk', h6⟩
        · rcases hk with hk | hk
          · rw [hk] at h6
            cases hp : r.payload <;> rw [hp] at h6 <;> simp [scalarValue, wireType] at h6
          · rw [hk] at h6
            exact absurd h6 (scalarValue_group _ _)
        · refine .inr ⟨hk', h6, ?_⟩
          rcases h10 with ⟨rfl, rfl⟩ | ⟨-, -, h10⟩
          · rw [reuse_iff]
            unfold ReuseMsg
            split <;> rfl
          · exact h10
      · rename_i hk
        rcases h6 with h6 | ⟨hk', h6⟩
        · exact .inl ⟨h6, h10⟩
        · exact absurd (.inl hk') hk
    · rename_i hne
      exact ⟨m1, x, x, h4, h7, h6.imp (fun h => ⟨h, rfl⟩) fun ⟨ha, hb⟩ => (hne _ _ _ _ h7 rfl).elim⟩
  · exfalso
    have := (unmarshal_returns_partial hE.plain.env (t := t) (by rw [unpool_msg]; exact hf) (m := m0) (by rw [unpool_typed]; exact hm) hF).2
    rw [h3] at this
    obtain ⟨s, u, e, h⟩ := wtM_isMsg this
    exact h' s u e h

/-- C29. With pools too, a oneof without records of its members keeps its member. -/
theorem oneof_untouched_pooled {f : FieldDesc} (hmem : f ∈ (E.S.msg t).fields) (ho : f.oneof = true)
    (hno : ∀ q ∈ rs, ∀ g ∈ (E.S.msg t).fields, g.num = q.num → g.slot ≠ f.slot) :
    ReuseOneof (Reuse E.S) (E.S.msg t) f.slot (get (unmarshalVT E t b m).1 f) (get m0 f) := by
  obtain ⟨h1, -⟩ := decoded_pooled hE hf hm hr hF hrs hst
  have h3 := (required_iff hE.plain (t := t) (by rw [unpool_msg]; exact hf) (by rw [unpool_typed]; exact hm) hF hrs hst).1
  have h5 := oneof_untouched hE.plain (t := t) (by rw [unpool_msg]; exact hf) (by rw [unpool_typed]; exact hm) hF hrs hst (f := f)
    (by rw [unpool_msg]; exact hno)
  rw [h3] at h5
  have hw := (unmarshal_returns_partial hE.plain.env (t := t) (by rw [unpool_msg]; exact hf) (m := m0) (by rw [unpool_typed]; exact hm) hF).2
  rw [h3] at hw
  obtain ⟨s, u, e, rfl⟩ := wtM_isMsg hw
  generalize (unmarshalVT E t b m).1 = v at h1
  rcases reuse_cases hf h1 with ⟨s1, u1, e1, s2, u2, e2, rfl, h⟩ | ⟨rfl, h'⟩
  · cases h
    have h7 := ((reuse_msg hf).1 h1).2.2.2.2 f hmem
    rw [if_pos ho] at h7
    rw [← h5]
    exact h7
  · exact absurd rfl (h' s u e)

/-! ## C30 -/

/-- C30. With pools too, the elements of the list a repeated number field ends up with are those it held, followed by those its records denote; whether they come
one by one, packed, or in any mixture. -/
theorem any_chunking_pooled {f : FieldDesc} (hmem : f ∈ (E.S.msg t).fields) (hc : f.card = .repeated) (hk : numeric f.kind = true)
    {sub : SubRel} {xs : List Val} (hx : Elements (unpool E.S) sub f rs xs) :
    (get (unmarshalVT E t b m).1 f).elems = (get m f).elems ++ xs := by
  have hmap : f.map = none := by
    cases hcm : f.map with
    | none => rfl
    | some md =>
      have := (((schemaOK_msg hE.env.schema t).fields f hmem).map md hcm).2.1
      rw [this] at hk
      cases hk
  have hk' : ¬ (f.kind = .message ∨ f.kind = .group) := by
    rintro (h | h) <;> rw [h] at hk <;> cases hk
  have heq : ∀ {xs ys : List Val}, List.Forall₂ (ReuseElem (Reuse E.S) f.kind f.msg) xs ys → xs = ys := by
    intro xs ys h
    induction h with
    | nil => rfl
    | cons h _ ih =>
      unfold ReuseElem at h
      rw [if_neg hk'] at h
      rw [h, ih]
  obtain ⟨n, ys, zs, h1, h2, h3⟩ := lists_append_pooled hE hf hm hr hF hrs hst hmem hc hmap
  rw [h2, heq h3, elements_unique hk hx h1]
  congr 1
  have ho : f.oneof = false := by
    cases ho : f.oneof with
    | false => rfl
    | true => exact absurd (hc.symm.trans ((schemaOK_msg hE.env.schema t).fields f hmem |>.oneof ho).1) (by simp)
  obtain ⟨s, u, e, rfl⟩ := wtM_isMsg hm
  rcases reuse_cases hf hr with ⟨s1, u1, e1, s2, u2, e2, rfl, h⟩ | ⟨rfl, h'⟩
  · cases h
    have h7 := ((reuse_msg hf).1 hr).2.2.2.2 f hmem
    rw [if_neg (by simp [ho])] at h7
    unfold ReuseField at h7
    rw [hmap] at h7
    simp only [hc, if_true] at h7
    exact (heq h7.2.2.1).symm
  · rfl

/-! ## C32 -/

/-- C32. With pools too, the entries are inserted one after the other into the map there was: each key has the value of its last entry, or the one it had before, up to
memory kept for reuse. -/
theorem map_entries_pooled_partial {f : FieldDesc} (hmem : f ∈ (E.S.msg t).fields) {md : MapDesc} (hmap : f.map = some md) :
    ∃ n es, MapEntries (unpool E.S) (subRel (unpool E.S) E.R (DecodesN (unpool E.S) E.R n)) f md rs es ∧
      ∀ k, match lookup (get (unmarshalVT E t b m).1 f).entries k, ((es.reverse.find? fun e => e.1 == k).map (·.2)).or (lookup (get m0 f).entries k) with
        | some v, some w => ReuseElem (Reuse E.S) md.val md.valMsg v w
        | none, none => True
        | _, _ => False := by
  have ho : f.oneof = false := by
    cases ho : f.oneof with
    | false => rfl
    | true =>
      have h1 := ((schemaOK_msg hE.env.schema t).fields f hmem |>.map md hmap).1
      exact absurd (h1.symm.trans ((schemaOK_msg hE.env.schema t).fields f hmem |>.oneof ho).1) (by simp)
  have h1 := field_pooled hE hf hm hr hF hmem ho
  obtain ⟨n, es, h2, h3⟩ := map_entries_partial hE.plain (t := t) (by rw [unpool_msg]; exact hf) (by rw [unpool_typed]; exact hm) hF hrs hst (f := f)
    (by rw [unpool_msg]; exact hmem) hmap
  refine ⟨n, es, h2, fun k => ?_⟩
  rw [← h3 k]
  unfold ReuseField at h1
  rw [hmap] at h1
  rcases h1 with ⟨h4, h5⟩ | ⟨as, bs, h4, h5, h6⟩
  · rw [h4, h5]
    trivial
  · rw [h4, h5]
    simp only [Val.entries]
    clear h2 h3 h4 h5
    induction h6 with
    | nil => trivial
    | cons h _ ih =>
      rename_i a b _ _ _
      obtain ⟨a1, a2⟩ := a
      obtain ⟨b1, b2⟩ := b
      obtain ⟨h7, h8⟩ := h
      simp only at h7 h8
      subst h7
      unfold lookup at ih ⊢
      simp only [List.find?_cons]
      cases a1 == k with
      | true => exact h8
      | false => exact ih

/-! ## C28 -/

omit hr in
/-- C28. With pools too, a valid encoding cut anywhere but between two of its records is rejected. -/
theorem cut_encoding_rejected_pooled (hr : Reuse E.S t m m0) {k : Nat} (hk : k ≤ b.length) (hcut : ∀ n, ¬ Records (rs.take n) (b.take k)) :
    ∃ e, (unmarshalVT E t (b.take k) m).2 = .err e := by
  obtain ⟨e, h⟩ := cut_encoding_rejected hE.plain (t := t) (by rw [unpool_msg]; exact hf) (by rw [unpool_typed]; exact hm) hF hrs hst hk hcut
  refine ⟨e, ?_⟩
  rw [(pooled_sim hE.env.schema hE.env.arch hE.runtime hE.pools hf (b := b.take k) (by unfold Arch.Fits at hF ⊢; simp; omega) hr).1]
  exact h

end

section
variable {E : UEnv} (hE : PoolEnv E) {t : Nat} (hf : (E.S.msg t).foreign = false) {v : Val} {b : Bytes} (hN : RuntimeEnc E.R) (hv : wt E.S t v = true)
  (hr : Restorable E.S E.R t v) (hb : E.A.Fits (b.length + 1)) {m : Val} (hB : Blank E.S t m)
include hE hf hN hv hr hb hB

/-! ## C17 -/

/-- C17. `UnmarshalVT` into an empty message from a pool restores every singular scalar field outside of oneofs, bit by bit, too. Only an absent bytes field may come
back as an empty slice: the memory kept for it (see C51). -/
theorem scalars_restored_pooled_partial (hR : RuntimeEqual E.R) {strict : Bool} (hm : marshalVT ⟨E.S, E.R⟩ strict t v = .ok (some b)) :
    ∃ s s' u u' e e', v = .msg s u e ∧ unmarshalVT E t b m = (.msg s' u' e', .ok ()) ∧
      ∀ f ∈ (E.S.msg t).fields, f.oneof = false → f.card ≠ .repeated → f.hasMessage = false →
        ReadBack f (slotOf s f) (slotOf s' f) ∨ (f.kind = .bytes ∧ (E.S.msg t).pooled = true ∧ slotOf s' f = .str [] ∧ ReadBack f (slotOf s f) .nil) := by
  obtain ⟨w, h1, h2, h3⟩ := back_pooled hE hf hN hv hr hm hb hB
  have hM := schemaOK_msg hE.env.schema t
  have he : marshalVT ⟨unpool E.S, E.R⟩ strict t v = .ok (some b) := by
    rw [(marshal_encodes (E := ⟨unpool E.S, E.R⟩) strict (unpool_ok hE.env.schema) hN (by rw [wt, unpool_typed]; exact hv) (by rw [unpool_msg]; exact hf)).1, encode_unpool]
    exact ((marshal_encodes (E := ⟨E.S, E.R⟩) strict hE.env.schema hN hv hf).1 b).1 hm
  obtain ⟨s, s', u, u', e, e', rfl, h4, h5⟩ := scalars_restored_partial hE.plain hR hN (t := t) (by rw [unpool_msg]; exact hf) (by rw [wt, unpool_typed]; exact hv)
    ((restorable_unpool E.S E.R).2 hr) he hb
  obtain ⟨x, h6, rfl, -⟩ := round_trip_partial hE.plain hR hN (t := t) (by rw [unpool_msg]; exact hf) (by rw [wt, unpool_typed]; exact hv)
    ((restorable_unpool E.S E.R).2 hr) he hb
  rw [h4] at h6
  simp only [Prod.mk.injEq, and_true] at h6
  have h7 : back (unpool E.S) E.R t (.msg s u e) = back E.S E.R t (.msg s u e) := by unfold back; rw [backN_unpool]
  rw [← h7, ← h6] at h2
  rcases reuse_cases hf h2 with ⟨s1, u1, e1, s2, u2, e2, rfl, h8⟩ | ⟨rfl, h8⟩
  · cases h8
    refine ⟨s, s1, u, u1, e, e1, rfl, h1, fun f hfm ho hc hk => ?_⟩
    have h9 := ((reuse_msg hf).1 h2).2.2.2.2 f hfm
    rw [if_neg (by simp [ho])] at h9
    have h10 := h5 f (by rw [unpool_msg]; exact hfm) ho hc hk
    have hmap : f.map = none := by
      cases hmm : f.map with
      | none => rfl
      | some md => exact absurd ((hM.fields f hfm).map _ hmm).1 hc
    unfold ReuseField at h9
    rw [hmap] at h9
    simp only [hc, if_false] at h9
    split at h9
    · rename_i hk
      rcases h9 with h9 | ⟨h11, h12, h13⟩
      · rw [h9]; exact .inl h10
      · rw [h13] at h10
        exact .inr ⟨hk, h11, h12, h10⟩
    · unfold ReuseElem at h9
      rw [if_neg (by simpa [FieldDesc.hasMessage] using hk)] at h9
      rw [h9]
      exact .inl h10
  · exact absurd rfl (h8 _ _ _)

/-! ## C64 -/

/-- C64. From end to end, into an empty message from a pool. -/
theorem codec_round_trip_pooled_partial (hR : RuntimeEqual E.R) (hP : RuntimePerm E.R) (hk : noKeptBytes E.S)
    (hm : grpcMarshal ⟨E.S, E.R⟩ (.message t v) = .ok (some b)) :
    drpcMarshal ⟨E.S, E.R⟩ (.message t v) = .ok (some b) ∧
    ∃ w, grpcUnmarshal E b (.message t m) = (.message t w, .ok ()) ∧ drpcUnmarshal E b (.message t m) = (.message t w, .ok ()) ∧
      (NoNaN E.S t v → ∀ p, equalVT ⟨E.S, E.R, p⟩ t v w = .ok true) := by
  obtain ⟨w, -, -, h1, h2, -⟩ := round_trip_pooled_partial hE.env hE.copy hE.bool hE.runtime hE.pools hR hN hP hk hf hv hr (strict := false) hm hb hB
  refine ⟨hm, w, ?_, ?_, fun hn p => (h2 hn p).1⟩
  · simp [grpcUnmarshal, h1]
  · simp [drpcUnmarshal, h1]

end

/-! ## The hypotheses can be met -/

/-- The sample schema with a pool for its first message. -/
def poolsEnv : UEnv := { S := schemaP, R := Runtime.none, A := .b64, alloc := fun _ t => zeroMsg schemaP t }

theorem poolsEnv_ok : PoolEnv poolsEnv :=
  ⟨⟨poolP_ok, .inr rfl, fun _ t => zeroMsg_typed poolP_ok t, fun _ _ _ h => (nomatch h), fun _ _ _ h => (nomatch h), .inl rfl⟩, rfl, .inl rfl, fun _ _ _ h => (nomatch h),
    fun _ t _ => blank_zero poolP_ok t⟩

theorem schemaP_unpool : unpool schemaP = Demo.schema3 := rfl

/-- A message as a pool may hold it: the lists have capacity. -/
def worn : Val := match zeroMsg schemaP 0 with
  | .msg s u e => .msg (s.set 2 (.list [] [])) u e
  | v => v

theorem worn_blank : Blank schemaP 0 worn := by
  have h0 : Blank schemaP 0 (zeroMsg schemaP 0) := blank_zero poolP_ok 0
  rw [Blank, show zeroMsg schemaP 0 = .msg [.num 0, .str [], .nil, .nil, .nil, .nil, .nil, .nil, .nil, .nil, .num 0] [] [] from by decide] at h0 ⊢
  rw [show worn = .msg [.num 0, .str [], .list [] [], .nil, .nil, .nil, .nil, .nil, .nil, .nil, .num 0] [] [] from by decide]
  refine (reuse_msg (by decide)).2 ⟨rfl, rfl, by decide, by decide, fun f hf => ?_⟩
  have h1 := ((reuse_msg (by decide)).1 h0).2.2.2.2 f hf
  by_cases h2 : f = f3
  · subst h2
    exact ⟨trivial, trivial, .nil, fun _ => .inr rfl, fun h => (nomatch h), fun _ h => (nomatch h), fun _ => rfl⟩
  · have h3 : f.slot ≠ 2 := by
      clear h1
      revert f
      decide
    have h4 : slotOf [.num 0, .str [], .list [] [], .nil, .nil, .nil, .nil, .nil, .nil, .nil, .num 0] f =
        slotOf [.num 0, .str [], .nil, .nil, .nil, .nil, .nil, .nil, .nil, .nil, .num 0] f := by
      unfold slotOf
      generalize f.slot = k at h3
      rcases k with _ | _ | _ | k
      · rfl
      · rfl
      · exact absurd rfl h3
      · rfl
    rw [h4]
    exact h1

theorem worn_typed : wtM schemaP .solid 0 (zeroMsg schemaP 0) = true := by decide

theorem sampleP_merges : Merges (unpool schemaP) Runtime.none 0 sample (zeroMsg schemaP 0) sampleMsg := ⟨1, sample_steps⟩

example : Reuse schemaP 0 (unmarshalVT poolsEnv 0 sampleBytes worn).1 sampleMsg ∧ (unmarshalVT poolsEnv 0 sampleBytes worn).2 = .ok () := by
  have h := required_iff_pooled poolsEnv_ok (by decide) worn_typed worn_blank (by decide) sample_records sampleP_merges
  exact ⟨h.1, h.2.1 (by intro f hf hc; revert f; decide)⟩

/-- The required `x` of `Small` is missing. -/
example : ∃ f ∈ (schemaP.msg 1).fields, (unmarshalVT poolsEnv 1 [18, 1, 9] (zeroMsg schemaP 1)).2 = .err (.requiredNotSet f.num) := by
  have hrs : Records [⟨2, .len [9], [18, 1, 9]⟩] [18, 1, 9] := .cons (.len 2 [18] [1] [9] (by decide) (one_byte 18 (by decide)) (one_byte 1 (by decide))) .nil
  have hst : Merges (unpool schemaP) Runtime.none 1 [⟨2, .len [9], [18, 1, 9]⟩] (zeroMsg schemaP 1) (.msg [.nil, .str [9]] [] []) :=
    ⟨0, .cons (.scalar (f := { num := 2, slot := 1, kind := .bytes, presence := true }) (by decide) rfl (by decide) rfl) .nil⟩
  obtain ⟨f, h1, -, -, h3⟩ := (required_iff_pooled poolsEnv_ok (t := 1) (by decide) (m0 := zeroMsg schemaP 1) (by decide) (blank_zero poolP_ok 1) (by decide) hrs hst).2.2 (by
    intro h
    obtain ⟨r, hr, hn⟩ := h { num := 1, slot := 0, kind := .int64, card := .required, presence := true } (by decide) rfl
    simp at hr
    subst hr
    simp at hn)
  exact ⟨f, h1, h3⟩

example : unknownOf (unmarshalVT poolsEnv 0 sampleBytes worn).1 = [152, 6, 1] :=
  unknown_kept_pooled poolsEnv_ok (by decide) worn_typed worn_blank (by decide) sample_records sampleP_merges

example : (unmarshalVT poolsEnv 0 [8, 0x85, 0x80, 0, 26, 2, 2, 1, 34, 2, 8, 7, 48, 1, 24, 4] worn).2 = (unmarshalVT poolsEnv 0 sampleBytes worn).2 :=
  (unknown_inert_pooled poolsEnv_ok (by decide) worn_typed worn_blank (by decide) sample_records sampleP_merges (by decide) known_records).1

example := oneof_last_pooled poolsEnv_ok (by decide) worn_typed worn_blank (by decide) sample_records sampleP_merges
  (f := { num := 6, slot := 5, kind := .bool, presence := true, oneof := true }) (by decide) rfl
  (rs1 := sample.take 3) (r := ⟨6, .varint 1, [48, 1]⟩) (rs2 := sample.drop 4) rfl rfl (by decide)

example := oneof_untouched_pooled poolsEnv_ok (by decide) worn_typed worn_blank (b := [8, 0x85, 0x80, 0]) (by decide) (rs := [⟨1, .varint 5, [8, 0x85, 0x80, 0]⟩])
  (.cons (.varint 1 5 [8] [0x85, 0x80, 0] (by decide) (one_byte 8 (by decide))
    ⟨.more _ _ (by decide) (.more _ _ (by decide) (.last _ (by decide))), by decide, by decide, by decide⟩) .nil)
  ⟨0, .cons (.scalar (f := { num := 1, slot := 0, kind := .int32 }) (by decide) rfl (by decide) rfl) .nil⟩
  (f := { num := 6, slot := 5, kind := .bool, presence := true, oneof := true }) (by decide) rfl (by decide)

example : (get (unmarshalVT poolsEnv 0 sampleBytes worn).1 f3).elems = [.num 1, .num (-1), .num 2] :=
  any_chunking_pooled poolsEnv_ok (by decide) worn_typed worn_blank (by decide) sample_records sampleP_merges (f := f3) (by decide) rfl rfl
    (sample_elements fun _ _ _ _ => False)

example : ∃ e, (unmarshalVT poolsEnv 0 (sampleBytes.take 2) worn).2 = .err e := by
  refine cut_encoding_rejected_pooled poolsEnv_ok (by decide) worn_typed (by decide) sample_records sampleP_merges worn_blank (by decide) fun n h => ?_
  have h' := congrArg List.length (records_raw h)
  rcases n with _ | _ | _ | _ | _ | _ | n <;> simp [sample, sampleBytes] at h'

example : ∃ b s s' u u' e e', tree = .msg s u e ∧ unmarshalVT nenv 0 b again = (.msg s' u' e', .ok ()) := by
  obtain ⟨b, h1, h2⟩ := writes (S := nenv.S) (R := nenv.R) (t := 0) (v := tree) true nodes_ok structural_enc (fun _ _ => rfl) (by decide) (by decide) (by decide) (by decide)
  obtain ⟨s, s', u, u', e, e', h3, h4, -⟩ := scalars_restored_pooled_partial nenv_pool (t := 0) (by decide) structural_enc (by decide) tree_restorable h2 again_blank
    structural_ok h1
  exact ⟨b, s, s', u, u', e, e', h3, h4⟩

example : ∃ b w, grpcMarshal ⟨nenv.S, nenv.R⟩ (.message 0 tree) = .ok (some b) ∧ drpcUnmarshal nenv b (.message 0 again) = (.message 0 w, .ok ()) := by
  obtain ⟨b, h1, h2⟩ := writes (S := nenv.S) (R := nenv.R) (t := 0) (v := tree) false nodes_ok structural_enc (fun _ _ => rfl) (by decide) (by decide) (by decide) (by decide)
  obtain ⟨-, w, -, h3, -⟩ := codec_round_trip_pooled_partial nenv_pool (t := 0) (by decide) structural_enc (by decide) tree_restorable h2 again_blank structural_ok
    structural_perm nodes_bytes h1
  exact ⟨b, w, h1, h3⟩

/-- Maps, with a pool. -/
def mapsP : Schema := Demo.schema4.modify 0 fun d => { d with pooled := true }

theorem mapsP_ok : schemaOK mapsP = true := by decide

/-- Decoding them. -/
def mapsEnv : UEnv := { S := mapsP, R := Runtime.none, A := .b64, alloc := fun _ t => zeroMsg mapsP t }

theorem mapsEnv_ok : PoolEnv mapsEnv :=
  ⟨⟨mapsP_ok, .inr rfl, fun _ t => zeroMsg_typed mapsP_ok t, fun _ _ _ h => (nomatch h), fun _ _ _ h => (nomatch h), .inl rfl⟩, rfl, .inl rfl, fun _ _ _ h => (nomatch h),
    fun _ t _ => blank_zero mapsP_ok t⟩

example := map_entries_pooled_partial mapsEnv_ok (t := 0) (by decide) (m0 := zeroMsg mapsP 0) (by decide) (blank_zero mapsP_ok 0) (by decide) mapRecs_records
  (show Merges (unpool mapsP) Runtime.none 0 mapRecs (zeroMsg mapsP 0) _ from mapRecs_merges)
  (f := { num := 1, slot := 0, kind := .message, card := .repeated, map := some ⟨.int32, .int32, 0⟩ }) (by decide) rfl

end Vtp.Props
