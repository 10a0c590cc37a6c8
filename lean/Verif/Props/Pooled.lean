import Verif.Props.RoundTrip
import Verif.Props.Evolve
import Verif.Props.EmitUnmarshal
/-!
# Code with pools: C15, C26, C80, C85

What `Fields.lean`, `RoundTrip.lean`, `Evolve.lean` and `EmitUnmarshal.lean` say of code without pools, for code that takes messages from pools and reuses
the memory of the message decoded into. `unpool S` is the schema with no message pooled; the wire format does not depend on that.
-/

namespace Vtp.Props
open Spec

/-- Decoding with copies and with pools that hold empty messages; on 32-bit targets without bools. Messages of the runtime have no memory for reuse. -/
structure PoolEnv (E : UEnv) : Prop where
  env : DecodeEnv E
  copy : E.aliasing = false
  bool : E.A.bits = 64 ∨ noBools E.S
  runtime : ∀ t b v, E.R.unmarshalPartial t b = some v → Clean E.S t v
  pools : ∀ off t, (E.S.msg t).pooled = true → Blank E.S t (E.alloc off t)

theorem PoolEnv.plain {E : UEnv} (h : PoolEnv E) : PlainEnv { E with S := unpool E.S } := by
  refine ⟨unpool_env h.env, h.copy, fun t => ?_, h.bool.imp id fun h t => ?_⟩
  · show ((unpool E.S).msg t).pooled = false
    rw [unpool_msg]
  · have := h t
    simpa only [unpool_msg] using this

theorem scalarValue_ne_nil (k : Kind) (p : Payload) : scalarValue k p ≠ some .nil := by
  cases p <;> simp only [scalarValue] <;> (try split) <;> simp

theorem scalarValue_group (p : Payload) (v : Val) : scalarValue .group p ≠ some v := by
  cases p <;> simp [scalarValue, wireType]

theorem extend_elems (v : Val) (xs : List Val) : (extend v xs).elems = v.elems ++ xs := by
  cases v <;> simp only [extend] <;> (try split) <;> simp_all [Val.elems]

section
variable {E : UEnv} (hE : PoolEnv E) {t : Nat} (hf : (E.S.msg t).foreign = false)

/-- Two messages which are the same but for memory kept for reuse answer alike. -/
theorem reuse_answers (hR : RuntimeEqual E.R) (hN : RuntimeEnc E.R) (hS : schemaOK E.S = true) (hk : noKeptBytes E.S) (hf : (E.S.msg t).foreign = false) {v w x : Val}
    (hv : wtM E.S .solid t v = true) (hw : wtM E.S .solid t w = true) (h1 : Reuse E.S t v x) (h2 : Reuse E.S t w x) :
    sizeVT ⟨E.S, E.R⟩ t v = sizeVT ⟨E.S, E.R⟩ t w ∧
    (∀ strict c, marshalVT ⟨E.S, E.R⟩ strict t v = .ok (some c) ↔ marshalVT ⟨E.S, E.R⟩ strict t w = .ok (some c)) ∧
    (NoNaN E.S t v → ∀ p, equalVT ⟨E.S, E.R, p⟩ t v w = .ok true) := by
  have a1 := alike_of_reuse (R := E.R) hR.refl hk hf h1
  have a2 := alike_of_reuse (R := E.R) hR.refl hk hf h2
  have w1 : wt E.S t v = true := members_weaken (by simp) (by simp) _ _ _ hv
  have w2 : wt E.S t w = true := members_weaken (by simp) (by simp) _ _ _ hw
  have w1' : wtM E.S .typedNil t v = true := members_weaken (by simp) (by simp) _ _ _ hv
  have w2' : wtM E.S .typedNil t w = true := members_weaken (by simp) (by simp) _ _ _ hw
  refine ⟨(sizeVT_alike (E := ⟨E.S, E.R⟩) hS a1).trans (sizeVT_alike (E := ⟨E.S, E.R⟩) hS a2).symm, fun strict c => ?_, fun hn p => ?_⟩
  · rw [(marshal_encodes (E := ⟨E.S, E.R⟩) strict hS hN w1 hf).1, (marshal_encodes (E := ⟨E.S, E.R⟩) strict hS hN w2 hf).1,
      encode_alike (E := ⟨E.S, E.R⟩) hS strict a1, encode_alike (E := ⟨E.S, E.R⟩) hS strict a2]
  · have s1 := same_of_alike hS a1 (same_refl hS hR.refl hf w1' hn)
    have s2 := same_trans hR.trans s1 (same_of_alike hS (alike_symm hR.symm a2) (same_trans hR.trans (same_symm hR.symm s1) s1))
    exact equal_of_same (C := ⟨E.S, E.R, p⟩) hS hR hf (.inr w1') (.inr w2') s2

/-! ## C26 -/

section fields
variable {m m0 m' : Val} (hm : wtM E.S .solid t m0 = true) (hr : Reuse E.S t m m0) {rs : List Rec} {b : Bytes} (hF : E.A.Fits b.length) (hrs : Records rs b)
  (hst : Merges (unpool E.S) E.R t rs m0 m')
include hE hf hm hr hF hrs hst

omit hrs hst in
/-- Each field of the message decoded is that of the message decoded without pools, up to memory kept for reuse. -/
theorem field_pooled {f : FieldDesc} (hmem : f ∈ (E.S.msg t).fields) (ho : f.oneof = false) :
    ReuseField E.S (Reuse E.S) (E.S.msg t) f (get (unmarshalVT E t b m).1 f) (get (unmarshalVT { E with S := unpool E.S } t b m0).1 f) := by
  have h2 := (pooled_sim hE.env.schema hE.env.arch hE.runtime hE.pools hf hF hr).2
  have hw := (unmarshal_returns_partial hE.plain.env (t := t) (by rw [unpool_msg]; exact hf) (m := m0) (by rw [unpool_typed]; exact hm) hF).2
  obtain ⟨s, u, e, h3⟩ := wtM_isMsg hw
  rw [h3] at h2 ⊢
  rcases reuse_cases hf h2 with ⟨s1, u1, e1, s2, u2, e2, h4, h5⟩ | ⟨h4, h5⟩
  · cases h5
    rw [h4] at h2 ⊢
    have := ((reuse_msg hf).1 h2).2.2.2.2 f hmem
    rw [if_neg (by simp [ho])] at this
    exact this
  · exact absurd h4 (h5 _ _ _)

/-- C26. A singular scalar ends up with the value of its last record, also in code with pools. -/
theorem last_wins_pooled {f : FieldDesc} (hmem : f ∈ (E.S.msg t).fields) (ho : f.oneof = false) (hc : f.card ≠ .repeated) (hk : f.kind ≠ .message)
    {rs1 rs2 : List Rec} {r : Rec} (hsplit : rs = rs1 ++ r :: rs2) (hn : r.num = f.num) (hlast : ∀ q ∈ rs2, q.num ≠ f.num) :
    scalarValue f.kind r.payload = some (get (unmarshalVT E t b m).1 f) := by
  have h1 := field_pooled hE hf hm hr hF hmem ho
  have h2 := last_wins hE.plain (t := t) (by rw [unpool_msg]; exact hf) (by rw [unpool_typed]; exact hm) hF hrs hst (f := f) (by rw [unpool_msg]; exact hmem) ho hc hk
    hsplit hn hlast
  have hmap : f.map = none := by
    cases hm : f.map with
    | none => rfl
    | some md => exact absurd ((schemaOK_msg hE.env.schema t).fields f hmem |>.map md hm).1 hc
  unfold ReuseField at h1
  rw [hmap] at h1
  simp only [hc, if_false] at h1
  split at h1
  · rcases h1 with h1 | ⟨-, -, h3⟩
    · rw [h1]; exact h2
    · rw [h3] at h2
      exact absurd h2 (scalarValue_ne_nil _ _)
  · unfold ReuseElem at h1
    rw [if_neg] at h1
    · rw [h1]; exact h2
    · rintro (h | h)
      · exact hk h
      · rw [h] at h2
        exact absurd h2 (scalarValue_group _ _)

/-- C26, C30. The elements the records of a repeated field denote are appended in order to whatever the list held, in code with pools up to memory kept for reuse. -/
theorem lists_append_pooled {f : FieldDesc} (hmem : f ∈ (E.S.msg t).fields) (hc : f.card = .repeated) (hmap : f.map = none) :
    ∃ n xs ys, Elements (unpool E.S) (subRel (unpool E.S) E.R (DecodesN (unpool E.S) E.R n)) f rs xs ∧
      (get (unmarshalVT E t b m).1 f).elems = ys ∧ List.Forall₂ (ReuseElem (Reuse E.S) f.kind f.msg) ys ((get m0 f).elems ++ xs) := by
  have ho : f.oneof = false := by
    cases ho : f.oneof with
    | false => rfl
    | true => exact absurd (hc.symm.trans ((schemaOK_msg hE.env.schema t).fields f hmem |>.oneof ho).1) (by simp)
  have h1 := field_pooled hE hf hm hr hF hmem ho
  obtain ⟨n, xs, h2, h3⟩ := lists_append hE.plain (t := t) (by rw [unpool_msg]; exact hf) (by rw [unpool_typed]; exact hm) hF hrs hst (f := f)
    (by rw [unpool_msg]; exact hmem) hc hmap
  refine ⟨n, xs, _, h2, rfl, ?_⟩
  rw [h3] at h1
  unfold ReuseField at h1
  rw [hmap] at h1
  simp only [hc, if_true] at h1
  have := h1.2.2.1
  rwa [extend_elems] at this

/-- C26. The records of a singular message are merged, also in code with pools, up to memory kept for reuse. -/
theorem messages_merge_pooled {f : FieldDesc} (hmem : f ∈ (E.S.msg t).fields) (ho : f.oneof = false) (hc : f.card ≠ .repeated) (hk : f.kind = .message)
    (hff : (E.S.msg f.msg).foreign = false) (hnil : payloads f rs ≠ []) :
    ∃ (bs : List Bytes) (x : Val), bs ≠ [] ∧ payloads f rs = bs.map .len ∧
      Decodes (unpool E.S) E.R f.msg bs.flatten (if get m0 f = .nil then zeroMsg E.S f.msg else get m0 f) x ∧ Reuse E.S f.msg (get (unmarshalVT E t b m).1 f) x := by
  have hmap : f.map = none := by
    cases hm : f.map with
    | none => rfl
    | some md => exact absurd ((schemaOK_msg hE.env.schema t).fields f hmem |>.map md hm).1 hc
  have h1 := field_pooled hE hf hm hr hF hmem ho
  rcases messages_merge hE.plain (t := t) (by rw [unpool_msg]; exact hf) (by rw [unpool_typed]; exact hm) hF hrs hst (f := f) (by rw [unpool_msg]; exact hmem) ho hc hk
    (by rw [unpool_msg]; exact hff) with h2 | ⟨bs, h2, h3, h4⟩
  · exact absurd h2.1 hnil
  · rw [zeroMsg_unpool] at h4
    refine ⟨bs, _, h2, h3, h4, ?_⟩
    unfold ReuseField at h1
    rw [hmap] at h1
    simp only [hc, if_false, hk, reduceCtorEq] at h1
    unfold ReuseElem at h1
    rw [if_pos (.inl rfl)] at h1
    rcases h1 with ⟨h5, h6⟩ | h5
    · rw [h5, h6]
      rw [reuse_iff]
      simp [ReuseMsg, hff]
    · exact h5.2.2

end fields

/-! ## C80 -/

include hE hf in
/-- C80. Also code with pools does not depend on the order in which the fields of a message arrive: the outcome is the same, and the messages are the same up to
memory kept for reuse. -/
theorem unmarshal_order_pooled_partial {b b' : Bytes} (hb : E.A.Fits b.length) (hb' : E.A.Fits b'.length) {m m0 m' : Val} (hm : wtM E.S .solid t m0 = true)
    (hr : Reuse E.S t m m0) {rs rs' : List Rec} (h : Records rs b) (h' : Records rs' b') (hs : SameOrder (E.S.msg t) rs rs')
    (hg : Merges (unpool E.S) E.R t rs m0 m') :
    (unmarshalVT E t b' m).2 = (unmarshalVT E t b m).2 ∧ ∃ x, Reuse E.S t (unmarshalVT E t b' m).1 x ∧ Reuse E.S t (unmarshalVT E t b m).1 x := by
  have h1 := pooled_sim hE.env.schema hE.env.arch hE.runtime hE.pools hf hb hr
  have h2 := pooled_sim hE.env.schema hE.env.arch hE.runtime hE.pools hf hb' hr
  have h3 := unmarshal_order_partial hE.plain (t := t) (by rw [unpool_msg]; exact hf) hb hb' (by rw [unpool_typed]; exact hm) h h' (by rw [unpool_msg]; exact hs) hg
  rw [h3] at h2
  exact ⟨h2.1.trans h1.1.symm, _, h2.2, h1.2⟩

include hE hf in
/-- C80. So they have the same size and marshal to the same bytes, and are `EqualVT` unless there is a NaN. Missing as for C51: `optional bytes` fields of pooled messages. -/
theorem unmarshal_order_pooled_same_partial (hR : RuntimeEqual E.R) (hN : RuntimeEnc E.R) (hk : noKeptBytes E.S) {b b' : Bytes} (hb : E.A.Fits b.length)
    (hb' : E.A.Fits b'.length) {m m0 m' : Val} (hm : wtM E.S .solid t m0 = true) (hw : wtM E.S .solid t m = true)
    (hr : Reuse E.S t m m0) {rs rs' : List Rec} (h : Records rs b) (h' : Records rs' b') (hs : SameOrder (E.S.msg t) rs rs')
    (hg : Merges (unpool E.S) E.R t rs m0 m') {v v' : Val} {r r' : Res Unit} (h1 : unmarshalVT E t b m = (v, r)) (h2 : unmarshalVT E t b' m = (v', r')) :
    r = r' ∧ sizeVT ⟨E.S, E.R⟩ t v = sizeVT ⟨E.S, E.R⟩ t v' ∧
    (∀ strict c, marshalVT ⟨E.S, E.R⟩ strict t v = .ok (some c) ↔ marshalVT ⟨E.S, E.R⟩ strict t v' = .ok (some c)) ∧
    (NoNaN E.S t v → ∀ p, equalVT ⟨E.S, E.R, p⟩ t v v' = .ok true) := by
  obtain ⟨h3, x, h4, h5⟩ := unmarshal_order_pooled_partial hE hf hb hb' hm hr h h' hs hg
  have w1 := (unmarshal_returns_partial hE.env hf hw hb).2
  have w2 := (unmarshal_returns_partial hE.env hf hw hb').2
  rw [h1] at h3 h5 w1
  rw [h2] at h3 h4 w2
  exact ⟨h3.symm, reuse_answers hR hN hE.env.schema hk hf w1 w2 h5 h4⟩

/-! ## C15, C85 -/

include hE hf in
/-- What `MarshalVT` wrote, read into an empty message from a pool. -/
theorem back_pooled {v : Val} {strict : Bool} {b : Bytes} (hN : RuntimeEnc E.R) (hv : wt E.S t v = true) (hr : Restorable E.S E.R t v)
    (hm : marshalVT ⟨E.S, E.R⟩ strict t v = .ok (some b)) (hb : E.A.Fits (b.length + 1)) {m : Val} (hB : Blank E.S t m) :
    ∃ w, unmarshalVT E t b m = (w, .ok ()) ∧ Reuse E.S t w (back E.S E.R t v) ∧ wtM E.S .solid t w = true := by
  have hS := hE.env.schema
  have he : encode ⟨E.S, E.R⟩ strict t v = some b := ((marshal_encodes (E := ⟨E.S, E.R⟩) strict hS hN hv hf).1 b).1 hm
  have hl : b.length < 2 ^ 64 := by
    unfold Arch.Fits at hb
    rcases hE.env.arch with h | h <;> rw [h] at hb <;> omega
  have hd : Decodes (unpool E.S) E.R t b (zeroMsg E.S t) (back E.S E.R t v) := by
    refine ⟨v.depth + 1, ?_⟩
    have := encode_back (E := ⟨unpool E.S, E.R⟩) (unpool_ok hS) strict v.depth t v b (Nat.le_refl _) (by rw [unpool_msg]; exact hf)
      (by rw [encode_unpool]; exact he) hl (by rw [unpool_typed]; exact hv) ((restorable_unpool E.S E.R).2 hr _)
    rwa [zeroMsg_unpool, backN_unpool] at this
  obtain ⟨w, h1, h2⟩ := pooled_decodes_partial hE.env hE.copy hE.bool hE.runtime hE.pools hf hb (zeroMsg_typed hS t) hB hd
  have hw := (unmarshal_returns_partial hE.env hf (blank_typed hS _ t m (Nat.le_refl _) hB) (b := b) (by unfold Arch.Fits at *; omega)).2
  rw [h1] at hw
  exact ⟨w, h1, h2, hw⟩

include hE hf in
/-- C15. Whatever order the maps were iterated in, decoding into empty messages from pools gives `EqualVT` messages. -/
theorem decode_shuffle_pooled_partial (hR : RuntimeEqual E.R) (hN : RuntimeEnc E.R) (hQ : RuntimeEqualShuffle E.R) (hk : noKeptBytes E.S)
    {v w : Val} {strict : Bool} {b c : Bytes} (hs : Shuffle v w) (hv : wt E.S t v = true) (hn : NoNaN E.S t v) (hrv : Restorable E.S E.R t v)
    (hQ' : ∀ t v w, Shuffle v w → Restored E.S E.R t v → Restored E.S E.R t w) (hm : marshalVT ⟨E.S, E.R⟩ strict t v = .ok (some b))
    (hm' : marshalVT ⟨E.S, E.R⟩ strict t w = .ok (some c)) (hb : E.A.Fits (b.length + 1)) (hc : E.A.Fits (c.length + 1)) {m m' : Val} (hB : Blank E.S t m)
    (hB' : Blank E.S t m') :
    ∃ x y, unmarshalVT E t b m = (x, .ok ()) ∧ unmarshalVT E t c m' = (y, .ok ()) ∧ ∀ p, equalVT ⟨E.S, E.R, p⟩ t x y = .ok true := by
  have hS := hE.env.schema
  have hw : wt E.S t w = true := shuffle_wtM hs hv
  have hrw : Restorable E.S E.R t w := restorable_shuffle hQ' hs hrv
  have hnw : NoNaN E.S t w := noNaN_shuffle hs hn
  obtain ⟨x, h1, r1, t1⟩ := back_pooled hE hf hN hv hrv hm hb hB
  obtain ⟨y, h2, r2, t2⟩ := back_pooled hE hf hN hw hrw hm' hc hB'
  refine ⟨x, y, h1, h2, fun p => ?_⟩
  have a1 := alike_of_reuse (R := E.R) hR.refl hk hf r1
  have a2 := alike_of_reuse (R := E.R) hR.refl hk hf r2
  have s1 := (back_same hS hR v.depth t v (Nat.le_refl _) hf hv (hrv _) (hn _)).1
  have s2 := (back_same hS hR w.depth t w (Nat.le_refl _) hf hw (hrw _) (hnw _)).1
  have s3 : Same E.S E.R t v w := same_shuffle hS hR hQ hf hs (members_weaken (by simp) (by simp) _ _ _ hv) hn
  have self : ∀ {a b : Val}, Same E.S E.R t a b → Same E.S E.R t b b := fun h => same_trans hR.trans (same_symm hR.symm h) h
  have s4 := same_trans hR.trans s1 (same_of_alike hS (alike_symm hR.symm a1) (self s1))
  have s5 := same_trans hR.trans s2 (same_of_alike hS (alike_symm hR.symm a2) (self s2))
  exact equal_of_same (C := ⟨E.S, E.R, p⟩) hS hR hf (.inr (members_weaken (by simp) (by simp) _ _ _ t1)) (.inr (members_weaken (by simp) (by simp) _ _ _ t2))
    (same_trans hR.trans (same_trans hR.trans (same_symm hR.symm s4) s3) s5)

include hE hf in
/-- C85. The printed `UnmarshalVT` of a schema with pools, on what the printed `MarshalVT[Strict]` returns for a message, gives back the message: into any empty
message that a pool may hold, taking the messages inside from pools too. -/
theorem emitted_round_trip_pooled_partial {G : GoU.GenCfg} (hG : G.toGenCfg.OK E.S) (ha : G.aliasing = false) (hR : RuntimeEqual E.R)
    (hN : RuntimeEnc E.R) (hP : RuntimePerm E.R) (hk : noKeptBytes E.S) {strict : Bool} {v : Val} (hv : wt E.S t v = true) (hr : Restorable E.S E.R t v)
    {K : Nat} (hK : 2 * v.depth + 1 ≤ K) {b : Bytes} (hm : Go.runMarshal G.toGenCfg ⟨E.S, E.R⟩ strict K t v = .ok (some b)) (hb : E.A.Fits (b.length + 1))
    {n fuel : Nat} (hn : b.length < n) (hfuel : b.length + 11 ≤ fuel) {m : Val} (hB : Blank E.S t m) :
    ∃ w, GoU.methodN G E fuel n 0 t b m = (w, .ok ()) ∧
      (NoNaN E.S t v → ∀ p, equalVT ⟨E.S, E.R, p⟩ t v w = .ok true ∧ equalVT ⟨E.S, E.R, p⟩ t w v = .ok true) ∧
      sizeVT ⟨E.S, E.R⟩ t w = sizeVT ⟨E.S, E.R⟩ t v := by
  rw [emitted_marshal (E := ⟨E.S, E.R⟩) hG hE.env.schema strict hf (by rw [Bool.or_eq_true]; exact .inr (members_weaken (by simp) (by simp) _ _ _ hv)) K hK] at hm
  obtain ⟨w, -, -, h1, h2, -, -, -, -, h3⟩ := round_trip_pooled_partial hE.env hE.copy hE.bool hE.runtime hE.pools hR hN hP hk hf hv hr hm hb hB
  obtain ⟨h4, h5⟩ := emitted_unmarshal (G := G) ⟨hE.env, hG, by rw [ha, hE.copy]⟩ hf (by unfold Arch.Fits at hb ⊢; omega)
    (blank_typed hE.env.schema _ t m (Nat.le_refl _) hB) hn hfuel
  rw [h1] at h4 h5
  refine ⟨w, ?_, h2, h3⟩
  rcases h5 with h5 | ⟨x, y, -, h5⟩
  · exact Prod.ext h4 h5
  · cases h5

end

/-! ## The hypotheses can be met -/

theorem nenv_pool : PoolEnv nenv := ⟨nenv_ok, rfl, .inl rfl, fun _ _ _ h => (nomatch h), fun _ t _ => blank_zero nodes_ok t⟩

theorem again_blank : Blank nodes 0 again :=
  from_pool_blank (E := nenv) nodes_ok nodes_local (.inr rfl) (fun _ _ _ h => (nomatch h)) nodes_history (.inl (by decide))

/-- Records for a pooled node: a byte field twice, a message, an element of a list. -/
def nodeRecs : List Rec := [⟨2, .len [5], [18, 1, 5]⟩, ⟨3, .len [], [26, 0]⟩, ⟨2, .len [6], [18, 1, 6]⟩, ⟨1, .len [], [10, 0]⟩]
/-- In another order. -/
def nodeRecs' : List Rec := [⟨1, .len [], [10, 0]⟩, ⟨2, .len [5], [18, 1, 5]⟩, ⟨2, .len [6], [18, 1, 6]⟩, ⟨3, .len [], [26, 0]⟩]

theorem nodeRecs_records : Records nodeRecs [18, 1, 5, 26, 0, 18, 1, 6, 10, 0] :=
  .cons (.len 2 [18] [1] [5] (by decide) (one_byte 18 (by decide)) (one_byte 1 (by decide)))
    (.cons (.len 3 [26] [0] [] (by decide) (one_byte 26 (by decide)) (one_byte 0 (by decide)))
      (.cons (.len 2 [18] [1] [6] (by decide) (one_byte 18 (by decide)) (one_byte 1 (by decide)))
        (.cons (.len 1 [10] [0] [] (by decide) (one_byte 10 (by decide)) (one_byte 0 (by decide))) .nil)))

theorem nodeRecs'_records : Records nodeRecs' [10, 0, 18, 1, 5, 18, 1, 6, 26, 0] :=
  .cons (.len 1 [10] [0] [] (by decide) (one_byte 10 (by decide)) (one_byte 0 (by decide)))
    (.cons (.len 2 [18] [1] [5] (by decide) (one_byte 18 (by decide)) (one_byte 1 (by decide)))
      (.cons (.len 2 [18] [1] [6] (by decide) (one_byte 18 (by decide)) (one_byte 1 (by decide)))
        (.cons (.len 3 [26] [0] [] (by decide) (one_byte 26 (by decide)) (one_byte 0 (by decide))) .nil)))

theorem node_empty : subRel (unpool nodes) structural (DecodesN (unpool nodes) structural 1) 0 [] (zeroMsg (unpool nodes) 0) (zeroMsg (unpool nodes) 0) := by
  show DecodesN (unpool nodes) structural 1 0 [] _ _
  exact ⟨[], .nil, .nil, by intro f hf hc; revert f; decide⟩

theorem nodeRecs_merge : ∃ m', Merges (unpool nodes) structural 0 nodeRecs (zeroMsg nodes 0) m' :=
  ⟨_, 1, .cons (.scalar (f := { num := 2, slot := 1, kind := .bytes }) (by decide) rfl (by decide) rfl)
    (.cons (.message (f := { num := 3, slot := 2, kind := .message, presence := true, msg := 0 }) (by decide) rfl (by decide) rfl
      (by rw [if_pos (by decide)]; exact node_empty))
      (.cons (.scalar (f := { num := 2, slot := 1, kind := .bytes }) (by decide) rfl (by decide) rfl)
        (.cons (.elementMessage (f := { num := 1, slot := 0, kind := .message, card := .repeated, msg := 0 }) (by decide) rfl rfl rfl node_empty) .nil)))⟩

theorem nodeRecs_order : SameOrder (nodes.msg 0) nodeRecs nodeRecs' := by
  intro c
  rcases c with _ | _ | _ | _ | n
  · rfl
  · rfl
  · rfl
  · rfl
  · simp [nodeRecs, nodeRecs', destination, nodes, Schema.msg]

example : scalarValue .bytes (.len [6]) = some (get (unmarshalVT nenv 0 [18, 1, 5, 26, 0, 18, 1, 6, 10, 0] again).1 { num := 2, slot := 1, kind := .bytes }) := by
  obtain ⟨m', h⟩ := nodeRecs_merge
  exact last_wins_pooled nenv_pool (by decide) (m0 := zeroMsg nodes 0) (by decide) again_blank (by decide) nodeRecs_records h (by decide) rfl (by decide) (by decide)
    (f := { num := 2, slot := 1, kind := .bytes }) (rs1 := [⟨2, .len [5], [18, 1, 5]⟩, ⟨3, .len [], [26, 0]⟩]) (r := ⟨2, .len [6], [18, 1, 6]⟩) rfl rfl (by decide)

example := nodeRecs_merge.imp fun _ h => lists_append_pooled nenv_pool (by decide) (m0 := zeroMsg nodes 0) (by decide) again_blank (by decide) nodeRecs_records h
  (f := { num := 1, slot := 0, kind := .message, card := .repeated, msg := 0 }) (by decide) rfl rfl

example := nodeRecs_merge.imp fun _ h => messages_merge_pooled nenv_pool (by decide) (m0 := zeroMsg nodes 0) (by decide) again_blank (by decide) nodeRecs_records h
  (f := { num := 3, slot := 2, kind := .message, presence := true, msg := 0 }) (by decide) rfl (by decide) rfl (by decide) (by decide)

example := nodeRecs_merge.imp fun _ h => unmarshal_order_pooled_same_partial nenv_pool (by decide) structural_ok structural_enc nodes_bytes (by decide) (by decide)
  (m := again) (m0 := zeroMsg nodes 0) (by decide) (by decide) again_blank nodeRecs_records nodeRecs'_records nodeRecs_order h rfl rfl

example : ∃ b w, Go.runMarshal (EmitDemo.genU nodes).toGenCfg ⟨nenv.S, nenv.R⟩ true 20 0 tree = .ok (some b) ∧
    GoU.methodN (EmitDemo.genU nodes) nenv (b.length + 11) (b.length + 1) 0 0 b again = (w, .ok ()) ∧ sizeVT ⟨nenv.S, nenv.R⟩ 0 w = sizeVT ⟨nenv.S, nenv.R⟩ 0 tree := by
  obtain ⟨b, h1, h2⟩ := writes (S := nenv.S) (R := nenv.R) (t := 0) (v := tree) true nodes_ok structural_enc (fun _ _ => rfl) (by decide) (by decide) (by decide) (by decide)
  rw [← emitted_marshal (G := (EmitDemo.genU nodes).toGenCfg) (E := ⟨nenv.S, nenv.R⟩) (EmitDemo.genU_ok _) nodes_ok true (by decide) (by decide) 20 (by decide)] at h1
  obtain ⟨w, h3, -, h4⟩ := emitted_round_trip_pooled_partial nenv_pool (t := 0) (by decide) (EmitDemo.genU_ok _) rfl structural_ok structural_enc structural_perm nodes_bytes
    (by decide) tree_restorable (K := 20) (by decide) h1 h2 (Nat.lt_succ_self _) (Nat.le_refl _) again_blank
  exact ⟨b, w, h1, h3, h4⟩

/-- The sample schema with a pool for its first message. -/
def schemaP : Schema := Demo.schema3.modify 0 fun d => { d with pooled := true }

theorem noNaNN_unpool {S : Schema} : ∀ n t v, NoNaNN (unpool S) n t v = NoNaNN S n t v
  | 0, _, _ => rfl
  | n + 1, t, v => by
    have ih : NoNaNN (unpool S) n = NoNaNN S n := funext fun t => funext fun v => noNaNN_unpool n t v
    unfold NoNaNN
    cases v <;> simp only [unpool_msg, ih]

theorem noNaN_unpool {S : Schema} {t : Nat} {v : Val} : NoNaN (unpool S) t v ↔ NoNaN S t v := by
  unfold NoNaN
  simp only [noNaNN_unpool]

/-- With a pool for its first message. -/
def spool : UEnv := { S := schemaP, R := opaqueRuntime fun _ => false, A := .b64, alloc := fun _ t => zeroMsg schemaP t }

theorem poolP_ok : schemaOK schemaP = true := by decide

theorem spool_pool : PoolEnv spool :=
  ⟨⟨poolP_ok, .inr rfl, fun _ t => zeroMsg_typed poolP_ok t, fun _ _ _ h => (nomatch h), fun _ _ _ h => (nomatch h), .inl rfl⟩, rfl, .inl rfl, fun _ _ _ h => (nomatch h),
    fun _ t _ => blank_zero poolP_ok t⟩

theorem poolP_bytes : noKeptBytes schemaP := by
  intro t
  match t with
  | 0 | 1 | 2 | 3 | 4 | 5 => decide
  | t + 6 => intro h; cases h

example : ∃ b c x y, marshalVT ⟨spool.S, spool.R⟩ true 0 (pairs [(.num 1, Demo.small 2), (.num 3, Demo.small 4)]) = .ok (some b) ∧
    marshalVT ⟨spool.S, spool.R⟩ true 0 (pairs [(.num 3, Demo.small 4), (.num 1, Demo.small 2)]) = .ok (some c) ∧ unmarshalVT spool 0 b (zeroMsg spool.S 0) = (x, .ok ()) ∧
    unmarshalVT spool 0 c (zeroMsg spool.S 0) = (y, .ok ()) ∧ equalVT ⟨spool.S, spool.R, fun _ => false⟩ 0 x y = .ok true := by
  obtain ⟨b, h1, h2⟩ := writes (S := spool.S) (R := spool.R) (t := 0) (v := pairs [(.num 1, Demo.small 2), (.num 3, Demo.small 4)]) true poolP_ok (opaque_enc _)
    (fun _ _ => rfl) (by decide) (by decide) (by decide) (by decide)
  obtain ⟨c, h3, h4⟩ := writes (S := spool.S) (R := spool.R) (t := 0) (v := pairs [(.num 3, Demo.small 4), (.num 1, Demo.small 2)]) true poolP_ok (opaque_enc _)
    (fun _ _ => rfl) (by decide) (by decide) (by decide) (by decide)
  obtain ⟨x, y, h5, h6, h7⟩ := decode_shuffle_pooled_partial spool_pool (t := 0) (by decide) (opaque_ok _) (opaque_enc _) (opaque_shuffle _) poolP_bytes swapped (by decide)
    ((noNaN_unpool (S := schemaP)).1 pairs_noNaN) ((restorable_unpool schemaP _).1 pairs_restorable) (fun t v w _ h => opaque_restored_shuffle t v w poolP_ok h) h1 h3 h2 h4 (blank_zero poolP_ok 0)
    (blank_zero poolP_ok 0)
  exact ⟨b, c, x, y, h1, h3, h5, h6, h7 _⟩

end Vtp.Props
