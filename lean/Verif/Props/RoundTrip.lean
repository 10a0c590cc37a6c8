import Verif.Lemmas.RoundTripPool
import Verif.Lemmas.ShuffleEncode
import Verif.Props.Pool
import Verif.Props.Fields
/-!
# Writing and reading back: C15, C23, C24

`Restorable S R t v`: the unknown fields kept in `v` are well-formed records of fields the type does not have, `v` holds no group, nil
messages in lists, maps and oneofs are of types without required fields, and the runtime reads back the messages left to it. Each of these
is needed: see the end of the file.
-/

namespace Vtp.Props
open Spec

section
variable {E : UEnv} {t : Nat} {v : Val} {strict : Bool} {b : Bytes}

/-- What `MarshalVT` writes is a valid encoding of `back E.S E.R t v`. -/
theorem marshal_decodes (hS : schemaOK E.S = true) (hA : E.A.Valid) (hN : RuntimeEnc E.R) (hf : (E.S.msg t).foreign = false) (hv : wt E.S t v = true)
    (hr : Restorable E.S E.R t v) (hm : marshalVT ⟨E.S, E.R⟩ strict t v = .ok (some b)) (hb : E.A.Fits (b.length + 1)) :
    Decodes E.S E.R t b (zeroMsg E.S t) (back E.S E.R t v) := by
  have he : encode ⟨E.S, E.R⟩ strict t v = some b := ((marshal_encodes (E := ⟨E.S, E.R⟩) strict hS hN hv hf).1 b).1 hm
  have hl : b.length < 2 ^ 64 := by
    unfold Arch.Fits at hb
    rcases hA with h | h <;> rw [h] at hb <;> omega
  exact ⟨v.depth + 1, encode_back (E := ⟨E.S, E.R⟩) hS strict v.depth t v b (Nat.le_refl _) hf he hl hv (hr _)⟩

/-- C23. What `MarshalVT` wrote is accepted by `UnmarshalVT` into a new message, and the message read back is the one written: bit by bit
`back E.S E.R t v`, `EqualVT` to it in both directions unless there is a NaN, with the same unknown fields. Both field orders. Missing:
messages that are not `Restorable`, for which this is wrong, and pooled schemas, for which see `round_trip_pooled_partial`. -/
theorem round_trip_partial (hE : PlainEnv E) (hR : RuntimeEqual E.R) (hN : RuntimeEnc E.R) (hf : (E.S.msg t).foreign = false) (hv : wt E.S t v = true)
    (hr : Restorable E.S E.R t v) (hm : marshalVT ⟨E.S, E.R⟩ strict t v = .ok (some b)) (hb : E.A.Fits (b.length + 1)) :
    ∃ w, unmarshalVT E t b (zeroMsg E.S t) = (w, .ok ()) ∧ w = back E.S E.R t v ∧
      (NoNaN E.S t v → ∀ p, equalVT ⟨E.S, E.R, p⟩ t v w = .ok true ∧ equalVT ⟨E.S, E.R, p⟩ t w v = .ok true) ∧
      ((E.S.msg t).keepUnknown = true → unknownOf w = unknownOf v) := by
  have hS := hE.env.schema
  have hz := zeroMsg_typed hS t
  have h1 := unmarshal_decodes_partial hE hf hb hz (marshal_decodes hS hE.env.arch hN hf hv hr hm hb)
  have hw := (unmarshal_returns_partial hE.env hf hz (b := b) (by unfold Arch.Fits at *; omega)).2
  rw [h1] at hw
  refine ⟨_, h1, rfl, fun hn p => ?_, fun hk => ?_⟩
  · have hs := (back_same hS hR v.depth t v (Nat.le_refl _) hf hv (hr _) (hn _)).1
    have hv' : wtM E.S .typedNil t v = true := members_weaken (by simp) (by simp) _ _ _ hv
    have hw' : wtM E.S .typedNil t (back E.S E.R t v) = true := members_weaken (by simp) (by simp) _ _ _ hw
    exact ⟨equal_of_same (C := ⟨E.S, E.R, p⟩) hS hR hf (.inr hv') (.inr hw') hs,
      equal_of_same (C := ⟨E.S, E.R, p⟩) hS hR hf (.inr hw') (.inr hv') (same_symm hR.symm hs)⟩
  · obtain ⟨s, u, e, rfl⟩ := wtM_isMsg hv
    simp [back, Val.depth, Nat.add_comm 1, backN, unknownOf, hk]

/-- C24. Marshalling what was read back gives what marshalling the original gives for some iteration order of its maps: the same bytes up to
the order of map entries, so as many; and `SizeVT` agrees. -/
theorem remarshal_partial (hE : PlainEnv E) (hR : RuntimeEqual E.R) (hN : RuntimeEnc E.R) (hP : RuntimePerm E.R) (hf : (E.S.msg t).foreign = false)
    (hv : wt E.S t v = true) (hr : Restorable E.S E.R t v) (hm : marshalVT ⟨E.S, E.R⟩ strict t v = .ok (some b)) (hb : E.A.Fits (b.length + 1)) :
    ∃ w v' c, unmarshalVT E t b (zeroMsg E.S t) = (w, .ok ()) ∧ Shuffle v v' ∧ marshalVT ⟨E.S, E.R⟩ strict t w = .ok (some c) ∧
      marshalVT ⟨E.S, E.R⟩ strict t v' = .ok (some c) ∧ b.Perm c ∧ sizeVT ⟨E.S, E.R⟩ t w = sizeVT ⟨E.S, E.R⟩ t v := by
  have hS := hE.env.schema
  obtain ⟨w, h1, rfl, -, -⟩ := round_trip_partial hE hR hN hf hv hr hm hb
  have hw := (unmarshal_returns_partial hE.env hf (zeroMsg_typed hS t) (b := b) (by unfold Arch.Fits at *; omega)).2
  rw [h1] at hw
  have hw' : wt E.S t (back E.S E.R t v) = true := members_weaken (by simp) (by simp) _ _ _ hw
  obtain ⟨⟨v', h2, h3⟩, -⟩ := back_again (E := ⟨E.S, E.R⟩) (strict := strict) hS hR v.depth t v (Nat.le_refl _) hf hv (hr _)
  have hv' : wt E.S t v' = true := shuffle_wtM h2 hv
  have he : encode ⟨E.S, E.R⟩ strict t v = some b := ((marshal_encodes (E := ⟨E.S, E.R⟩) strict hS hN hv hf).1 b).1 hm
  have h4 := encode_shuffle (E := ⟨E.S, E.R⟩) (t := t) strict hP h2
  rw [he] at h4
  generalize hc : encode ⟨E.S, E.R⟩ strict t v' = c at h4
  cases h4 with
  | both hp =>
    rename_i c
    rw [hc] at h3
    have m1 := ((marshal_encodes (E := ⟨E.S, E.R⟩) strict hS hN hw' hf).1 c).2 h3
    refine ⟨_, v', c, h1, h2, m1, ((marshal_encodes (E := ⟨E.S, E.R⟩) strict hS hN hv' hf).1 c).2 hc, hp, ?_⟩
    rw [← size_eq_length (E := ⟨E.S, E.R⟩) strict hS hN hw' hf m1, ← size_eq_length (E := ⟨E.S, E.R⟩) strict hS hN hv hf hm, hp.length_eq]

/-- C23, C24. With pools that hold empty messages, into an empty message from the pool: accepted, and the result is `EqualVT` to the message
written, marshals to the same bytes up to map order and has the same size. Missing as above, and `optional bytes` fields of pooled messages,
which a reset leaves present (`reset_keeps_bytes`). -/
theorem round_trip_pooled_partial (hE : DecodeEnv E) (hc : E.aliasing = false) (hbool : E.A.bits = 64 ∨ noBools E.S)
    (hp : ∀ t b v, E.R.unmarshalPartial t b = some v → Clean E.S t v) (ha : ∀ off t, (E.S.msg t).pooled = true → Blank E.S t (E.alloc off t))
    (hR : RuntimeEqual E.R) (hN : RuntimeEnc E.R) (hP : RuntimePerm E.R) (hk : noKeptBytes E.S) (hf : (E.S.msg t).foreign = false) (hv : wt E.S t v = true)
    (hr : Restorable E.S E.R t v) (hm : marshalVT ⟨E.S, E.R⟩ strict t v = .ok (some b)) (hb : E.A.Fits (b.length + 1)) {m : Val} (hB : Blank E.S t m) :
    ∃ w v' c, unmarshalVT E t b m = (w, .ok ()) ∧
      (NoNaN E.S t v → ∀ p, equalVT ⟨E.S, E.R, p⟩ t v w = .ok true ∧ equalVT ⟨E.S, E.R, p⟩ t w v = .ok true) ∧
      Shuffle v v' ∧ marshalVT ⟨E.S, E.R⟩ strict t w = .ok (some c) ∧ marshalVT ⟨E.S, E.R⟩ strict t v' = .ok (some c) ∧ b.Perm c ∧
      sizeVT ⟨E.S, E.R⟩ t w = sizeVT ⟨E.S, E.R⟩ t v := by
  have hS := hE.schema
  have hz := zeroMsg_typed hS t
  have he : encode ⟨E.S, E.R⟩ strict t v = some b := ((marshal_encodes (E := ⟨E.S, E.R⟩) strict hS hN hv hf).1 b).1 hm
  have hl : b.length < 2 ^ 64 := by
    unfold Arch.Fits at hb
    rcases hE.arch with h | h <;> rw [h] at hb <;> omega
  have hd : Decodes (unpool E.S) E.R t b (zeroMsg E.S t) (back E.S E.R t v) := by
    refine ⟨v.depth + 1, ?_⟩
    have := encode_back (E := ⟨unpool E.S, E.R⟩) (unpool_ok hS) strict v.depth t v b (Nat.le_refl _) (by rw [unpool_msg]; exact hf)
      (by rw [encode_unpool]; exact he) hl (by rw [unpool_typed]; exact hv) ((restorable_unpool E.S E.R).2 hr _)
    rwa [zeroMsg_unpool, backN_unpool] at this
  obtain ⟨w, h1, h2⟩ := pooled_decodes_partial hE hc hbool hp ha hf hb hz hB hd
  have hw := (unmarshal_returns_partial hE hf (blank_typed hS _ t m (Nat.le_refl _) hB) (b := b) (by unfold Arch.Fits at *; omega)).2
  rw [h1] at hw
  have hw' : wt E.S t w = true := members_weaken (by simp) (by simp) _ _ _ hw
  have hal := alike_of_reuse hR.refl hk hf h2
  obtain ⟨⟨v', h3, h4⟩, -⟩ := back_again (E := ⟨E.S, E.R⟩) (strict := strict) hS hR v.depth t v (Nat.le_refl _) hf hv (hr _)
  have hv' : wt E.S t v' = true := shuffle_wtM h3 hv
  have h5 := encode_shuffle (E := ⟨E.S, E.R⟩) (t := t) strict hP h3
  rw [he] at h5
  generalize hc : encode ⟨E.S, E.R⟩ strict t v' = c at h5
  cases h5 with
  | both hp =>
    rename_i c
    rw [hc] at h4
    have h6 : encode ⟨E.S, E.R⟩ strict t w = some c := (encode_alike (E := ⟨E.S, E.R⟩) hS strict hal).trans h4
    have m1 := ((marshal_encodes (E := ⟨E.S, E.R⟩) strict hS hN hw' hf).1 c).2 h6
    refine ⟨w, v', c, h1, fun hn p => ?_, h3, m1, ((marshal_encodes (E := ⟨E.S, E.R⟩) strict hS hN hv' hf).1 c).2 hc, hp, ?_⟩
    · have hs : Same E.S E.R t v (back E.S E.R t v) := (back_same hS hR v.depth t v (Nat.le_refl _) hf hv (hr _) (hn _)).1
      have hbb := same_trans hR.trans (same_symm hR.symm hs) hs
      have hs' := same_trans hR.trans hs (same_of_alike hS (alike_symm hR.symm hal) hbb)
      have hv'' : wtM E.S .typedNil t v = true := members_weaken (by simp) (by simp) _ _ _ hv
      have hw'' : wtM E.S .typedNil t w = true := members_weaken (by simp) (by simp) _ _ _ hw
      exact ⟨equal_of_same (C := ⟨E.S, E.R, p⟩) hS hR hf (.inr hv'') (.inr hw'') hs',
        equal_of_same (C := ⟨E.S, E.R, p⟩) hS hR hf (.inr hw'') (.inr hv'') (same_symm hR.symm hs')⟩
    · rw [← size_eq_length (E := ⟨E.S, E.R⟩) strict hS hN hw' hf m1, ← size_eq_length (E := ⟨E.S, E.R⟩) strict hS hN hv hf hm, hp.length_eq]

/-! ## C15 -/

/-- C15. Under another map iteration order, at any depth, `MarshalVT` succeeds or fails as before and writes the same bytes in another order. -/
theorem marshal_shuffle {E : Env} (strict : Bool) (hS : schemaOK E.S = true) (hN : RuntimeEnc E.R) (hP : RuntimePerm E.R) {t : Nat} (hf : (E.S.msg t).foreign = false)
    {v w : Val} (hs : Shuffle v w) (hv : wt E.S t v = true) :
    ((marshalVT E strict t v).Fails ↔ (marshalVT E strict t w).Fails) ∧
    ∀ b, marshalVT E strict t v = .ok (some b) → ∃ c, marshalVT E strict t w = .ok (some c) ∧ b.Perm c := by
  have hw : wt E.S t w = true := shuffle_wtM hs hv
  have h := encode_shuffle (t := t) strict hP hs
  obtain ⟨v1, v2, -⟩ := marshal_encodes strict hS hN hv hf
  obtain ⟨w1, w2, -⟩ := marshal_encodes strict hS hN hw hf
  refine ⟨?_, fun b hb => ?_⟩
  · rw [v2, w2]
    generalize encode E strict t v = x at h
    generalize encode E strict t w = y at h
    cases h <;> simp
  · rw [v1] at hb
    rw [hb] at h
    generalize hy : encode E strict t w = y at h
    cases h with
    | both hp => exact ⟨_, (w1 _).2 hy, hp⟩

/-- C15. Whatever order the maps were iterated in, decoding gives `EqualVT` messages. -/
theorem decode_shuffle_partial (hE : PlainEnv E) (hR : RuntimeEqual E.R) (hN : RuntimeEnc E.R) (hQ : RuntimeEqualShuffle E.R)
    (hf : (E.S.msg t).foreign = false) {w : Val} (hs : Shuffle v w) (hv : wt E.S t v = true) (hn : NoNaN E.S t v) (hrv : Restorable E.S E.R t v)
    (hQ' : ∀ t v w, Shuffle v w → Restored E.S E.R t v → Restored E.S E.R t w) {c : Bytes} (hm : marshalVT ⟨E.S, E.R⟩ strict t v = .ok (some b)) (hm' : marshalVT ⟨E.S, E.R⟩ strict t w = .ok (some c))
    (hb : E.A.Fits (b.length + 1)) (hc : E.A.Fits (c.length + 1)) :
    ∃ x y, unmarshalVT E t b (zeroMsg E.S t) = (x, .ok ()) ∧ unmarshalVT E t c (zeroMsg E.S t) = (y, .ok ()) ∧ equalVT ⟨E.S, E.R, fun _ => false⟩ t x y = .ok true := by
  have hS := hE.env.schema
  have hz := zeroMsg_typed hS t
  have hw : wt E.S t w = true := shuffle_wtM hs hv
  have hrw : Restorable E.S E.R t w := restorable_shuffle hQ' hs hrv
  have hnw : NoNaN E.S t w := noNaN_shuffle hs hn
  obtain ⟨x, h1, rfl, -, -⟩ := round_trip_partial hE hR hN hf hv hrv hm hb
  obtain ⟨y, h2, rfl, -, -⟩ := round_trip_partial hE hR hN hf hw hrw hm' hc
  refine ⟨_, _, h1, h2, ?_⟩
  have t1 := (unmarshal_returns_partial hE.env hf hz (b := b) (by unfold Arch.Fits at *; omega)).2
  have t2 := (unmarshal_returns_partial hE.env hf hz (b := c) (by unfold Arch.Fits at *; omega)).2
  rw [h1] at t1
  rw [h2] at t2
  have s1 := (back_same hS hR v.depth t v (Nat.le_refl _) hf hv (hrv _) (hn _)).1
  have s2 := (back_same hS hR w.depth t w (Nat.le_refl _) hf hw (hrw _) (hnw _)).1
  have s3 : Same E.S E.R t v w := same_shuffle hS hR hQ hf hs (members_weaken (by simp) (by simp) _ _ _ hv) hn
  exact equal_of_same (C := ⟨E.S, E.R, fun _ => false⟩) hS hR hf (.inr (members_weaken (by simp) (by simp) _ _ _ t1)) (.inr (members_weaken (by simp) (by simp) _ _ _ t2))
    (same_trans hR.trans (same_trans hR.trans (same_symm hR.symm s1) s3) s2)

end

/-! ## The hypotheses can be met -/

/-- 64-bit, the example schema without pools. -/
def renv : UEnv := { Demo.penv with R := structural }

theorem renv_ok : PlainEnv renv :=
  ⟨⟨Demo.schema3_ok, .inr rfl, fun _ t => zeroMsg_typed Demo.schema3_ok t, fun _ _ _ h => (nomatch h), fun _ _ _ h => (nomatch h), .inl rfl⟩, rfl, Demo.penv_unpooled, .inl rfl⟩

theorem structural_perm : RuntimePerm structural := fun _ _ _ _ => .both (.refl _)

theorem unknown_none (d : MsgDesc) : UnknownTo d [] := ⟨[], .nil, by simp⟩

theorem unknown_99 (d : MsgDesc) (h : ∀ f ∈ d.fields, f.num ≠ 99) (h' : d.extRanges = []) : UnknownTo d [0x98, 0x06, 0x01] := by
  refine ⟨[⟨99, .varint 1, [0x98, 0x06, 0x01]⟩], ?_, ?_⟩
  · have h99 : IsVarint (99 * 8 + 0) [152, 6] := ⟨.more _ _ (by decide) (.last _ (by decide)), by decide, by decide, by decide⟩
    exact .cons (.varint 99 1 [152, 6] _ (by decide) h99 (one_byte 1 (by decide))) .nil
  · simp only [List.mem_singleton, forall_eq, h', List.not_mem_nil, false_implies, implies_true, and_true]
    exact h

theorem big_restorable {R : Runtime} : Restorable Demo.schema3 R 0 Demo.big := by
  intro n
  have hs : ∀ m a b, b = .nil ∨ (∃ c, b = .str c) → RestorableN Demo.schema3 R m 1 (.msg [.num a, b] [] []) := by
    intro m a b hb
    cases m with
    | zero => trivial
    | succ m =>
      refine ⟨fun _ => unknown_none _, fun f hf => ?_⟩
      rcases hb with rfl | ⟨c, rfl⟩ <;> fin_cases hf <;> simp [slotOf, RestorableElem]
  cases n with
  | zero => trivial
  | succ n =>
    refine ⟨fun _ => unknown_99 _ (by decide) rfl, fun f hf => ?_⟩
    have hforeign : (Demo.schema3.msg 1).foreign = false := rfl
    fin_cases hf <;> simp [slotOf, RestorableElem, hforeign, Demo.small, hs]

theorem big3_noNaN : NoNaN Demo.schema3 0 Demo.big := by
  intro n
  rcases n with _ | _ | n
  · trivial
  · intro _ f hf
    fin_cases hf <;> simp [slotOf, NoNaNElem, NoNaNN, numValue, ieee, Val.bits, Demo.small]
  · intro _ f hf
    fin_cases hf <;> simp [slotOf, NoNaNElem, NoNaNN, numValue, ieee, Val.bits, Demo.small, Demo.schema3, Demo.schema, Schema.msg]

example : ∃ b w v' c, marshalVT ⟨renv.S, renv.R⟩ true 0 Demo.big = .ok (some b) ∧ unmarshalVT renv 0 b (zeroMsg renv.S 0) = (w, .ok ()) ∧
    equalVT ⟨renv.S, renv.R, fun _ => false⟩ 0 Demo.big w = .ok true ∧ unknownOf w = [0x98, 0x06, 0x01] ∧ Shuffle Demo.big v' ∧
    marshalVT ⟨renv.S, renv.R⟩ true 0 w = .ok (some c) ∧ marshalVT ⟨renv.S, renv.R⟩ true 0 v' = .ok (some c) := by
  have hw : wt renv.S 0 Demo.big = true := by decide
  obtain ⟨b, hb⟩ := (marshal_fails_iff (E := ⟨renv.S, renv.R⟩) true Demo.schema3_ok structural_enc (fun _ _ => rfl) hw (by decide)).2 (by decide)
  have hl : renv.A.Fits (b.length + 1) := by
    rw [size_eq_length (E := ⟨renv.S, renv.R⟩) true Demo.schema3_ok structural_enc hw (by decide) hb]
    decide
  obtain ⟨w, h1, -, h3, h4⟩ := round_trip_partial renv_ok structural_ok structural_enc (t := 0) (by decide) hw big_restorable hb hl
  obtain ⟨w', v', c, h1', a1, a2, a3, -, -⟩ := remarshal_partial renv_ok structural_ok structural_enc structural_perm (t := 0) (by decide) hw big_restorable hb hl
  rw [h1] at h1'
  cases h1'
  exact ⟨b, w, v', c, hb, h1, (h3 big3_noNaN _).1, h4 rfl, a1, a2, a3⟩

/-- A runtime for types of which it knows no field: everything is kept as unknown bytes. `known` tells which types it can read. -/
def opaqueRuntime (known : Nat → Bool) : Runtime :=
  { Runtime.none with
    size := fun _ v => (unknownOf v).length
    marshal := fun _ v => some (unknownOf v)
    unmarshal := fun t b => if known t then some (.msg [] b []) else none
    equal := fun _ v w => v.isNil == w.isNil && unknownOf v == unknownOf w }

theorem shuffle_unknown {v w : Val} (h : Shuffle v w) : unknownOf v = unknownOf w := by
  induction h with
  | trans _ _ h1 h2 => exact h1.trans h2
  | _ => rfl

theorem opaque_enc (k) : RuntimeEnc (opaqueRuntime k) := ⟨fun _ _ _ h => by cases h; rfl, fun _ => rfl⟩
theorem opaque_ok (k) : RuntimeEqual (opaqueRuntime k) where
  refl := by simp [opaqueRuntime]
  symm := by
    intro t v w h
    simp only [opaqueRuntime, Bool.and_eq_true, beq_iff_eq] at *
    exact ⟨h.1.symm, h.2.symm⟩
  trans := by
    intro t u v w h1 h2
    simp only [opaqueRuntime, Bool.and_eq_true, beq_iff_eq] at *
    exact ⟨h1.1.trans h2.1, h1.2.trans h2.2⟩
  isNil := by
    intro t v w h
    simp only [opaqueRuntime, Bool.and_eq_true, beq_iff_eq] at h
    have := h.1
    cases v <;> cases w <;> simp_all [Val.isNil]
theorem opaque_perm (k) : RuntimePerm (opaqueRuntime k) := fun _ _ _ h => by
  simp only [opaqueRuntime, shuffle_unknown h]
  exact .both (.refl _)
theorem opaque_shuffle (k) : RuntimeEqualShuffle (opaqueRuntime k) := fun _ _ _ h => by
  simp [opaqueRuntime, shuffle_unknown h, shuffle_isNil h]

/-- It reads back what it wrote. -/
theorem opaque_restored {S : Schema} {k} {t : Nat} (hk : k t = true) (hS : schemaOK S = true) (v : Val) : Restored S (opaqueRuntime k) t v := by
  refine ⟨unknownOf v, .msg [] (unknownOf v) [], v, rfl, by simp [opaqueRuntime, hk], ?_, .refl _, rfl⟩
  unfold orEmpty
  split
  · subst v
    simp [opaqueRuntime, zeroMsg, Val.isNil, unknownOf]
  · cases v <;> simp_all [opaqueRuntime, Val.isNil, unknownOf]

theorem opaque_restored_shuffle {S : Schema} {k} (t : Nat) (v w : Val) (hS : schemaOK S = true) (h : Restored S (opaqueRuntime k) t v) :
    Restored S (opaqueRuntime k) t w := by
  obtain ⟨b, x, -, -, h1, -⟩ := h
  refine opaque_restored ?_ hS w
  by_contra hk
  simp [opaqueRuntime, hk] at h1

/-- A message holding a foreign one. -/
def fenv : UEnv := { foreignEnv with R := opaqueRuntime (fun t => decide (t ≠ 0)) }

theorem fenv_ok : PlainEnv fenv := by
  refine ⟨⟨by decide, .inr rfl, fun _ t => zeroMsg_typed (by decide) t, fun t b v h => ?_, fun _ _ _ h => (nomatch h), .inl rfl⟩, rfl, fun t => ?_, .inl rfl⟩
  · match t with
    | 0 => simp [fenv, opaqueRuntime] at h
    | 1 =>
      simp only [fenv, opaqueRuntime] at h
      cases h
      rfl
    | t + 2 =>
      simp only [fenv, opaqueRuntime] at h
      cases h
      rfl
  · match t with
    | 0 | 1 => rfl
    | t + 2 => rfl

def holder : Val := .msg [.msg [] [8, 1] []] [] []

theorem holder_restorable : Restorable fenv.S fenv.R 0 holder := by
  intro n
  cases n with
  | zero => trivial
  | succ n =>
    refine ⟨fun _ => unknown_none _, fun f hf => ?_⟩
    have hforeign : (fenv.S.msg 1).foreign = true := rfl
    have := opaque_restored (S := fenv.S) (k := fun t => decide (t ≠ 0)) (t := 1) (by decide) (by decide) (.msg [] [8, 1] [])
    fin_cases hf
    simp only [slotOf, List.getD_cons_zero, RestorableElem, hforeign, if_true, reduceCtorEq, if_false]
    exact this

example := round_trip_partial (strict := true) (b := [10, 2, 8, 1]) fenv_ok (opaque_ok _) (opaque_enc _) (t := 0) (v := holder) (by decide) (by decide) holder_restorable (by decide) (by decide)
example := remarshal_partial (strict := true) (b := [10, 2, 8, 1]) fenv_ok (opaque_ok _) (opaque_enc _) (opaque_perm _) (t := 0) (v := holder) (by decide) (by decide) holder_restorable (by decide) (by decide)

/-- Two entries of a map in the two orders. -/
def senv : UEnv := { Demo.penv with R := opaqueRuntime fun _ => false }

theorem senv_ok : PlainEnv senv :=
  ⟨⟨Demo.schema3_ok, .inr rfl, fun _ t => zeroMsg_typed Demo.schema3_ok t, fun _ _ _ h => (nomatch h), fun _ _ _ h => (nomatch h), .inl rfl⟩, rfl, Demo.penv_unpooled, .inl rfl⟩

def pairs (es : List (Key × Val)) : Val := .msg [.num 0, .str [], .nil, .nil, .map es, .nil, .nil, .nil, .nil, .nil, .num 0] [] []

theorem pairs_shuffle {es fs : List (Key × Val)} (h : es.Perm fs) : Shuffle (pairs es) (pairs fs) :=
  .slot (a := [.num 0, .str [], .nil, .nil]) (.perm h)

theorem pairs_restorable : Restorable senv.S senv.R 0 (pairs [(.num 1, Demo.small 2), (.num 3, Demo.small 4)]) := by
  intro n
  have hs : ∀ m a, RestorableN senv.S senv.R m 1 (.msg [.num a, .nil] [] []) := by
    intro m a
    cases m with
    | zero => trivial
    | succ m =>
      refine ⟨fun _ => unknown_none _, fun f hf => ?_⟩
      fin_cases hf <;> simp [slotOf, RestorableElem]
  cases n with
  | zero => trivial
  | succ n =>
    refine ⟨fun _ => unknown_none _, fun f hf => ?_⟩
    have hforeign : (senv.S.msg 1).foreign = false := rfl
    fin_cases hf <;> simp [pairs, slotOf, RestorableElem, hforeign, Demo.small, hs]

theorem pairs_noNaN : NoNaN senv.S 0 (pairs [(.num 1, Demo.small 2), (.num 3, Demo.small 4)]) := by
  intro n
  rcases n with _ | _ | n
  · trivial
  · intro _ f hf
    fin_cases hf <;> simp [pairs, slotOf, NoNaNElem, NoNaNN, numValue, ieee, Val.bits, Demo.small]
  · intro _ f hf
    fin_cases hf <;> simp [pairs, slotOf, NoNaNElem, NoNaNN, numValue, ieee, Val.bits, Demo.small, senv, Demo.penv, Demo.schema3, Demo.schema, Schema.msg]

theorem swapped : Shuffle (pairs [(.num 1, Demo.small 2), (.num 3, Demo.small 4)]) (pairs [(.num 3, Demo.small 4), (.num 1, Demo.small 2)]) :=
  pairs_shuffle (.swap (Key.num 3, Demo.small 4) (Key.num 1, Demo.small 2) [])

example := marshal_shuffle (E := ⟨senv.S, senv.R⟩) true Demo.schema3_ok (opaque_enc _) (opaque_perm _) (t := 0) (by decide) swapped (by decide)

/-- The message marshals, to few bytes. -/
theorem writes {S : Schema} {R : Runtime} {t : Nat} {v : Val} (strict : Bool) (hS : schemaOK S = true) (hN : RuntimeEnc R)
    (hT : ∀ t v, (R.marshal t v).isSome = true) (hv : wt S t v = true) (hf : (S.msg t).foreign = false) (h : missing S t v = false)
    (hl : sizeVT ⟨S, R⟩ t v < 100) : ∃ b, marshalVT ⟨S, R⟩ strict t v = .ok (some b) ∧ Arch.b64.Fits (b.length + 1) := by
  obtain ⟨b, hb⟩ := (marshal_fails_iff (E := ⟨S, R⟩) strict hS hN hT hv hf).2 h
  refine ⟨b, hb, ?_⟩
  rw [← size_eq_length (E := ⟨S, R⟩) strict hS hN hv hf hb] at hl
  have : Arch.b64.bits = 64 := rfl
  unfold Arch.Fits
  rw [this]
  omega

example : ∃ b c x y, marshalVT ⟨senv.S, senv.R⟩ true 0 (pairs [(.num 1, Demo.small 2), (.num 3, Demo.small 4)]) = .ok (some b) ∧
    marshalVT ⟨senv.S, senv.R⟩ true 0 (pairs [(.num 3, Demo.small 4), (.num 1, Demo.small 2)]) = .ok (some c) ∧ unmarshalVT senv 0 b (zeroMsg senv.S 0) = (x, .ok ()) ∧
    unmarshalVT senv 0 c (zeroMsg senv.S 0) = (y, .ok ()) ∧ equalVT ⟨senv.S, senv.R, fun _ => false⟩ 0 x y = .ok true := by
  obtain ⟨b, h1, h2⟩ := writes (S := senv.S) (R := senv.R) (t := 0) (v := pairs [(.num 1, Demo.small 2), (.num 3, Demo.small 4)]) true Demo.schema3_ok (opaque_enc _)
    (fun _ _ => rfl) (by decide) (by decide) (by decide) (by decide)
  obtain ⟨c, h3, h4⟩ := writes (S := senv.S) (R := senv.R) (t := 0) (v := pairs [(.num 3, Demo.small 4), (.num 1, Demo.small 2)]) true Demo.schema3_ok (opaque_enc _)
    (fun _ _ => rfl) (by decide) (by decide) (by decide) (by decide)
  obtain ⟨x, y, h⟩ := decode_shuffle_partial senv_ok (opaque_ok _) (opaque_enc _) (opaque_shuffle _) (t := 0) (by decide) swapped (by decide) pairs_noNaN pairs_restorable
    (fun t v w _ h => opaque_restored_shuffle t v w Demo.schema3_ok h) h1 h3 h2 h4
  exact ⟨b, c, x, y, h1, h3, h⟩

/-- A tree of pooled nodes with unknown fields. -/
def tree : Val := .msg [.list [.msg [.nil, .str [7], .nil, .wrap 5 (.num 3), .nil, .nil] [248, 1, 5] []] [], .str [8, 9], .nil,
  .nil, .list [leaf 4] [], .list [.str [65]] []] [] []

theorem unknown_31 : UnknownTo (nodes.msg 0) [248, 1, 5] := by
  refine ⟨[⟨31, .varint 5, [248, 1, 5]⟩], ?_, by decide⟩
  have h31 : IsVarint (31 * 8 + 0) [248, 1] := ⟨.more _ _ (by decide) (.last _ (by decide)), by decide, by decide, by decide⟩
  exact .cons (.varint 31 5 [248, 1] _ (by decide) h31 (one_byte 5 (by decide))) .nil

theorem tree_restorable : Restorable nenv.S nenv.R 0 tree := by
  intro n
  have f0 : (nenv.S.msg 0).foreign = false := rfl
  have f1 : (nenv.S.msg 1).foreign = false := rfl
  have hs : ∀ m, RestorableN nenv.S nenv.R m 0 (.msg [.nil, .str [7], .nil, .wrap 5 (.num 3), .nil, .nil] [248, 1, 5] []) := by
    intro m
    cases m with
    | zero => trivial
    | succ m =>
      refine ⟨fun _ => unknown_31, fun f hf => ?_⟩
      fin_cases hf <;> simp [slotOf, RestorableElem]
  have hl : ∀ m a, RestorableN nenv.S nenv.R m 1 (.msg [.num a] [] []) := by
    intro m a
    cases m with
    | zero => trivial
    | succ m =>
      refine ⟨fun _ => unknown_none _, fun f hf => ?_⟩
      fin_cases hf <;> simp [slotOf, RestorableElem]
  cases n with
  | zero => trivial
  | succ n =>
    refine ⟨fun _ => unknown_none _, fun f hf => ?_⟩
    fin_cases hf <;> simp [leaf, slotOf, RestorableElem, f0, f1, hl]
    exact hs n

example : ∃ b w, marshalVT ⟨nenv.S, nenv.R⟩ true 0 tree = .ok (some b) ∧ unmarshalVT nenv 0 b again = (w, .ok ()) := by
  obtain ⟨b, h1, h2⟩ := writes (S := nenv.S) (R := nenv.R) (t := 0) (v := tree) true nodes_ok structural_enc (fun _ _ => rfl) (by decide) (by decide) (by decide) (by decide)
  obtain ⟨w, _, _, h, _⟩ := round_trip_pooled_partial (E := nenv) nenv_ok rfl (.inl rfl) (fun _ _ _ h => (nomatch h)) (fun _ t _ => blank_zero nodes_ok t) structural_ok
    structural_enc structural_perm nodes_bytes (by decide) (by decide) tree_restorable h1 h2 (m := again)
    (from_pool_blank (E := nenv) nodes_ok nodes_local (.inr rfl) (fun _ _ _ h => (nomatch h)) nodes_history (.inl (by decide)))
  exact ⟨b, w, h1, h⟩

/-! ## Limits -/

/-- C23 fails for a nil message in a list if its type has required fields: it is written as an empty message, which is not read back. -/
theorem nil_element_not_restored : ∃ v b, wt renv.S 0 v = true ∧ marshalVT ⟨renv.S, renv.R⟩ false 0 v = .ok (some b) ∧
    (unmarshalVT renv 0 b (zeroMsg renv.S 0)).2.Fails :=
  ⟨.msg [.num 0, .str [], .nil, .nil, .nil, .nil, .nil, .list [.nil] [], .nil, .nil, .num 0] [] [], [74, 0], by decide, by decide, by decide⟩

/-- C23 fails for unknown fields that are not: if they hold a record of a field of the type, that field is set; if they are malformed,
nothing is read back. -/
theorem bad_unknown_not_restored :
    (marshalVT ⟨renv.S, renv.R⟩ false 1 (.msg [.num 7, .nil] [8, 9] []) = .ok (some [8, 7, 8, 9]) ∧
      unmarshalVT renv 1 [8, 7, 8, 9] (zeroMsg renv.S 1) = (.msg [.num 9, .nil] [] [], .ok ())) ∧
    (marshalVT ⟨renv.S, renv.R⟩ false 1 (.msg [.num 7, .nil] [0x98] []) = .ok (some [8, 7, 0x98]) ∧
      (unmarshalVT renv 1 [8, 7, 0x98] (zeroMsg renv.S 1)).2.Fails) := by decide

/-- C23, limit. The sign of a negative zero is lost in a field without presence (the message read back is `EqualVT`, but not the same). -/
theorem negative_zero_not_restored : ∃ v, wt renv.S 0 v = true ∧ marshalVT ⟨renv.S, renv.R⟩ false 0 v = .ok (some []) ∧
    (unmarshalVT renv 0 [] (zeroMsg renv.S 0)).1 ≠ v :=
  ⟨.msg [.num 0, .str [], .nil, .nil, .nil, .nil, .nil, .nil, .nil, .nil, .num 0x80000000] [] [], by decide⟩

end Vtp.Props
