import Verif.Lemmas.LooseBack
import Verif.Props.Pooled
import Verif.Props.Reject
/-!
# What was decoded can be written and read back: C97

Not only encodings: any input that `UnmarshalVT` accepts, or several one after the other, also ones that no encoder writes.
-/

namespace Vtp.Props
open Spec

section
variable {E : UEnv} {t : Nat} {m : Val}

theorem decoded_typed (hE : DecodeEnv E) (hf : (E.S.msg t).foreign = false) {m0 : Val} (h0 : wtM E.S .solid t m0 = true) (h : Decoded E t m0 m) : wtM E.S .solid t m = true := by
  induction h with
  | one h hb =>
    have := (unmarshal_returns_partial hE hf h0 hb).2
    rw [h] at this
    exact this
  | more _ h hb ih =>
    have := (unmarshal_returns_partial hE hf ih hb).2
    rw [h] at this
    exact this

theorem decoded_made (hE : PlainEnv E) (hx : ∀ t, (E.S.msg t).extRanges = []) (hf : (E.S.msg t).foreign = false) (h : Decoded E t (zeroMsg E.S t) m) : Made E.A.bits E.S E.R t m := by
  have hU : ∀ t b v, E.R.unmarshal t b = some v → ∃ s u e, v = .msg s u e := fun t b v h => wtM_isMsg (hE.env.unmarshal t b v h)
  induction h with
  | one h hb => exact unmarshalN_made hE.env.schema hE.unpooled hU hE.env.arch hx hb _ _ _ _ _ _ (Nat.le_refl _) hf (part_zero hE.env.schema t) h
  | more _ h hb ih => exact unmarshalN_made hE.env.schema hE.unpooled hU hE.env.arch hx hb _ _ _ _ _ _ (Nat.le_refl _) hf ih.part h

/-- What was written for a message whose unknown fields are records in the liberal sense. -/
theorem loose_back (hE : PlainEnv E) (hx : ∀ t, (E.S.msg t).extRanges = []) (hf : (E.S.msg t).foreign = false) (hv : wt E.S t m = true)
    (hr : ∀ n, RestorableG (LooseUnknown E.A.bits) E.S E.R n t m) {strict : Bool} {c : Bytes} (he : encode ⟨E.S, E.R⟩ strict t m = some c) (hb : E.A.Fits (c.length + 1)) :
    unmarshalVT E t c (zeroMsg E.S t) = (back E.S E.R t m, .ok ()) := by
  have hl : c.length < 2 ^ 64 := by
    unfold Arch.Fits at hb
    rcases hE.env.arch with h | h <;> rw [h] at hb <;> omega
  have h1 := encode_back_loose (E := ⟨E.S, E.R⟩) E.A.bits hE.env.schema strict m.depth t m c (Nat.le_refl _) hf he hl hv (hr _)
  have := unmarshalN_loose hE hx (m.depth + 1) (c.length + 1) hb 0 t c _ _ (by omega) (zeroMsg_typed hE.env.schema t) (by unfold subRel; rw [hf]; exact h1)
  unfold decodeMessage at this
  rw [hf] at this
  exact this

theorem decoded_restorable (hE : PlainEnv E) (hx : ∀ t, (E.S.msg t).extRanges = []) (hB : RuntimeBack E.S E.R) (hMaps : MapsOK E.S) (hf : (E.S.msg t).foreign = false)
    (h : Decoded E t (zeroMsg E.S t) m) (n : Nat) : RestorableG (LooseUnknown E.A.bits) E.S E.R n t m :=
  made_restorable hB hMaps n t m (decoded_made hE hx hf h n)

/-- C97. What was decoded can be written: whatever inputs `UnmarshalVT` accepted one after the other into a new message, `MarshalVT` and `MarshalVTStrict` of the
result succeed; no required field is missing, at any depth. `hM`: the runtime writes the messages that it decoded. -/
theorem accepted_written (hE : PlainEnv E) (hx : ∀ t, (E.S.msg t).extRanges = []) (hN : RuntimeEnc E.R)
    (hM : ∀ t b v, E.R.unmarshal t b = some v → E.R.marshal t v ≠ none) (hf : (E.S.msg t).foreign = false) (h : Decoded E t (zeroMsg E.S t) m) (strict : Bool) :
    ∃ c, marshalVT ⟨E.S, E.R⟩ strict t m = .ok (some c) := by
  have hS := hE.env.schema
  have hv : wt E.S t m = true := members_weaken (by simp) (by simp) _ _ _ (decoded_typed hE.env hf (zeroMsg_typed hS t) h)
  have he := made_encodes (E := ⟨E.S, E.R⟩) (strict := strict) hS hM (fun t => by simp [hN.nil]) m.depth t m (decoded_made hE hx hf h m.depth)
  cases hc : encode ⟨E.S, E.R⟩ strict t m with
  | none => exact absurd hc he
  | some c => exact ⟨c, ((marshal_encodes (E := ⟨E.S, E.R⟩) strict hS hN hv hf).1 c).2 hc⟩

/-- C97. And reads back: a new message decoded from what was written is `EqualVT` to it, in both directions, unless there is a NaN, and has the same unknown fields, also
those that are no well-formed records. Missing: types with extension ranges (`extension_not_written`), and messages with required fields in maps (`entry_not_read_back`), for
which it is wrong. -/
theorem accepted_read_back_partial (hE : PlainEnv E) (hx : ∀ t, (E.S.msg t).extRanges = []) (hR : RuntimeEqual E.R) (hN : RuntimeEnc E.R)
    (hB : RuntimeBack E.S E.R) (hMaps : MapsOK E.S) (hf : (E.S.msg t).foreign = false) (h : Decoded E t (zeroMsg E.S t) m)
    {strict : Bool} {c : Bytes} (hc : marshalVT ⟨E.S, E.R⟩ strict t m = .ok (some c)) (hb : E.A.Fits (c.length + 1)) :
    ∃ w, unmarshalVT E t c (zeroMsg E.S t) = (w, .ok ()) ∧ w = back E.S E.R t m ∧
      (NoNaN E.S t m → ∀ p, equalVT ⟨E.S, E.R, p⟩ t m w = .ok true ∧ equalVT ⟨E.S, E.R, p⟩ t w m = .ok true) ∧
      ((E.S.msg t).keepUnknown = true → unknownOf w = unknownOf m) := by
  have hS := hE.env.schema
  have hv : wt E.S t m = true := members_weaken (by simp) (by simp) _ _ _ (decoded_typed hE.env hf (zeroMsg_typed hS t) h)
  have hr := decoded_restorable hE hx hB hMaps hf h
  have he := ((marshal_encodes (E := ⟨E.S, E.R⟩) strict hS hN hv hf).1 c).1 hc
  have h1 := loose_back hE hx hf hv hr he hb
  have hw := (unmarshal_returns_partial hE.env hf (zeroMsg_typed hS t) (b := c) (by unfold Arch.Fits at *; omega)).2
  rw [h1] at hw
  refine ⟨_, h1, rfl, fun hn p => ?_, fun hk => ?_⟩
  · have hs := (back_same hS hR m.depth t m (Nat.le_refl _) hf hv (hr _) (hn _)).1
    have hv' : wtM E.S .typedNil t m = true := members_weaken (by simp) (by simp) _ _ _ hv
    have hw' : wtM E.S .typedNil t (back E.S E.R t m) = true := members_weaken (by simp) (by simp) _ _ _ hw
    exact ⟨equal_of_same (C := ⟨E.S, E.R, p⟩) hS hR hf (.inr hv') (.inr hw') hs,
      equal_of_same (C := ⟨E.S, E.R, p⟩) hS hR hf (.inr hw') (.inr hv') (same_symm hR.symm hs)⟩
  · obtain ⟨s, u, e, rfl⟩ := wtM_isMsg hv
    simp [back, Val.depth, Nat.add_comm 1, backN, unknownOf, hk]

/-- C97. Writing again changes nothing any more but the order of map entries: an accepted input, written, read and written again, gives the bytes of the first writing
for some iteration order of the maps, so as many. Missing as above. -/
theorem accepted_rewritten_partial (hE : PlainEnv E) (hx : ∀ t, (E.S.msg t).extRanges = []) (hR : RuntimeEqual E.R) (hN : RuntimeEnc E.R) (hP : RuntimePerm E.R)
    (hB : RuntimeBack E.S E.R) (hMaps : MapsOK E.S) (hf : (E.S.msg t).foreign = false) (h : Decoded E t (zeroMsg E.S t) m)
    {strict : Bool} {c : Bytes} (hc : marshalVT ⟨E.S, E.R⟩ strict t m = .ok (some c)) (hb : E.A.Fits (c.length + 1)) :
    ∃ w m' c', unmarshalVT E t c (zeroMsg E.S t) = (w, .ok ()) ∧ Shuffle m m' ∧ marshalVT ⟨E.S, E.R⟩ strict t w = .ok (some c') ∧
      marshalVT ⟨E.S, E.R⟩ strict t m' = .ok (some c') ∧ c.Perm c' ∧ sizeVT ⟨E.S, E.R⟩ t w = sizeVT ⟨E.S, E.R⟩ t m := by
  have hS := hE.env.schema
  have hv : wt E.S t m = true := members_weaken (by simp) (by simp) _ _ _ (decoded_typed hE.env hf (zeroMsg_typed hS t) h)
  obtain ⟨w, h1, rfl, -, -⟩ := accepted_read_back_partial hE hx hR hN hB hMaps hf h hc hb
  have hw := (unmarshal_returns_partial hE.env hf (zeroMsg_typed hS t) (b := c) (by unfold Arch.Fits at *; omega)).2
  rw [h1] at hw
  have hw' : wt E.S t (back E.S E.R t m) = true := members_weaken (by simp) (by simp) _ _ _ hw
  obtain ⟨⟨m', h2, h3⟩, -⟩ := back_again (E := ⟨E.S, E.R⟩) (strict := strict) hS hR m.depth t m (Nat.le_refl _) hf hv (decoded_restorable hE hx hB hMaps hf h _)
  have hv' : wt E.S t m' = true := shuffle_wtM h2 hv
  have he := ((marshal_encodes (E := ⟨E.S, E.R⟩) strict hS hN hv hf).1 c).1 hc
  have h4 := encode_shuffle (E := ⟨E.S, E.R⟩) (t := t) strict hP h2
  rw [he] at h4
  generalize hc' : encode ⟨E.S, E.R⟩ strict t m' = c' at h4
  cases h4 with
  | both hp =>
    rename_i c'
    rw [hc'] at h3
    have m1 := ((marshal_encodes (E := ⟨E.S, E.R⟩) strict hS hN hw' hf).1 c').2 h3
    refine ⟨_, m', c', h1, h2, m1, ((marshal_encodes (E := ⟨E.S, E.R⟩) strict hS hN hv' hf).1 c').2 hc', hp, ?_⟩
    rw [← size_eq_length (E := ⟨E.S, E.R⟩) strict hS hN hw' hf m1, ← size_eq_length (E := ⟨E.S, E.R⟩) strict hS hN hv hf hc, hp.length_eq]

/-- A message decoded with pools, and the one decoded without from the same inputs. -/
theorem decoded_unpooled (hE : PoolEnv E) (hf : (E.S.msg t).foreign = false) {m0 : Val} (h0 : Blank E.S t m0) (h : Decoded E t m0 m) :
    ∃ m', Decoded { E with S := unpool E.S } t (zeroMsg (unpool E.S) t) m' ∧ Reuse E.S t m m' := by
  have hS := hE.env.schema
  induction h with
  | @one b m h hb =>
    have h1 := pooled_sim hS hE.env.arch hE.runtime hE.pools hf hb h0
    rw [h] at h1
    refine ⟨_, .one (b := b) (Prod.ext rfl ?_) hb, ?_⟩
    · rw [zeroMsg_unpool]; exact h1.1.symm
    · rw [zeroMsg_unpool]; exact h1.2
  | @more b m m' _ h hb ih =>
    obtain ⟨m2, h2, h3⟩ := ih
    have h1 := pooled_sim hS hE.env.arch hE.runtime hE.pools hf hb h3
    rw [h] at h1
    exact ⟨_, .more h2 (Prod.ext rfl h1.1.symm) hb, h1.2⟩

/-- C97. With pools: whatever was accepted into an empty message from a pool can be written. -/
theorem accepted_written_pooled (hE : PoolEnv E) (hx : ∀ t, (E.S.msg t).extRanges = []) (hR : RuntimeEqual E.R) (hN : RuntimeEnc E.R)
    (hM : ∀ t b v, E.R.unmarshal t b = some v → E.R.marshal t v ≠ none) (hk : noKeptBytes E.S) (hf : (E.S.msg t).foreign = false) {m0 : Val} (h0 : Blank E.S t m0)
    (h : Decoded E t m0 m) (strict : Bool) : ∃ c, marshalVT ⟨E.S, E.R⟩ strict t m = .ok (some c) := by
  have hS := hE.env.schema
  obtain ⟨m', h1, h2⟩ := decoded_unpooled hE hf h0 h
  have hv : wt E.S t m = true := members_weaken (by simp) (by simp) _ _ _ (decoded_typed hE.env hf (blank_typed hS _ t m0 (Nat.le_refl _) h0) h)
  have hx' : ∀ t, ((unpool E.S).msg t).extRanges = [] := fun t => by rw [unpool_msg]; exact hx t
  have hf' : ((unpool E.S).msg t).foreign = false := by rw [unpool_msg]; exact hf
  have he := made_encodes (E := ⟨unpool E.S, E.R⟩) (strict := strict) (unpool_ok hS) hM (fun t => by simp [hN.nil]) m'.depth t m' (decoded_made hE.plain hx' hf' h1 m'.depth)
  have hal := alike_of_reuse (R := E.R) hR.refl hk hf h2
  cases hc : encode ⟨E.S, E.R⟩ strict t m with
  | none =>
    refine absurd ?_ he
    show encode ⟨unpool E.S, E.R⟩ strict t m' = none
    rw [encode_unpool, ← encode_alike (E := ⟨E.S, E.R⟩) hS strict hal, hc]
  | some c => exact ⟨c, ((marshal_encodes (E := ⟨E.S, E.R⟩) strict hS hN hv hf).1 c).2 hc⟩

/-- C97. With pools: and reads back, into any empty message from a pool. Missing as above, and `optional bytes` fields of pooled messages. -/
theorem accepted_read_back_pooled_partial (hE : PoolEnv E) (hx : ∀ t, (E.S.msg t).extRanges = []) (hR : RuntimeEqual E.R) (hN : RuntimeEnc E.R)
    (hB : RuntimeBack E.S E.R) (hMaps : MapsOK E.S) (hk : noKeptBytes E.S) (hf : (E.S.msg t).foreign = false) {m0 : Val} (h0 : Blank E.S t m0)
    (h : Decoded E t m0 m) {strict : Bool} {c : Bytes} (hc : marshalVT ⟨E.S, E.R⟩ strict t m = .ok (some c)) (hb : E.A.Fits (c.length + 1)) {m1 : Val} (h1 : Blank E.S t m1) :
    ∃ w, unmarshalVT E t c m1 = (w, .ok ()) ∧
      (NoNaN E.S t m → ∀ p, equalVT ⟨E.S, E.R, p⟩ t m w = .ok true ∧ equalVT ⟨E.S, E.R, p⟩ t w m = .ok true) ∧
      ((E.S.msg t).keepUnknown = true → unknownOf w = unknownOf m) := by
  have hS := hE.env.schema
  obtain ⟨m', g1, g2⟩ := decoded_unpooled hE hf h0 h
  have hx' : ∀ t, ((unpool E.S).msg t).extRanges = [] := fun t => by rw [unpool_msg]; exact hx t
  have hf' : ((unpool E.S).msg t).foreign = false := by rw [unpool_msg]; exact hf
  have hB' : RuntimeBack (unpool E.S) E.R := by
    have h0 : Restored (unpool E.S) E.R = Restored E.S E.R := by
      funext t v; simp only [Restored, orEmpty, zeroMsg_unpool]
    refine ⟨fun t b v hf h => ?_, fun t f hf md hm hk hfo => ?_⟩
    · rw [h0]; exact hB.decoded t b v (by rw [unpool_msg] at hf; exact hf) h
    · rw [h0]; exact hB.nil t f (by rw [unpool_msg] at hf; exact hf) md hm hk (by rw [unpool_msg] at hfo; exact hfo)
  have hMaps' : MapsOK (unpool E.S) := fun t f hf md hm hk g hg => hMaps t f (by rw [unpool_msg] at hf; exact hf) md hm hk g (by rw [unpool_msg] at hg; exact hg)
  have hv : wtM E.S .solid t m = true := decoded_typed hE.env hf (blank_typed hS _ t m0 (Nat.le_refl _) h0) h
  have hvp : wt E.S t m = true := members_weaken (by simp) (by simp) _ _ _ hv
  have hv' : wtM (unpool E.S) .solid t m' = true := decoded_typed hE.plain.env hf' (zeroMsg_typed (unpool_ok hS) t) g1
  have hv'u : wt (unpool E.S) t m' = true := members_weaken (by simp) (by simp) _ _ _ hv'
  have hv'p : wt E.S t m' = true := by
    unfold wt at hv'u ⊢
    rwa [unpool_typed] at hv'u
  have hr := decoded_restorable hE.plain hx' hB' hMaps' hf' g1
  have hal := alike_of_reuse (R := E.R) hR.refl hk hf g2
  have he := ((marshal_encodes (E := ⟨E.S, E.R⟩) strict hS hN hvp hf).1 c).1 hc
  have he' : encode ⟨unpool E.S, E.R⟩ strict t m' = some c := by
    rw [encode_unpool, ← encode_alike (E := ⟨E.S, E.R⟩) hS strict hal, he]
  have g3 := loose_back hE.plain hx' hf' hv'u hr he' hb
  have g4 := pooled_sim hS hE.env.arch hE.runtime hE.pools hf (b := c) (by unfold Arch.Fits at hb ⊢; omega) h1
  have hz : unmarshalVT { E with S := unpool E.S } t c (zeroMsg E.S t) = (back E.S E.R t m', .ok ()) := by
    rw [← zeroMsg_unpool, ← back_unpool]; exact g3
  rw [hz] at g4
  have hw := (unmarshal_returns_partial hE.env hf (blank_typed hS _ t m1 (Nat.le_refl _) h1) (b := c) (by unfold Arch.Fits at *; omega)).2
  generalize hq : unmarshalVT E t c m1 = q at g4 hw
  obtain ⟨w, o⟩ := q
  obtain ⟨rfl, g5⟩ := g4
  refine ⟨w, rfl, fun hn p => ?_, fun hku => ?_⟩
  · have hal2 := alike_of_reuse (R := E.R) hR.refl hk hf g5
    have s0 : Same E.S E.R t m m := same_refl hS hR.refl hf (members_weaken (by simp) (by simp) _ _ _ hv) hn
    have s1 := same_of_alike hS hal s0
    have hn' : NoNaN E.S t m' := noNaN_of_same hS hv'p (same_trans hR.trans (same_symm hR.symm s1) s1)
    have hr' : ∀ n, RestorableG (LooseUnknown E.A.bits) E.S E.R n t m' := fun n => by
      rw [← restorableG_unpool E.S E.R (fun _ _ => rfl)]; exact hr n
    have s2 : Same E.S E.R t m' (back E.S E.R t m') := (back_same hS hR m'.depth t m' (Nat.le_refl _) hf hv'p (hr' _) (hn' _)).1
    have s3 := same_of_alike hS (alike_symm hR.symm hal2) (same_trans hR.trans (same_symm hR.symm s2) s2)
    have s4 := same_trans hR.trans s1 (same_trans hR.trans s2 s3)
    have hv1 : wtM E.S .typedNil t m = true := members_weaken (by simp) (by simp) _ _ _ hv
    have hw1 : wtM E.S .typedNil t w = true := members_weaken (by simp) (by simp) _ _ _ hw
    exact ⟨equal_of_same (C := ⟨E.S, E.R, p⟩) hS hR hf (.inr hv1) (.inr hw1) s4,
      equal_of_same (C := ⟨E.S, E.R, p⟩) hS hR hf (.inr hw1) (.inr hv1) (same_symm hR.symm s4)⟩
  · obtain ⟨s, u, e, rfl⟩ := wtM_isMsg hv'
    obtain ⟨s1, u1, e1, rfl⟩ := wtM_isMsg hv
    obtain ⟨s2, u2, e2, rfl⟩ := wtM_isMsg hw
    have a1 := ((reuse_msg hf).1 g2).1
    simp only [back, Val.depth, Nat.add_comm 1, backN, hku, if_true] at g5
    simp only [unknownOf]
    rw [((reuse_msg hf).1 g5).1, a1]

end

/-! ## A case -/

/-- A required field, messages in a field, a map, a oneof and a list, and one left to the runtime. -/
def schemaW : Schema := [
  { fields := [
      { num := 1, slot := 0, kind := .string, card := .required, presence := true },
      { num := 2, slot := 1, kind := .message, presence := true, msg := 1 },
      { num := 3, slot := 2, kind := .message, card := .repeated, map := some ⟨.int32, .message, 1⟩ },
      { num := 4, slot := 3, kind := .message, presence := true, oneof := true, msg := 1 },
      { num := 5, slot := 3, kind := .int32, presence := true, oneof := true },
      { num := 6, slot := 4, kind := .message, card := .repeated, msg := 0 },
      { num := 7, slot := 5, kind := .message, presence := true, msg := 2 }],
    nslots := 6, proto3 := false },
  { fields := [{ num := 1, slot := 0, kind := .int32, presence := true }], nslots := 1, proto3 := false },
  { fields := [], nslots := 0, foreign := true }]

def wenv : UEnv := { S := schemaW, R := opaqueRuntime (fun t => t == 2), A := .b64, alloc := fun _ t => zeroMsg schemaW t }

theorem wenv_ok : PlainEnv wenv := by
  refine ⟨⟨by decide, .inr rfl, fun _ t => zeroMsg_typed (by decide) t, fun t b v h => ?_, fun _ _ _ h => (nomatch h), .inl rfl⟩, rfl, fun t => ?_, .inl rfl⟩
  · match t with
    | 0 | 1 => simp [wenv, opaqueRuntime] at h
    | 2 =>
      simp only [wenv, opaqueRuntime] at h
      cases h
      rfl
    | t + 3 => simp [wenv, opaqueRuntime] at h
  · match t with
    | 0 | 1 | 2 => rfl
    | t + 3 => rfl

theorem wenv_ext (t : Nat) : (wenv.S.msg t).extRanges = [] := by
  match t with
  | 0 | 1 | 2 => rfl
  | t + 3 => rfl

theorem wenv_back : RuntimeBack wenv.S wenv.R := by
  refine ⟨fun t b v hf h => ?_, fun t f hf md hm hk hfo => ?_⟩
  · match t with
    | 0 | 1 => cases hf
    | 2 => exact opaque_restored (k := fun t => t == 2) (by decide) (by decide) v
    | t + 3 => cases hf
  · match t with
    | 0 => fin_cases hf <;> first | (cases hm; done) | (cases hm; cases hfo)
    | 1 => fin_cases hf; cases hm
    | 2 => cases hf
    | t + 3 => cases hf

theorem wenv_maps : MapsOK wenv.S := by
  intro t f hf md hm hk g hg
  match t with
  | 0 => fin_cases hf <;> first | (cases hm; done) | (cases hm; fin_cases hg; decide)
  | 1 => fin_cases hf; cases hm
  | 2 => cases hf
  | t + 3 => cases hf

/-- A tag and a length in more bytes than needed, a map entry without its message, one with two, two members of a oneof, an element, a foreign message, an unknown
field, and a group of one number ended as a group of another, which is not well-formed. -/
def wideBytes : Bytes := [138, 0, 129, 0, 97, 26, 2, 8, 5, 26, 8, 18, 2, 8, 1, 18, 2, 8, 2, 40, 9, 34, 0, 50, 3, 10, 1, 98, 58, 2, 8, 1, 120, 7, 123, 20]

def wideMsg : Val := .msg [.str [97], .nil, .map [(.num 5, .nil), (.num 0, .msg [.num 2] [] [])], .wrap 4 (.msg [.nil] [] []),
  .list [.msg [.str [98], .nil, .nil, .nil, .nil, .nil] [] []] [], .msg [] [8, 1] []] [120, 7, 123, 20] []

theorem wide_decoded : unmarshalVT wenv 0 wideBytes (zeroMsg wenv.S 0) = (wideMsg, .ok ()) := by decide

example : ∃ c w, marshalVT ⟨wenv.S, wenv.R⟩ true 0 wideMsg = .ok (some c) ∧ unmarshalVT wenv 0 c (zeroMsg wenv.S 0) = (w, .ok ()) ∧ unknownOf w = [120, 7, 123, 20] := by
  have hd : Decoded wenv 0 (zeroMsg wenv.S 0) wideMsg := .one wide_decoded (by decide)
  obtain ⟨c, hc⟩ := accepted_written wenv_ok wenv_ext (opaque_enc _) (fun _ _ _ _ h => (nomatch h)) (t := 0) (by decide) hd true
  have hb : wenv.A.Fits (c.length + 1) := by
    rw [size_eq_length (E := ⟨wenv.S, wenv.R⟩) true wenv_ok.env.schema (opaque_enc _) (t := 0) (by decide) (by decide) hc]
    decide
  obtain ⟨w, h1, -, -, h3⟩ := accepted_read_back_partial wenv_ok wenv_ext (opaque_ok _) (opaque_enc _) wenv_back wenv_maps (t := 0) (by decide) hd hc hb
  exact ⟨c, w, hc, h1, h3 rfl⟩

/-- Written again. -/
example : ∃ c w c', marshalVT ⟨wenv.S, wenv.R⟩ true 0 wideMsg = .ok (some c) ∧ unmarshalVT wenv 0 c (zeroMsg wenv.S 0) = (w, .ok ()) ∧
    marshalVT ⟨wenv.S, wenv.R⟩ true 0 w = .ok (some c') ∧ c.Perm c' := by
  have hd : Decoded wenv 0 (zeroMsg wenv.S 0) wideMsg := .one wide_decoded (by decide)
  obtain ⟨c, hc⟩ := accepted_written wenv_ok wenv_ext (opaque_enc _) (fun _ _ _ _ h => (nomatch h)) (t := 0) (by decide) hd true
  have hb : wenv.A.Fits (c.length + 1) := by
    rw [size_eq_length (E := ⟨wenv.S, wenv.R⟩) true wenv_ok.env.schema (opaque_enc _) (t := 0) (by decide) (by decide) hc]
    decide
  obtain ⟨w, m', c', h1, -, h3, -, h5, -⟩ := accepted_rewritten_partial wenv_ok wenv_ext (opaque_ok _) (opaque_enc _) (opaque_perm _) wenv_back wenv_maps (t := 0) (by decide) hd hc hb
  exact ⟨c, w, c', hc, h1, h3, h5⟩

/-- Again into the same message. -/
example : ∃ m c, Decoded wenv 0 (zeroMsg wenv.S 0) m ∧ m ≠ wideMsg ∧ marshalVT ⟨wenv.S, wenv.R⟩ false 0 m = .ok (some c) := by
  have hd : Decoded wenv 0 (zeroMsg wenv.S 0) wideMsg := .one wide_decoded (by decide)
  have h2 : (unmarshalVT wenv 0 wideBytes wideMsg).2 = .ok () := by decide
  have hd2 := Decoded.more hd (Prod.ext rfl h2) (by decide)
  obtain ⟨c, hc⟩ := accepted_written wenv_ok wenv_ext (opaque_enc _) (fun _ _ _ _ h => (nomatch h)) (t := 0) (by decide) hd2 false
  exact ⟨_, c, hd2, by decide, hc⟩

/-- With a pool for the first message. -/
def wpool : UEnv := { wenv with S := schemaW.modify 0 fun d => { d with pooled := true }, alloc := fun _ t => zeroMsg (schemaW.modify 0 fun d => { d with pooled := true }) t }

theorem wpool_ok : PoolEnv wpool := by
  have hS : schemaOK wpool.S = true := by decide
  refine ⟨⟨hS, .inr rfl, fun _ t => zeroMsg_typed hS t, fun t b v h => ?_, fun _ _ _ h => (nomatch h), .inl rfl⟩, rfl, .inl rfl, fun _ _ _ h => (nomatch h), fun _ t _ => blank_zero hS t⟩
  match t with
  | 0 | 1 => simp [wpool, wenv, opaqueRuntime] at h
  | 2 =>
    simp only [wpool, wenv, opaqueRuntime] at h
    cases h
    rfl
  | t + 3 => simp [wpool, wenv, opaqueRuntime] at h

theorem wpool_back : RuntimeBack wpool.S wpool.R := by
  refine ⟨fun t b v hf h => ?_, fun t f hf md hm hk hfo => ?_⟩
  · match t with
    | 0 | 1 => cases hf
    | 2 => exact opaque_restored (k := fun t => t == 2) (by decide) (by decide) v
    | t + 3 => cases hf
  · match t with
    | 0 => fin_cases hf <;> first | (cases hm; done) | (cases hm; cases hfo)
    | 1 => fin_cases hf; cases hm
    | 2 => cases hf
    | t + 3 => cases hf

theorem wpool_maps : MapsOK wpool.S := by
  intro t f hf md hm hk g hg
  match t with
  | 0 => fin_cases hf <;> first | (cases hm; done) | (cases hm; fin_cases hg; decide)
  | 1 => fin_cases hf; cases hm
  | 2 => cases hf
  | t + 3 => cases hf

/-- Decoded into an empty message from a pool, written, and read back into another one. -/
example : ∃ m c w, unmarshalVT wpool 0 wideBytes (zeroMsg wpool.S 0) = (m, .ok ()) ∧ marshalVT ⟨wpool.S, wpool.R⟩ true 0 m = .ok (some c) ∧
    unmarshalVT wpool 0 c (zeroMsg wpool.S 0) = (w, .ok ()) ∧ unknownOf w = unknownOf m := by
  have h : (unmarshalVT wpool 0 wideBytes (zeroMsg wpool.S 0)).2 = .ok () := by decide
  have hx : ∀ t, (wpool.S.msg t).extRanges = [] := fun t => by
    match t with
    | 0 | 1 | 2 => rfl
    | t + 3 => rfl
  have hk : noKeptBytes wpool.S := by
    intro t
    match t with
    | 0 | 1 | 2 => decide
    | t + 3 => intro h; cases h
  have h0 := blank_zero wpool_ok.env.schema 0
  have hd : Decoded wpool 0 (zeroMsg wpool.S 0) _ := .one (Prod.ext rfl h) (by decide)
  obtain ⟨c, hc⟩ := accepted_written_pooled wpool_ok hx (opaque_ok _) (opaque_enc _) (fun _ _ _ _ h => (nomatch h)) hk (t := 0) (by decide) h0 hd true
  have hb : wpool.A.Fits (c.length + 1) := by
    rw [size_eq_length (E := ⟨wpool.S, wpool.R⟩) true wpool_ok.env.schema (opaque_enc _) (t := 0) (by decide) (by decide) hc]
    decide
  obtain ⟨w, h1, -, h3⟩ := accepted_read_back_pooled_partial wpool_ok hx (opaque_ok _) (opaque_enc _) wpool_back wpool_maps hk (t := 0) (by decide) h0 hd hc hb h0
  exact ⟨_, c, w, Prod.ext rfl h, hc, h1, h3 rfl⟩

/-! ## Limits -/

/-- C97 fails for messages with required fields in maps: an entry without its message is accepted and gives a nil message, which is written as an empty one, which is not
accepted. -/
theorem entry_not_read_back : ∃ m c, unmarshalVT renv 0 [42, 2, 8, 5] (zeroMsg renv.S 0) = (m, .ok ()) ∧
    marshalVT ⟨renv.S, renv.R⟩ false 0 m = .ok (some c) ∧ (unmarshalVT renv 0 c (zeroMsg renv.S 0)).2.Fails :=
  ⟨.msg [.num 0, .str [], .nil, .nil, .map [(.num 5, .nil)], .nil, .nil, .nil, .nil, .nil, .num 0] [] [], [42, 4, 8, 5, 18, 0], by decide, by decide +kernel, by decide⟩

/-- C97 fails for types with extension ranges: a message with its required field and an extension is accepted, but keeps only the extension, and cannot be written. -/
theorem extension_not_written : ∃ m, unmarshalVT keeping 1 [8, 7, 160, 6, 1] (zeroMsg keeping.S 1) = (m, .ok ()) ∧
    ∀ strict, (marshalVT ⟨keeping.S, keeping.R⟩ strict 1 m).Fails :=
  ⟨.msg [.nil, .nil] [] [160, 6, 1], by decide, by decide +kernel⟩

end Vtp.Props
