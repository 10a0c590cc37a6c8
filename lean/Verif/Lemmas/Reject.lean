import Verif.Lemmas.DecodeMsg
import Verif.Spec.Begins
/-! Inputs that are rejected after an accepted beginning. -/

namespace Vtp
open Spec

section
variable {E : UEnv} {t : Nat}

theorem loop_after (hS : schemaOK E.S = true) (hA : E.A.Valid) (hf : (E.S.msg t).foreign = false) {a b : Bytes} (hF : E.A.Fits (a ++ b).length)
    {m m1 : Val} (h : Begins E t m a m1) :
    ∃ n has, b.length < n ∧ has.length = (noFields (E.S.msg t)).length ∧
      recordLoop E (unmarshalN E (a ++ b).length) t (a ++ b) 0 ((a ++ b).length + 1) 0 (noFields (E.S.msg t)) m =
        recordLoop E (unmarshalN E (a ++ b).length) t (a ++ b) 0 n a.length has m1 := by
  have hFa : E.A.Fits a.length := by unfold Arch.Fits at hF ⊢; simp at hF; omega
  have key : ∀ {j has}, recordLoop E (unmarshalN E a.length) t a 0 (a.length + 1) 0 (noFields (E.S.msg t)) m = (m1, .ok (j, has)) →
    ∃ n has, b.length < n ∧ has.length = (noFields (E.S.msg t)).length ∧
      recordLoop E (unmarshalN E (a ++ b).length) t (a ++ b) 0 ((a ++ b).length + 1) 0 (noFields (E.S.msg t)) m =
        recordLoop E (unmarshalN E (a ++ b).length) t (a ++ b) 0 n a.length has m1 := by
    intro j has h1
    have s := simEnv_eq (SameCode.refl E) hA
    have r1 : RecSim VRel.eq E E true (unmarshalN E a.length) (unmarshalN E (a ++ b).length) a.length := fun o o' t c hf hc =>
      sim_unmarshalN s hS a.length (a ++ b).length o o' t c hf (by simp; omega)
    have at1 : At VRel.eq E E true a 0 0 (a ++ b) 0 0 :=
      ⟨⟨by omega, by omega, by simp, .inl rfl, hFa, hF⟩, ⟨fun _ _ _ => rfl, fun _ _ _ hp => by rw [UEnv.fresh_pooled (by exact hp)]; rfl⟩⟩
    obtain ⟨n, g, m1', e1, e2, e3, e4⟩ := recordLoop_prefix s hS r1 hf 0 0 (a.length + 1) ((a ++ b).length + 1) 0 0 _ _ m m m1 j has
      at1 (by omega) (.inl rfl) rfl h1
    cases e3
    refine ⟨n, g, by simp at e1; omega, by rw [e2.len, recordLoop_len _ _ h1], ?_⟩
    rw [e4]
    simp
  cases h with
  | empty => exact ⟨_, _, by simp, rfl, rfl⟩
  | accepted h =>
    unfold unmarshalVT at h
    rw [unmarshalN] at h
    obtain ⟨j, has, h1, _⟩ := unmarshalBody_ok h
    exact key h1
  | records hE hm hrs hst =>
    obtain ⟨k, hst⟩ := hst
    obtain ⟨has, h1, _⟩ := recordLoop_run hE hf hFa (safe_unmarshalN hE.env a.length hFa a.length (by omega)) (unmarshalN_run hE k a.length hFa) 0 hst a (a.length + 1) 0
      (noFields (E.S.msg t)) [] hm hrs (by omega) (by omega) rfl (marked_noFields _)
    exact key h1

/-- An error in the record after `a` is the outcome. -/
theorem unmarshal_err_after (hS : schemaOK E.S = true) (hA : E.A.Valid) (hf : (E.S.msg t).foreign = false) {a b : Bytes} (hF : E.A.Fits (a ++ b).length)
    {m m1 m2 : Val} (h : Begins E t m a m1) (hb : b ≠ []) {e : Err}
    (hs : ∀ has, recordStep E (unmarshalN E (a ++ b).length) t (a ++ b) 0 a.length has m1 = (m2, .err e)) :
    unmarshalVT E t (a ++ b) m = (m2, .err e) := by
  obtain ⟨n, has, h1, h2, h3⟩ := loop_after hS hA hf hF h
  unfold unmarshalVT
  rw [unmarshalN]
  unfold unmarshalBody
  obtain ⟨n, rfl⟩ : ∃ q, n = q + 1 := ⟨n - 1, by omega⟩
  have hbl : 0 < b.length := List.length_pos_iff.2 hb
  rw [UM.bind_def, h3, recordLoop, if_pos (by simp; omega), UM.bind_def, hs has]

/-- If the input is accepted, so is the record after `a`. -/
theorem step_ok_after (hS : schemaOK E.S = true) (hA : E.A.Valid) (hf : (E.S.msg t).foreign = false) {a b : Bytes} (hF : E.A.Fits (a ++ b).length)
    {m m1 : Val} (h : Begins E t m a m1) (hb : b ≠ []) (hok : (unmarshalVT E t (a ++ b) m).2 = .ok ()) :
    ∃ has m2 j has2, recordStep E (unmarshalN E (a ++ b).length) t (a ++ b) 0 a.length has m1 = (m2, .ok (j, has2)) := by
  obtain ⟨n, has, h1, h2, h3⟩ := loop_after hS hA hf hF h
  have hp : ∀ {r : Val × Res Unit}, r.2 = .ok () → r = (r.1, .ok ()) := fun h => Prod.ext rfl h
  have := hp hok
  unfold unmarshalVT at this
  rw [unmarshalN] at this
  obtain ⟨j, has', h4, _⟩ := unmarshalBody_ok this
  obtain ⟨n, rfl⟩ : ∃ q, n = q + 1 := ⟨n - 1, by omega⟩
  have hbl : 0 < b.length := List.length_pos_iff.2 hb
  rw [h3, recordLoop, if_pos (by simp; omega)] at h4
  obtain ⟨m2, ⟨j, has2⟩, h5, _⟩ := UM.bind_eq h4
  exact ⟨has, m2, j, has2, h5⟩

end

section
variable {E : UEnv} {t : Nat} {d : Bytes} {i : Nat}

/-- The beginning of a record: its tag. -/
theorem recordStep_tag (rec : SubDec) (base : Nat) (has : List (BitVec 64)) {num wt : Nat} (hn : ValidNum num) (hw : wt < 8) {tag rest : Bytes}
    (htag : IsVarint (num * 8 + wt) tag) (hd : d.drop i = tag ++ rest) :
    recordStep E rec t d base i has = (if wt = 4 then UM.lift (.err .endGroupForNonGroup) else
      match (E.S.msg t).fields.find? (fun f => f.num == num) with
      | some f => do
        let j ← fieldCase E rec (E.S.msg t) f (BitVec.ofNat 64 (num * 8 + wt)) d base (i + tag.length)
        let has ← UM.lift (markField (E.S.msg t) f has)
        pure (j, has)
      | none => do
        let j ← unknownCase E t num d i
        pure (j, has) : UM (Nat × List (BitVec 64))) := by
  obtain ⟨b1, b2, b3, b4⟩ := tag_bits hn hw
  unfold recordStep
  rw [decodeVarint_isVarint htag 64 hd, UM.lift_ok_bind]
  simp only [b1, b2]
  by_cases h4 : wt = 4
  · rw [if_pos h4, if_pos h4]
  · rw [if_neg h4, if_neg h4, if_neg (by rw [b3]; have := hn.1; omega), b4]
    cases (E.S.msg t).fields.find? (fun f => f.num == num) <;> rfl

theorem find_num (hS : MsgFacts (E.S.msg t)) {f : FieldDesc} (h : f ∈ (E.S.msg t).fields) :
    (E.S.msg t).fields.find? (fun g => g.num == f.num) = some f := by
  cases hc : (E.S.msg t).fields.find? (fun g => g.num == f.num) with
  | none =>
    have := List.find?_eq_none.1 hc f h
    simp at this
  | some g =>
    have h1 := List.mem_of_find?_eq_some hc
    have h2 : g.num = f.num := by simpa using List.find?_some hc
    rw [hS.num_inj h1 h h2]

/-- The loop over packed elements stops at or after the end of the record. -/
theorem packedLoop_end {rec : SubDec} {D : MsgDesc} {f : FieldDesc} {wire : BitVec 64} {base post : Nat} :
    ∀ (n i : Nat) {m m' : Val} {j : Nat}, packedLoop E rec D f wire d base post n i m = (m', .ok j) → post ≤ j := by
  intro n
  induction n with
  | zero => intro i m m' j h; simp [packedLoop] at h
  | succ n ih =>
    intro i m m' j h
    rw [packedLoop] at h
    split at h
    · obtain ⟨m1, k, _, h2⟩ := UM.bind_eq h
      exact ih k h2
    · obtain ⟨_, rfl⟩ := UM.pure_eq h
      omega

/-- Reading a number consumes the payload. -/
theorem readNum_end {A : Arch} (hA : A.Valid) {k : Kind} {num : Nat} {p : Payload} {bs rest : Bytes} (hF : A.Fits d.length) (hi : i ≤ d.length)
    (hk : numeric k = true) (hp : payloadType p = protoWireType k) (ht : Tail num p bs) (hd : d.drop i = bs ++ rest) {v : BitVec 64} {j : Nat}
    (h : readNum A k d i = .ok (v, j)) : j = i + bs.length := by
  cases ht with
  | @varint x _ hx =>
    cases k <;> simp [numeric, payloadType, protoWireType] at hk hp <;>
      (simp only [readNum, decodeVarint_isVarint hx _ hd, Res.bind_ok, Res.ok.injEq, Prod.mk.injEq] at h; exact h.2.symm)
  | i64 hl =>
    have := decodeFixed_of hA hF hi hd
    rw [hl] at this
    cases k <;> simp [numeric, payloadType, protoWireType] at hk hp <;>
      (simp only [readNum, this, Res.bind_ok, Res.ok.injEq, Prod.mk.injEq] at h; omega)
  | i32 hl =>
    have := decodeFixed_of hA hF hi hd
    rw [hl] at this
    cases k <;> simp [numeric, payloadType, protoWireType] at hk hp <;>
      (simp only [readNum, this, Res.bind_ok, Res.ok.injEq, Prod.mk.injEq] at h; omega)
  | len _ => cases k <;> simp [numeric, payloadType, protoWireType] at hk hp
  | group _ _ => cases k <;> simp [numeric, payloadType, protoWireType] at hk hp

theorem fieldItem_end (hE : DecodeEnv E) {rec : SubDec} {D : MsgDesc} {f : FieldDesc} {p3 : Bool} {wire : BitVec 64} {base : Nat} {num : Nat} {p : Payload} {bs rest : Bytes}
    (hF : E.A.Fits d.length) (hi : i ≤ d.length) (hw : (wire &&& 7).toNat ≠ 4)
    (hp : payloadType p = protoWireType f.kind) (ht : Tail num p bs) (hd : d.drop i = bs ++ rest) {m m' : Val} {j : Nat}
    (h : fieldItem E rec D f p3 wire d base i m = (m', .ok j)) : j = i + bs.length := by
  have hA := hE.arch
  have hnum : numeric f.kind = true → (do
        if !f.oneof && f.card != .repeated && p3 && !f.synthetic then
          match direct E.A f.kind d i with
          | some v => setSlot f.slot (.num v)
          | none => pure ()
        let (v, i) ← UM.lift (readNum E.A f.kind d i)
        store f (.num v)
        pure i : UM Nat) m = (m', .ok j) → j = i + bs.length := by
    intro hk h
    have key : ∀ m1, (do
        let (v, i) ← UM.lift (readNum E.A f.kind d i)
        store f (.num v)
        pure i : UM Nat) m1 = (m', .ok j) → j = i + bs.length := by
      intro m1 h
      obtain ⟨m2, ⟨v, k⟩, h1, h2⟩ := UM.bind_eq h
      obtain ⟨_, h1⟩ := UM.lift_eq h1
      obtain ⟨m3, _, _, h3⟩ := UM.bind_eq h2
      obtain ⟨_, rfl⟩ := UM.pure_eq h3
      exact readNum_end hA hF hi hk hp ht hd h1
    split at h
    · cases hdir : direct E.A f.kind d i with
      | some v =>
        rw [hdir] at h
        obtain ⟨m1, _, _, h2⟩ := UM.bind_eq h
        exact key _ h2
      | none =>
        rw [hdir] at h
        exact key _ h
    · exact key _ h
  have hlen : ∀ w, (w = 64 ∨ w = E.A.bits) → payloadType p = 2 → ∃ q, readSpan E.A w d i = .ok (q, i + bs.length) := by
    intro w hw hp2
    cases ht with
    | len hl => exact ⟨_, readSpan_len hA hw hF hi hl hd⟩
    | varint _ => simp [payloadType] at hp2
    | i64 _ => simp [payloadType] at hp2
    | group _ _ => simp [payloadType] at hp2
    | i32 _ => simp [payloadType] at hp2
  unfold fieldItem at h
  cases hk : f.kind <;> simp only [hk] at h hnum hp
  case message =>
    obtain ⟨q, hq⟩ := hlen _ (.inr rfl) (by rw [hp]; rfl)
    rw [hq, UM.lift_ok_bind] at h
    simp only at h
    generalize f.map = o at h
    cases o with
    | none =>
      obtain ⟨_, _, _, h⟩ := UM.bind_eq h
      obtain ⟨_, _, _, h⟩ := UM.bind_eq h
      exact (UM.pure_eq h).2.symm
    | some md =>
      obtain ⟨_, _, _, h⟩ := UM.bind_eq h
      exact (UM.pure_eq h).2.symm
  case group =>
    obtain ⟨e, he⟩ := groupLoop_err hE rec f hw hF base i (d.length + 1) i (by omega)
    rw [he] at h
    simp at h
  case string =>
    obtain ⟨q, hq⟩ := hlen _ (.inl rfl) (by rw [hp]; rfl)
    rw [hq, UM.lift_ok_bind] at h
    obtain ⟨_, _, _, h⟩ := UM.bind_eq h
    obtain ⟨_, _, _, h⟩ := UM.bind_eq h
    exact (UM.pure_eq h).2.symm
  case bytes =>
    obtain ⟨q, hq⟩ := hlen _ (.inr rfl) (by rw [hp]; rfl)
    rw [hq, UM.lift_ok_bind] at h
    obtain ⟨_, _, _, h⟩ := UM.bind_eq h
    obtain ⟨_, _, _, h⟩ := UM.bind_eq h
    exact (UM.pure_eq h).2.symm
  all_goals exact hnum rfl h

theorem fieldCase_end (hE : DecodeEnv E) {rec : SubDec} {D : MsgDesc} {f : FieldDesc} {wire : BitVec 64} {base : Nat} {num : Nat} {p : Payload} {bs rest : Bytes}
    (hF : E.A.Fits d.length) (hi : i ≤ d.length) (hw : (wire &&& 7).toNat = payloadType p)
    (ht : Tail num p bs) (hd : d.drop i = bs ++ rest) {m m' : Val} {j : Nat}
    (h : fieldCase E rec D f wire d base i m = (m', .ok j)) : i + bs.length ≤ j := by
  have h4 : (wire &&& 7).toNat ≠ 4 := by rw [hw]; exact tail_not_end ht
  unfold fieldCase at h
  simp only at h
  split at h
  · split at h
    · rename_i hc
      exact Nat.le_of_eq (fieldItem_end hE hF hi h4 (by rw [← hw, hc]) ht hd h).symm
    · split at h
      · rename_i hc
        rw [hw] at hc
        cases ht with
        | len hl =>
          rw [readSpan_len hE.arch (.inr rfl) hF hi hl hd, UM.lift_ok_bind] at h
          obtain ⟨_, _, _, h⟩ := UM.bind_eq h
          obtain ⟨_, _, _, h⟩ := UM.bind_eq h
          exact packedLoop_end _ _ h
        | varint _ => simp [payloadType] at hc
        | i64 _ => simp [payloadType] at hc
        | group _ _ => simp [payloadType] at hc
        | i32 _ => simp [payloadType] at hc
      · simp at h
  · split at h
    · simp at h
    · rename_i hc
      exact Nat.le_of_eq (fieldItem_end hE hF hi h4 (by rw [← hw]; simpa using hc) ht hd h).symm

/-- A record that is read is read to its end. -/
theorem recordStep_end (hE : DecodeEnv E) {rec : SubDec} {base : Nat} {num : Nat} {p : Payload} {raw rest : Bytes}
    (hF : E.A.Fits d.length) (hi : i ≤ d.length) (hr : IsRecord num p raw) (hd : d.drop i = raw ++ rest) {has has' : List (BitVec 64)} {m m' : Val} {j : Nat}
    (h : recordStep E rec t d base i has m = (m', .ok (j, has'))) : i + raw.length ≤ j := by
  obtain ⟨hnum, tag, bs, hraw, htag, htail⟩ := hr.split
  have hd1 : d.drop i = tag ++ (bs ++ rest) := by rw [hd, hraw, List.append_assoc]
  have hwt : payloadType p < 8 := by cases p <;> simp [payloadType]
  rw [recordStep_tag rec base has hnum hwt htag hd1, if_neg (tail_not_end htail)] at h
  generalize (E.S.msg t).fields.find? (fun f => f.num == num) = o at h
  cases o with
  | some f =>
    obtain ⟨_, _, h1, h⟩ := UM.bind_eq h
    obtain ⟨_, _, _, h⟩ := UM.bind_eq h
    have := (UM.pure_eq h).2
    simp only [Prod.mk.injEq] at this
    have h2 := fieldCase_end hE hF (le_of_drop hd1 hi) (tag_bits hnum hwt).1 htail (drop_add hd1) h1
    rw [hraw, List.length_append]
    omega
  | none =>
    obtain ⟨_, _, h1, h⟩ := UM.bind_eq h
    have := (UM.pure_eq h).2
    simp only [Prod.mk.injEq] at this
    unfold unknownCase at h1
    simp only at h1
    rw [skipAt_run hE.arch hF hr hi hd (le_of_drop hd hi), UM.lift_ok_bind] at h1
    split at h1
    · obtain ⟨_, _, _, h1⟩ := UM.bind_eq h1
      obtain ⟨_, _, _, h1⟩ := UM.bind_eq h1
      have := (UM.pure_eq h1).2
      omega
    · obtain ⟨_, _, _, h1⟩ := UM.bind_eq h1
      split at h1
      · obtain ⟨_, _, _, h1⟩ := UM.bind_eq h1
        have := (UM.pure_eq h1).2
        omega
      · have := (UM.pure_eq h1).2
        omega

/-- A record cut short is not read. -/
theorem recordStep_cut (hE : DecodeEnv E) {a : Bytes} {num : Nat} {p : Payload} {raw : Bytes} (hf : (E.S.msg t).foreign = false)
    (hr : IsRecord num p raw) {k : Nat} (hk : k < raw.length) (hF : E.A.Fits (a ++ raw).length) {has has' : List (BitVec 64)} {m m' : Val} {j : Nat}
    (h : recordStep E (unmarshalN E (a ++ raw.take k).length) t (a ++ raw.take k) 0 a.length has m = (m', .ok (j, has'))) : False := by
  have s := simEnv_eq (SameCode.refl E) hE.arch
  have hlen : (a ++ raw.take k).length = a.length + k := by simp; omega
  have hFk : E.A.Fits (a ++ raw.take k).length := by
    unfold Arch.Fits at hF ⊢; rw [hlen]; simp at hF; omega
  have r1 : RecSim VRel.eq E E true (unmarshalN E (a ++ raw.take k).length) (unmarshalN E (a ++ raw.take k).length) (a ++ raw.take k).length :=
    fun o o' t c hf hc => sim_unmarshalN s hE.schema _ _ o o' t c hf (by omega)
  have at1 : At VRel.eq E E true (a ++ raw.take k) 0 a.length (a ++ raw) 0 a.length := by
    refine ⟨⟨by simp, by simp, ?_, .inl rfl, hFk, hF⟩, ⟨fun _ _ _ => rfl, fun _ _ _ hp => by rw [UEnv.fresh_pooled (by exact hp)]; rfl⟩⟩
    simp [List.take_prefix]
  have hs := sim_recordStep s hE.schema r1 hf at1 (.inl rfl) (.inl rfl : HasRel true has has) m m rfl
  rw [h] at hs
  obtain ⟨_, ⟨j', has2⟩, h4, ⟨h5, h6, h7⟩, _⟩ := hs
  simp only at h5 h6 h7
  have hp : ∀ {r : Val × Res (Nat × List (BitVec 64))}, r.2 = .ok (j', has2) → r = (r.1, .ok (j', has2)) := fun h => Prod.ext rfl h
  have := recordStep_end hE hF (i := a.length) (by simp) hr (rest := []) (by simp) (hp h4)
  omega

/-- A declared length beyond the input. -/
theorem readSpan_short {A : Arch} (hA : A.Valid) {w : Nat} (hw : w = 64 ∨ w = A.bits) {n : Nat} (hn : A.bits = 64 ∨ n < 2 ^ (A.bits - 1))
    {lb rest : Bytes} (hF : A.Fits d.length) (hi : i ≤ d.length) (h : IsVarint n lb) (hd : d.drop i = lb ++ rest) (hl : rest.length < n) :
    ∃ e, readSpan A w d i = .err e := by
  have hb := hA.pos
  have hA64 : A.bits ≤ 64 := by rcases hA with h | h <;> omega
  have hlen : i + lb.length + rest.length = d.length := by
    have := congrArg List.length hd
    simp at this; omega
  have hp2 := two_pow_pred (n := A.bits) (by omega)
  have hsm := h.small
  unfold readSpan
  rw [decodeVarint_isVarint h w hd]
  simp only [Res.bind_ok]
  -- the length as the decoder sees it: itself or negative
  have hint : A.wrap (BitVec.ofNat w n).toInt = n ∧ n < 2 ^ (A.bits - 1) ∨ A.wrap (BitVec.ofNat w n).toInt < 0 := by
    by_cases hs : n < 2 ^ (A.bits - 1)
    · left
      refine ⟨?_, hs⟩
      have hpw : n < 2 ^ (w - 1) := by
        rcases hw with rfl | rfl
        · exact Nat.lt_of_lt_of_le hs (Nat.pow_le_pow_right (by omega) (by omega))
        · exact hs
      have hpw2 : 2 ^ w = 2 * 2 ^ (w - 1) := two_pow_pred (by rcases hw with rfl | rfl <;> omega)
      have : (BitVec.ofNat w n).toInt = n := by
        rw [BitVec.toInt_eq_toNat_cond, BitVec.toNat_ofNat, Nat.mod_eq_of_lt (by omega)]
        split <;> omega
      rw [this]
      exact Arch.wrap_small hA _ (by omega) (by omega)
    · right
      have h64 := hn.resolve_right hs
      have hw64 : w = 64 := by rcases hw with h | h <;> omega
      subst hw64
      rw [h64] at hs
      have : (BitVec.ofNat 64 n).toInt = (n : Int) - 2 ^ 64 := by
        rw [BitVec.toInt_eq_toNat_cond, BitVec.toNat_ofNat, Nat.mod_eq_of_lt (by omega)]
        split <;> omega
      rw [this]
      unfold Arch.wrap
      rw [h64, Int.bmod_eq_of_le] <;> omega
  unfold Arch.Fits at hF
  rcases hint with ⟨h1, h2⟩ | h1
  · rw [h1, if_neg (by omega)]
    rcases Arch.wrap_cases hA (↑(i + lb.length) + (n : Int)) (by omega) (by omega) with ⟨h3, h4⟩ | ⟨h3, _⟩
    · rw [h3, if_neg (by omega), if_pos (by omega)]
      exact ⟨_, rfl⟩
    · rw [if_pos h3]
      exact ⟨_, rfl⟩
  · rw [if_pos h1]
    exact ⟨_, rfl⟩

theorem skipAt_short {A : Arch} (hA : A.Valid) {n : Nat} (hn : A.bits = 64 ∨ n < 2 ^ (A.bits - 1)) {tag lb rest : Bytes} (hF : A.Fits d.length) (hi : i ≤ d.length)
    {num : Nat} (ht : IsVarint (num * 8 + 2) tag) (h : IsVarint n lb) (hd : d.drop i = tag ++ (lb ++ rest)) (hl : rest.length < n) :
    ∃ e, skipAt A d i d.length = .err e := by
  have hb := hA.pos
  have hA64 : A.bits ≤ 64 := by rcases hA with h | h <;> omega
  have hp2 := two_pow_pred (n := A.bits) (by omega)
  have hlen : i + tag.length + lb.length + rest.length = d.length := by
    have := congrArg List.length hd
    simp at this; omega
  have hsm := h.small
  have htp := ht.shape.length_pos
  unfold skipAt
  rw [slice_all hi (Nat.le_refl _)]
  simp only [Res.bind_ok]
  rw [List.take_of_length_le (by simp), hd]
  have hF' : A.Fits (tag ++ (lb ++ rest)).length := by unfold Arch.Fits at hF ⊢; simp; omega
  rw [skip_eq_skipFrom, skipFrom_eq A hA _ hF', if_pos (by simp; omega), decodeVarint_isVarint ht 64 (d := tag ++ (lb ++ rest)) (i := 0) (rest := lb ++ rest) (by simp)]
  simp only [Res.bind_ok]
  have h2 : (BitVec.ofNat 64 (num * 8 + 2)).toNat % 8 = 2 := by rw [ofNat64_mod8]; omega
  rw [h2]
  simp only [skipBody]
  rw [decodeVarint_isVarint h A.bits (d := tag ++ (lb ++ rest)) (i := 0 + tag.length) (rest := rest) (by simp)]
  simp only [Res.bind_ok]
  unfold Arch.Fits at hF
  have hint : (BitVec.ofNat A.bits n).toInt = n ∧ n < 2 ^ (A.bits - 1) ∨ (BitVec.ofNat A.bits n).toInt < 0 := by
    by_cases hs : n < 2 ^ (A.bits - 1)
    · left
      refine ⟨?_, hs⟩
      rw [BitVec.toInt_eq_toNat_cond, BitVec.toNat_ofNat, Nat.mod_eq_of_lt (by omega)]
      split <;> omega
    · right
      have h64 := hn.resolve_right hs
      have hp64 : (2 : Nat) ^ (A.bits - 1) = 2 ^ 63 := by rw [h64]
      rw [BitVec.toInt_eq_toNat_cond, BitVec.toNat_ofNat, Nat.mod_eq_of_lt (by rw [h64]; omega)]
      split <;> omega
  rcases hint with ⟨h3, h4⟩ | h3
  · rw [h3, if_neg (by omega)]
    unfold skipNext
    rcases Arch.wrap_cases hA (↑(0 + tag.length + lb.length) + (n : Int)) (by omega) (by omega) with ⟨h5, h6⟩ | ⟨h5, _⟩
    · rw [h5, if_neg (by omega), if_pos rfl]
      simp only [Res.bind_ok]
      rcases Arch.wrap_cases hA (↑i + ↑(↑(0 + tag.length + lb.length) + (n : Int)).toNat) (by omega) (by omega) with ⟨h7, h8⟩ | ⟨h7, _⟩
      · rw [h7, if_neg (by omega), if_pos (by omega)]
        exact ⟨_, rfl⟩
      · rw [if_pos h7]
        exact ⟨_, rfl⟩
    · rw [if_pos h5]
      exact ⟨_, rfl⟩
  · rw [if_pos h3]
    exact ⟨_, rfl⟩

/-- A record with a declared length beyond the input is an error, whatever the field. -/
theorem recordStep_short (hE : DecodeEnv E) (rec : SubDec) (base : Nat) {num n : Nat} (hn : E.A.bits = 64 ∨ n < 2 ^ (E.A.bits - 1)) (hv : ValidNum num)
    {tag lb rest : Bytes} (hF : E.A.Fits d.length) (hi : i ≤ d.length) (ht : IsVarint (num * 8 + 2) tag) (h : IsVarint n lb)
    (hd : d.drop i = tag ++ (lb ++ rest)) (hl : rest.length < n) (m : Val) :
    ∃ e, ∀ has, recordStep E rec t d base i has m = (m, .err e) := by
  have hA := hE.arch
  have hd2 := drop_add hd
  have hi2 := le_of_drop hd hi
  have hrs : ∀ w, (w = 64 ∨ w = E.A.bits) → ∃ e, readSpan E.A w d (i + tag.length) = .err e := fun w hw =>
    readSpan_short hA hw hn hF hi2 h hd2 hl
  obtain ⟨b1, b2, b3, b4⟩ := tag_bits hv (show 2 < 8 by omega)
  cases hfind : (E.S.msg t).fields.find? (fun f => f.num == num) with
  | none =>
    obtain ⟨e, he⟩ := skipAt_short hA hn hF hi ht h hd hl
    refine ⟨e, fun has => ?_⟩
    rw [recordStep_tag rec base has hv (by omega) ht hd, if_neg (by omega), hfind]
    simp only
    have : unknownCase E t num d i m = (m, .err e) := by
      unfold unknownCase
      simp only
      rw [he, UM.lift_err_bind]; rfl
    rw [UM.bind_def, this]
  | some f =>
    have key : ∃ e, fieldCase E rec (E.S.msg t) f (BitVec.ofNat 64 (num * 8 + 2)) d base (i + tag.length) m = (m, .err e) := by
      unfold fieldCase
      simp only [b1]
      by_cases hc : (f.isList && protoWireType f.kind != 2) = true
      · rw [if_pos hc, if_neg (by intro c; simp [← c] at hc)]
        obtain ⟨e, he⟩ := hrs _ (.inr rfl)
        refine ⟨e, ?_⟩
        simp only [if_true]
        rw [he, UM.lift_err_bind]; rfl
      · rw [if_neg hc]
        by_cases hk : 2 = protoWireType f.kind
        · rw [if_neg (by simpa using hk)]
          unfold fieldItem
          cases hkk : f.kind <;> simp [hkk, protoWireType] at hk
          · obtain ⟨e, he⟩ := hrs _ (.inl rfl)
            exact ⟨e, by simp only; rw [he, UM.lift_err_bind]; rfl⟩
          · obtain ⟨e, he⟩ := hrs _ (.inr rfl)
            exact ⟨e, by simp only; rw [he, UM.lift_err_bind]; rfl⟩
          · obtain ⟨e, he⟩ := hrs _ (.inr rfl)
            exact ⟨e, by simp only; rw [he, UM.lift_err_bind]; rfl⟩
        · rw [if_pos hk]
          exact ⟨_, rfl⟩
    obtain ⟨e, he⟩ := key
    refine ⟨e, fun has => ?_⟩
    rw [recordStep_tag rec base has hv (by omega) ht hd, if_neg (by omega), hfind]
    simp only
    rw [UM.bind_def, he]

theorem records_raw {rs : List Rec} {b : Bytes} (h : Records rs b) : b = rs.flatMap (·.raw) := by
  induction h with
  | nil => rfl
  | cons _ _ ih => rw [ih]; rfl

theorem cut_inside {S : Schema} {sub : SubRel} {D : MsgDesc} {rs : List Rec} {b : Bytes} (hrs : Records rs b) {m m' : Val} (hst : Steps S sub D rs m m') {k : Nat}
    (hk : k ≤ b.length) (hcut : ∀ n, ¬ Records (rs.take n) (b.take k)) :
    ∃ (a : Bytes) (rs1 : List Rec) (r : Rec) (rest : Bytes) (m1 : Val), b = a ++ (r.raw ++ rest) ∧ Records rs1 a ∧ Steps S sub D rs1 m m1 ∧
      IsRecord r.num r.payload r.raw ∧ a.length < k ∧ k < a.length + r.raw.length := by
  induction hrs generalizing m k with
  | nil =>
    exfalso
    refine hcut 0 ?_
    simp
    exact .nil
  | @cons r rs rest hr hrs ih =>
    cases hst with
    | @cons _ _ _ m1 _ hs hst =>
    by_cases h0 : k = 0
    · exfalso
      subst h0
      exact hcut 0 (by simpa using Records.nil)
    by_cases h1 : k < r.raw.length
    · exact ⟨[], [], r, rest, m, rfl, .nil, .nil, hr, by simp; omega, by simpa using h1⟩
    · obtain ⟨a, rs1, r', rest', m2, e1, e2, e3, e4, e5, e6⟩ := ih hst (k := k - r.raw.length) (by simp at hk; omega) (by
        intro n hn
        refine hcut (n + 1) ?_
        have : (r.raw ++ rest).take k = r.raw ++ rest.take (k - r.raw.length) := by
          rw [List.take_append, List.take_of_length_le (by omega)]
        rw [this]
        exact .cons hr hn)
      refine ⟨r.raw ++ a, r :: rs1, r', rest', m2, by rw [e1, List.append_assoc], .cons hr e2, .cons hs e3, e4, ?_, ?_⟩ <;>
        (rw [List.length_append]; omega)

theorem fieldCase_wrong (hM : MsgFacts (E.S.msg t)) {f : FieldDesc} (hmem : f ∈ (E.S.msg t).fields) {wt : Nat} (hw : wt < 8)
    (hno : ¬ (wt = wireType f.kind ∨ f.card = .repeated ∧ f.map = none ∧ numeric f.kind = true ∧ wt = 2)) (rec : SubDec) (base j : Nat) (m : Val) :
    fieldCase E rec (E.S.msg t) f (BitVec.ofNat 64 (f.num * 8 + wt)) d base j m = (m, .err (.wrongWireType f.num)) := by
  obtain ⟨b1, _⟩ := tag_bits ⟨(hM.fields f hmem).pos, (hM.fields f hmem).small⟩ hw
  have hwt : protoWireType f.kind = wireType f.kind := by cases f.kind <;> rfl
  unfold fieldCase
  simp only [b1]
  rw [hwt]
  by_cases hc : (f.isList && wireType f.kind != 2) = true
  · rw [if_pos hc, if_neg (fun h => hno (.inl h)), if_neg]
    · rfl
    · intro h
      refine hno (.inr ?_)
      simp only [FieldDesc.isList, Bool.and_eq_true, beq_iff_eq, Option.isNone_iff_eq_none, bne_iff_ne] at hc
      refine ⟨hc.1.1, hc.1.2, ?_, h⟩
      have := (hM.fields f hmem).rep hc.1.1
      cases hk : f.kind <;> simp_all [numeric, wireType]
  · rw [if_neg hc, if_pos (fun h => hno (.inl h))]
    rfl

theorem fieldCase_group (hE : DecodeEnv E) {f : FieldDesc} (hmem : f ∈ (E.S.msg t).fields) (hk : f.kind = .group) (hF : E.A.Fits d.length)
    (rec : SubDec) (base j : Nat) (m : Val) :
    ∃ e, fieldCase E rec (E.S.msg t) f (BitVec.ofNat 64 (f.num * 8 + 3)) d base j m = (m, .err e) := by
  have hM := schemaOK_msg hE.schema t
  have hff := hM.fields f hmem
  obtain ⟨b1, _⟩ := tag_bits ⟨hff.pos, hff.small⟩ (show 3 < 8 by omega)
  have hl : f.isList = false := by
    cases hc : f.isList with
    | false => rfl
    | true =>
      simp only [FieldDesc.isList, Bool.and_eq_true, beq_iff_eq] at hc
      exact absurd hk (hff.rep hc.1).2.1
  obtain ⟨e, he⟩ := groupLoop_err hE rec f (wire := BitVec.ofNat 64 (f.num * 8 + 3)) (by rw [b1]; decide) hF base j (d.length + 1) j (by omega)
  refine ⟨e, ?_⟩
  unfold fieldCase
  simp only [b1, hl, Bool.false_and, Bool.false_eq_true, if_false, hk, protoWireType, ne_eq, not_true]
  unfold fieldItem
  simp only [hk]
  rw [he]
  rfl

theorem recordStep_illegal (rec : SubDec) (base : Nat) (has : List (BitVec 64)) {x : Nat} {tag rest : Bytes} (htag : IsVarint x tag)
    (hx : x / 8 % 2 ^ 32 = 0 ∨ 2 ^ 31 ≤ x / 8 % 2 ^ 32) (hd : d.drop i = tag ++ rest) (m : Val) :
    recordStep E rec t d base i has m = (m, .err (if x % 8 = 4 then .endGroupForNonGroup else .illegalTag)) := by
  have hs := htag.small
  unfold recordStep
  rw [decodeVarint_isVarint htag 64 hd, UM.lift_ok_bind]
  simp only
  have h7 : (BitVec.ofNat 64 x &&& 7).toNat = x % 8 := by rw [bv_and7, ofNat64_mod8]
  have hn : (BitVec.setWidth 32 (BitVec.ofNat 64 x >>> 3)).toInt ≤ 0 := by
    rw [BitVec.toInt_eq_toNat_cond, BitVec.toNat_setWidth, BitVec.toNat_ushiftRight, BitVec.toNat_ofNat, Nat.mod_eq_of_lt hs, Nat.shiftRight_eq_div_pow]
    rcases hx with h | h <;> split <;> omega
  rw [h7]
  by_cases h4 : x % 8 = 4
  · rw [if_pos h4, if_pos h4]; rfl
  · rw [if_neg h4, if_neg h4, if_pos hn]; rfl

theorem Spec.Begins.typed (hE : DecodeEnv E) (hf : (E.S.msg t).foreign = false) {m m1 : Val} (hm : Typed E.S t m) {a : Bytes} (hF : E.A.Fits a.length)
    (h : Begins E t m a m1) : Typed E.S t m1 := by
  cases h with
  | empty => exact hm
  | accepted h =>
    have := (safe_unmarshalN hE a.length hF (a.length + 1) (Nat.le_refl _) 0 t a hf (Nat.lt_succ_self _) m hm).1
    unfold unmarshalVT at h
    rw [h] at this
    exact this
  | records hE hm hrs hst =>
    obtain ⟨k, hst⟩ := hst
    obtain ⟨has, _, _, h1⟩ := recordLoop_run hE hf hF (safe_unmarshalN hE.env a.length hF a.length (by omega)) (unmarshalN_run hE k a.length hF) 0 hst a
      (a.length + 1) 0 (noFields (E.S.msg t)) [] hm hrs (by omega) (by omega) rfl (marked_noFields _)
    exact h1

/-- A record in an extension range. -/
theorem recordStep_extension (hA : E.A.Valid) (rec : SubDec) (base : Nat) (has : List (BitVec 64)) {num : Nat} {p : Payload} {raw rest : Bytes}
    (hr : IsRecord num p raw) (hF : E.A.Fits d.length) (hi : i ≤ d.length) (hd : d.drop i = raw ++ rest)
    (hno : ∀ f ∈ (E.S.msg t).fields, f.num ≠ num) (hext : ∃ e ∈ (E.S.msg t).extRanges, e.1 ≤ num ∧ num < e.2) {v : Val}
    (hv : E.R.unmarshalPartial t raw = some v) (s : List Val) (u x : Bytes) :
    recordStep E rec t d base i has (.msg s u x) = (v, .ok (i + raw.length, has)) := by
  obtain ⟨hnum, tag, bs, hraw, htag, htail⟩ := hr.split
  have hwt : payloadType p < 8 := by cases p <;> simp [payloadType]
  have hd1 : d.drop i = tag ++ (bs ++ rest) := by rw [hd, hraw, List.append_assoc]
  have hle := le_of_drop hd hi
  have hfind : (E.S.msg t).fields.find? (fun f => f.num == num) = none := by
    rw [List.find?_eq_none]
    intro f hf
    simpa using hno f hf
  rw [recordStep_tag rec base has hnum hwt htag hd1, if_neg (tail_not_end htail), hfind]
  simp only
  have : unknownCase E t num d i (.msg s u x) = (v, .ok (i + raw.length)) := by
    unfold unknownCase
    simp only
    rw [skipAt_run hA hF hr hi hd hle, UM.lift_ok_bind, if_pos, slice_all (by omega) hle, UM.lift_ok_bind, hd]
    · rw [UM.bind_def]
      simp only [runtimePartial, Nat.add_sub_cancel_left, List.take_left', hv]
      rfl
    · obtain ⟨e, he, h1, h2⟩ := hext
      exact List.any_eq_true.2 ⟨e, he, by simp [h1, h2]⟩
  rw [UM.bind_def, this]
  rfl

theorem unmarshal_extension (hE : DecodeEnv E) (hf : (E.S.msg t).foreign = false) {m m1 : Val} (hm : Typed E.S t m) {a : Bytes} (ha : Begins E t m a m1)
    {num : Nat} {p : Payload} {raw : Bytes} (hr : IsRecord num p raw) (hF : E.A.Fits (a ++ raw).length)
    (hno : ∀ f ∈ (E.S.msg t).fields, f.num ≠ num) (hext : ∃ e ∈ (E.S.msg t).extRanges, e.1 ≤ num ∧ num < e.2) {v : Val}
    (hv : E.R.unmarshalPartial t raw = some v) : (unmarshalVT E t (a ++ raw) m).1 = v := by
  have hFa : E.A.Fits a.length := by unfold Arch.Fits at hF ⊢; simp at hF; omega
  obtain ⟨s, u, x, rfl⟩ := (ha.typed hE hf hm hFa).nonnil
  obtain ⟨n, has, h1, h2, h3⟩ := loop_after hE.schema hE.arch hf hF ha
  have hpos : 1 ≤ raw.length := by
    obtain ⟨_, tag, _, hraw, htag, _⟩ := hr.split
    rw [hraw, List.length_append]
    have := htag.shape.length_pos
    omega
  unfold unmarshalVT
  rw [unmarshalN]
  unfold unmarshalBody
  obtain ⟨n, rfl⟩ : ∃ q, n = q + 1 := ⟨n - 1, by omega⟩
  obtain ⟨n, rfl⟩ : ∃ q, n = q + 1 := ⟨n - 1, by omega⟩
  rw [UM.bind_def, h3, recordLoop, if_pos (by simp; omega), UM.bind_def,
    recordStep_extension hE.arch _ 0 has hr hF (by simp) (rest := []) (by simp) hno hext hv]
  simp only
  rw [recordLoop, if_neg (by simp)]
  simp only [UM.pure_def]
  cases checkRequired (E.S.msg t) has (E.S.msg t).fields <;> simp [UM.lift, UM.bind_def]

end

end Vtp
