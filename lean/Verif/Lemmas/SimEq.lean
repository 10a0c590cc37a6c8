import Verif.Lemmas.Sim
/-! Runs of the decoder with the same messages. -/

namespace Vtp
open Spec

/-- Equality. -/
def VRel.eq : VRel := ⟨fun _ => Eq, fun _ _ => Eq, Eq⟩

theorem Sim.refl {α : Type} (x : UM α) : Sim false Eq x x Eq := by
  rintro m _ rfl
  unfold SimOut
  cases h : (x m).2 with
  | ok a => exact ⟨rfl, a, rfl, rfl⟩
  | err e => exact .inr ⟨rfl, rfl⟩
  | panic e => exact .inr ⟨rfl, rfl⟩
  | diverge => exact .inr ⟨rfl, rfl⟩

theorem Sim.refl' {α : Type} (x : UM α) : Sim false Eq x x (fun _ _ => True) := (Sim.refl x).mono fun _ _ _ => trivial

theorem VRel.eq_scal {v v' : Val} (h : VRel.eq.scal v v') : v = v' := by
  rcases h with rfl | ⟨b, b', rfl, rfl, rfl⟩ <;> rfl

theorem VRel.eq_elem {k : Kind} {t : Nat} {v v' : Val} (h : VRel.eq.elem k t v v') : v = v' := by
  unfold VRel.elem at h
  split at h
  · rcases h with ⟨rfl, rfl⟩ | h
    · rfl
    · exact h
  · exact VRel.eq_scal h

/-- Environments that differ in the treatment of the input buffer and in the pool only. -/
structure SameCode (E E' : UEnv) : Prop where
  schema : E'.S = E.S
  runtime : E'.R = E.R
  arch : E'.A = E.A
  make : E.A.bits = 64 ∨ E'.aliasing = E.aliasing ∨ noBytesMaps E.S

theorem SameCode.refl (E : UEnv) : SameCode E E := ⟨rfl, rfl, rfl, .inr (.inl rfl)⟩

theorem simEnv_eq {E E' : UEnv} (h : SameCode E E') (hA : E.A.Valid) : SimEnv VRel.eq E E' where
  schema := by rw [h.schema]; exact SamePlan.refl _
  runtime := h.runtime
  arch := h.arch
  valid := hA
  make := h.make
  nil := by rintro t m _ rfl; rfl
  zero _ := rfl
  rt _ _ _ _ _ := rfl
  part t b := by
    have : runtimePartial E' t b = runtimePartial E t b := by unfold runtimePartial; rw [h.runtime]
    rw [this]; exact Sim.refl' _
  get t _ f _ := Sim.refl _
  set t _ f _ v v' hv := by cases hv; exact Sim.refl' _
  unk t _ b := Sim.refl' _
  num _ _ _ _ _ _ _ := rfl
  str _ _ _ _ _ _ _ _ hb := by cases hb; rfl
  wrap _ f _ _ v v' hv := by rw [VRel.eq_elem hv]; rfl
  append _ f _ _ _ _ s s' hs v v' hv := by
    cases hs
    rw [VRel.eq_scal hv]
    exact SimRes.of (.inr rfl) fun a ha => ⟨a, ha, rfl⟩
  elems _ f _ _ s s' hs := by cases hs; rfl
  empty _ _ _ _ := rfl
  map _ f _ md _ s s' hs := by
    cases hs
    refine ⟨rfl, ?_⟩
    cases hm : (if s.isNil then Val.map [] else s) with
    | map es => exact .inl ⟨es, es, rfl, rfl, fun k v v' hv => by rw [VRel.eq_elem hv]; rfl⟩
    | _ => exact .inr fun k v v' => Sim.refl' _
  sub t f _ _ _ s s' hs off off' ha := by
    cases hs
    have hn : newSub E' (E.S.msg t) off' f.msg = newSub E (E.S.msg t) off f.msg := by
      unfold newSub
      rw [h.schema]
      split
      · rename_i hp
        simp only [Bool.and_eq_true] at hp
        rw [← UEnv.fresh_pooled (by rw [h.schema]; exact hp.2)]; exact (ha hp.2).symm
      · rfl
    have : subTarget E' (E.S.msg t) f off' s = subTarget E (E.S.msg t) f off s := by
      unfold subTarget
      rw [hn, h.schema]
    rw [show E'.S.msg t = E.S.msg t by rw [h.schema], this]
    exact ⟨SimRes.of (.inr rfl) fun a ha => ⟨a, ha, rfl⟩, fun x x' hx => by cases hx; rfl, rfl⟩

theorem Sim.eq_iff {x x' : UM Unit} (h : Sim false Eq x x' (fun _ _ => True)) : x = x' := by
  funext m
  have := h m m rfl
  unfold SimOut at this
  generalize x m = r at this
  generalize x' m = r' at this
  obtain ⟨m1, r⟩ := r
  obtain ⟨m2, r'⟩ := r'
  simp only at this
  cases r with
  | ok u => obtain ⟨rfl, v, rfl, _⟩ := this; rfl
  | err e => simp at this; obtain ⟨rfl, rfl⟩ := this; rfl
  | panic e => simp at this; obtain ⟨rfl, rfl⟩ := this; rfl
  | diverge => simp at this; obtain ⟨rfl, rfl⟩ := this; rfl

/-- The decoder does not depend on the recursion limit, nor on where things are kept. -/
theorem unmarshalN_congr {E E' : UEnv} (h : SameCode E E') (hA : E.A.Valid) (hS : schemaOK E.S = true) {n n' off off' t : Nat} {b : Bytes}
    (hf : (E.S.msg t).foreign = false) (hn : b.length < n) (hn' : b.length < n') (hF : E.A.Fits b.length) (hp : Pos VRel.eq E E' off off' b) :
    unmarshalN E n off t b = unmarshalN E' n' off' t b :=
  (sim_unmarshalN (lax := false) (simEnv_eq h hA) hS n n' off off' t b hf (by omega) hF hp).eq_iff

theorem unmarshalN_fuel {E : UEnv} (hA : E.A.Valid) (hS : schemaOK E.S = true) {n n' off t : Nat} {b : Bytes}
    (hf : (E.S.msg t).foreign = false) (hn : b.length < n) (hn' : b.length < n') (hF : E.A.Fits b.length) :
    unmarshalN E n off t b = unmarshalN E n' off t b :=
  unmarshalN_congr (SameCode.refl E) hA hS hf hn hn' hF ⟨fun _ _ _ => rfl, fun _ _ _ hp => by rw [UEnv.fresh_pooled (by exact hp)]; rfl⟩

/-! ## Concatenation -/

theorem markField_len {d : MsgDesc} {f : FieldDesc} {has has' : List (BitVec 64)} (h : markField d f has = .ok has') : has'.length = has.length := by
  unfold markField at h
  split at h
  · simp only at h
    split at h
    · simp only [Res.ok.injEq] at h; rw [← h]; simp
    · simp at h
  · simp only [Res.ok.injEq] at h; rw [h]

theorem UM.bind_eq {α β : Type} {x : UM α} {f : α → UM β} {m m' : Val} {b : β} (h : (x >>= f) m = (m', .ok b)) :
    ∃ m1 a, x m = (m1, .ok a) ∧ f a m1 = (m', .ok b) := by
  rw [UM.bind_def] at h
  generalize hx : x m = r at h
  obtain ⟨m1, r⟩ := r
  cases r with
  | ok a => exact ⟨m1, a, rfl, h⟩
  | err e => simp at h
  | panic e => simp at h
  | diverge => simp at h

theorem UM.bind_run {α β : Type} {x : UM α} {m m1 : Val} {a : α} (h : x m = (m1, .ok a)) (f : α → UM β) : (x >>= f) m = f a m1 := by
  rw [UM.bind_def, h]

theorem UM.lift_eq {α : Type} {r : Res α} {m m' : Val} {a : α} (h : UM.lift r m = (m', .ok a)) : m' = m ∧ r = .ok a := by
  simp only [UM.lift_def, Prod.mk.injEq] at h; exact ⟨h.1.symm, h.2⟩

theorem UM.pure_eq {α : Type} {b : α} {m m' : Val} {a : α} (h : (pure b : UM α) m = (m', .ok a)) : m' = m ∧ b = a := by
  simp only [UM.pure_def, Prod.mk.injEq, Res.ok.injEq] at h; exact ⟨h.1.symm, h.2⟩

theorem recordStep_len {E : UEnv} {rec : SubDec} {t : Nat} {b : Bytes} {base i : Nat} {has : List (BitVec 64)} {m m' : Val} {j : Nat} {has' : List (BitVec 64)}
    (h : recordStep E rec t b base i has m = (m', .ok (j, has'))) : has'.length = has.length := by
  unfold recordStep at h
  obtain ⟨m1, ⟨wire, k⟩, _, h⟩ := UM.bind_eq h
  simp only at h
  split at h
  · simp at h
  · split at h
    · simp at h
    · generalize (E.S.msg t).fields.find? _ = o at h
      cases o with
      | some f =>
        obtain ⟨m2, k2, _, h⟩ := UM.bind_eq h
        obtain ⟨m3, has3, h3, h⟩ := UM.bind_eq h
        obtain ⟨_, h3⟩ := UM.lift_eq h3
        obtain ⟨_, h⟩ := UM.pure_eq h
        simp only [Prod.mk.injEq] at h
        rw [← h.2]
        exact markField_len h3
      | none =>
        obtain ⟨m2, k2, _, h⟩ := UM.bind_eq h
        obtain ⟨_, h⟩ := UM.pure_eq h
        simp only [Prod.mk.injEq] at h
        rw [← h.2]

theorem recordLoop_len {E : UEnv} {rec : SubDec} {t : Nat} {b : Bytes} {base : Nat} : ∀ (n i : Nat) {has : List (BitVec 64)} {m m' : Val} {j : Nat} {has' : List (BitVec 64)},
    recordLoop E rec t b base n i has m = (m', .ok (j, has')) → has'.length = has.length := by
  intro n
  induction n with
  | zero => intro i has m m' j has' h; simp [recordLoop] at h
  | succ n ih =>
    intro i has m m' j has' h
    rw [recordLoop] at h
    split at h
    · obtain ⟨m1, ⟨k, has1⟩, h1, h2⟩ := UM.bind_eq h
      rw [ih k h2, recordStep_len h1]
    · obtain ⟨_, h⟩ := UM.pure_eq h
      simp only [Prod.mk.injEq] at h
      rw [h.2]

theorem noFields_rel {lax : Bool} (d : MsgDesc) {has : List (BitVec 64)} (h : has.length = (noFields d).length) (hl : lax = true) :
    HasRel lax (noFields d) has := by
  refine .inr ⟨hl, h, fun q w w' hw _ => ?_⟩
  have : w = 0 := by
    unfold noFields at hw
    split at hw
    · rw [List.getElem?_replicate] at hw
      split at hw
      · simpa using hw.symm
      · simp at hw
    · simp at hw
  subst this
  simp

/-- A run over a prefix of the input is the beginning of a run over the input. -/
theorem recordLoop_prefix {V : VRel} {E E' : UEnv} (hE : SimEnv V E E') (hS : schemaOK E.S = true) {rec rec' : SubDec} {d d' : Bytes}
    (hr : RecSim V E E' true rec rec' d.length) {t : Nat} (hf : (E.S.msg t).foreign = false) (base base' : Nat) :
    ∀ (n n' i i' : Nat) (has has' : List (BitVec 64)) (m m' m1 : Val) (j : Nat) (h1 : List (BitVec 64)),
      At V E E' true d base i d' base' i' → d'.length - i' < n' → HasRel true has has' → V.msg t m m' →
      recordLoop E rec t d base n i has m = (m1, .ok (j, h1)) →
      ∃ n1 h1' m1', d'.length - (i' + (d.length - i)) < n1 ∧ HasRel true h1 h1' ∧ V.msg t m1 m1' ∧
        recordLoop E' rec' t d' base' n' i' has' m' = recordLoop E' rec' t d' base' n1 (i' + (d.length - i)) h1' m1' := by
  intro n
  induction n with
  | zero => intro n' i i' has has' m m' m1 j h1 _ _ _ _ h; simp [recordLoop] at h
  | succ n ih =>
    intro n' i i' has has' m m' m1 j h1 hat hn' hh hm h
    have hle := hat.ext.le
    have hlen := hat.ext.len
    rw [recordLoop] at h
    split at h
    · rename_i hi
      obtain ⟨m2, ⟨k, has2⟩, h2, h3⟩ := UM.bind_eq h
      have hs := sim_recordStep hE hS hr hf hat (.inl rfl) hh m m' hm
      rw [h2] at hs
      obtain ⟨hm2, ⟨k', has2'⟩, h4, ⟨h5, h6, h7⟩, h8⟩ := hs
      simp only at h5 h6 h7 h8 hm2
      obtain ⟨n', rfl⟩ : ∃ q, n' = q + 1 := ⟨n' - 1, by omega⟩
      obtain ⟨n1, h1', m1', g1, g2, g3, g4⟩ := ih n' k k' has2 has2' _ _ m1 j h1 (hat.adv (by omega) h6 h7) (by omega) h8 hm2 h3
      rw [show k' + (d.length - k) = i' + (d.length - i) by omega] at g1 g4
      refine ⟨n1, h1', m1', g1, g2, g3, ?_⟩
      rw [← g4]
      conv => lhs; rw [recordLoop]
      rw [if_pos (by omega)]
      exact UM.bind_run (Prod.ext rfl h4) _
    · obtain ⟨rfl, h⟩ := UM.pure_eq h
      cases h
      refine ⟨n', has', m', ?_, hh, hm, ?_⟩
      · omega
      · rw [show i' + (d.length - i) = i' by omega]

theorem unmarshalBody_ok {E : UEnv} {rec : SubDec} {off t : Nat} {b : Bytes} {m m' : Val} (h : unmarshalBody E rec off t b m = (m', .ok ())) :
    ∃ j has, recordLoop E rec t b off (b.length + 1) 0 (noFields (E.S.msg t)) m = (m', .ok (j, has)) ∧
      checkRequired (E.S.msg t) has (E.S.msg t).fields = .ok () := by
  unfold unmarshalBody at h
  obtain ⟨m1, ⟨j, has⟩, h1, h2⟩ := UM.bind_eq h
  obtain ⟨m2, u, h3, h4⟩ := UM.bind_eq h2
  obtain ⟨e1, h5⟩ := UM.lift_eq h3
  split at h4
  · simp at h4
  · obtain ⟨e2, _⟩ := UM.pure_eq h4
    subst e1 e2
    exact ⟨j, has, h1, h5⟩

theorem recordLoop_end {E : UEnv} {rec : SubDec} {t : Nat} {b : Bytes} {base n : Nat} (hn : 0 < n) (has : List (BitVec 64)) {i : Nat} (hi : b.length ≤ i) (m : Val) :
    recordLoop E rec t b base n i has m = (m, .ok (i, has)) := by
  obtain ⟨n, rfl⟩ : ∃ q, n = q + 1 := ⟨n - 1, by omega⟩
  rw [recordLoop, if_neg (by omega)]
  rfl

/-- Decoding `a ++ b` is decoding `a` and then `b`. -/
theorem unmarshalN_append {E1 E2 E : UEnv} (h1 : SameCode E1 E) (h2 : SameCode E2 E) (hA : E.A.Valid) (hS : schemaOK E.S = true) {t off : Nat} {a b : Bytes}
    (hf : (E.S.msg t).foreign = false) (hF : E.A.Fits (a ++ b).length) {n1 n2 n off1 off2 : Nat} (hn1 : a.length < n1) (hn2 : b.length < n2) (hn : (a ++ b).length < n)
    (hp1 : Pos VRel.eq E1 E off1 off a) (hp2 : Pos VRel.eq E2 E off2 (off + a.length) b) {m m1 m2 : Val}
    (ha : unmarshalN E1 n1 off1 t a m = (m1, .ok ())) (hb : unmarshalN E2 n2 off2 t b m1 = (m2, .ok ())) :
    unmarshalN E n off t (a ++ b) m = (m2, .ok ()) := by
  have hA1 : E1.A.Valid := by rw [← h1.arch]; exact hA
  have hA2 : E2.A.Valid := by rw [← h2.arch]; exact hA
  have hS1 : schemaOK E1.S = true := by rw [← h1.schema]; exact hS
  have hS2 : schemaOK E2.S = true := by rw [← h2.schema]; exact hS
  have hf1 : (E1.S.msg t).foreign = false := by rw [← h1.schema]; exact hf
  have hf2 : (E2.S.msg t).foreign = false := by rw [← h2.schema]; exact hf
  have hFa : E1.A.Fits a.length := by rw [← h1.arch]; unfold Arch.Fits at hF ⊢; simp at hF; omega
  have hFb : E2.A.Fits b.length := by rw [← h2.arch]; unfold Arch.Fits at hF ⊢; simp at hF; omega
  obtain ⟨n1, rfl⟩ : ∃ q, n1 = q + 1 := ⟨n1 - 1, by omega⟩
  obtain ⟨n2, rfl⟩ : ∃ q, n2 = q + 1 := ⟨n2 - 1, by omega⟩
  obtain ⟨n, rfl⟩ : ∃ q, n = q + 1 := ⟨n - 1, by omega⟩
  rw [unmarshalN] at ha hb ⊢
  obtain ⟨ja, hasa, ha1, ha2⟩ := unmarshalBody_ok ha
  obtain ⟨jb, hasb, hb1, hb2⟩ := unmarshalBody_ok hb
  have hlen : (a ++ b).length = a.length + b.length := by simp
  have s1 := simEnv_eq h1 hA1
  have s2 := simEnv_eq h2 hA2
  have r1 : RecSim VRel.eq E1 E true (unmarshalN E1 n1) (unmarshalN E n) a.length := fun o o' t c hf hc =>
    sim_unmarshalN s1 hS1 n1 n o o' t c hf (by omega)
  have r2 : RecSim VRel.eq E2 E true (unmarshalN E2 n2) (unmarshalN E n) b.length := fun o o' t c hf hc =>
    sim_unmarshalN s2 hS2 n2 n o o' t c hf (by omega)
  have at1 : At VRel.eq E1 E true a off1 0 (a ++ b) off 0 := by
    refine ⟨⟨by omega, by omega, by simp, .inl rfl, hFa, ?_⟩, by simpa using hp1⟩
    rw [← h1.arch]; exact hF
  have at2 : At VRel.eq E2 E true b off2 0 (a ++ b) off a.length := by
    refine ⟨⟨by omega, by omega, by simp, .inl rfl, hFb, ?_⟩, by simpa using hp2⟩
    rw [← h2.arch]; exact hF
  rw [h1.schema] at *
  obtain ⟨k1, g1, m1', e1, e2, e3, e4⟩ := recordLoop_prefix s1 hS1 r1 hf1 off1 off (a.length + 1) ((a ++ b).length + 1) 0 0 _ _ m m m1 ja hasa
    at1 (by omega) (.inl rfl) rfl ha1
  cases e3
  have hg1 : HasRel true (noFields (E2.S.msg t)) g1 := by
    apply noFields_rel _ _ rfl
    rw [e2.len, recordLoop_len _ _ ha1, ← h1.schema, h2.schema]
  obtain ⟨k2, g2, m2', e5, e6, e7, e8⟩ := recordLoop_prefix s2 hS2 r2 hf2 off2 off (b.length + 1) k1 0 a.length _ _ m1 m1 m2 jb hasb
    at2 (by simp at e1 ⊢; omega) hg1 rfl hb1
  cases e7
  unfold unmarshalBody
  rw [h1.schema, UM.bind_def, e4]
  simp only [Nat.zero_add, Nat.sub_zero] at e8 ⊢
  rw [e8, recordLoop_end (by omega) _ (by simp)]
  simp only
  have hc := sim_checkRequired e6 (E2.S.msg t) (E2.S.msg t).fields
  rw [hb2] at hc
  obtain ⟨_, hc, _⟩ := hc
  rw [← h2.schema, h1.schema] at hc
  rw [hc, UM.lift_ok_bind, if_neg (by simp)]
  rfl

end Vtp
