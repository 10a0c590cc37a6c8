import Verif.Lemmas.UM
/-! The pure readers give the same result when the input is shifted or continued. -/

namespace Vtp
open Spec

/-- Two outcomes agree: success on the left is matched on the right with related values; otherwise the
outcomes are the same, or, with `lax`, anything. -/
def SimRes {α β : Type} (lax : Bool) (Q : α → β → Prop) (r : Res α) (r' : Res β) : Prop :=
  match r with
  | .ok a => ∃ b, r' = .ok b ∧ Q a b
  | .err e => lax = true ∨ r' = .err e
  | .panic p => lax = true ∨ r' = .panic p
  | .diverge => lax = true ∨ r' = .diverge

theorem SimRes.of {α : Type} {lax : Bool} {Q : α → α → Prop} {r r' : Res α} (h : lax = true ∨ r = r')
    (hok : ∀ a, r = .ok a → ∃ b, r' = .ok b ∧ Q a b) : SimRes lax Q r r' := by
  cases r with
  | ok a => exact hok a rfl
  | err e => exact h.imp id Eq.symm
  | panic e => exact h.imp id Eq.symm
  | diverge => exact h.imp id Eq.symm

theorem SimRes.mono {α β : Type} {lax : Bool} {Q Q' : α → β → Prop} {r : Res α} {r' : Res β} (h : SimRes lax Q r r')
    (hq : ∀ a b, Q a b → Q' a b) : SimRes lax Q' r r' := by
  cases r with
  | ok a => obtain ⟨b, h1, h2⟩ := h; exact ⟨b, h1, hq a b h2⟩
  | err e => exact h
  | panic e => exact h
  | diverge => exact h

theorem SimRes.bind {α β α' β' : Type} {lax : Bool} {Q : α → α' → Prop} {Q' : β → β' → Prop} {r : Res α} {r' : Res α'}
    {f : α → Res β} {f' : α' → Res β'} (h : SimRes lax Q r r') (hf : ∀ a b, Q a b → SimRes lax Q' (f a) (f' b)) :
    SimRes lax Q' (r >>= f) (r' >>= f') := by
  cases r with
  | ok a => obtain ⟨b, rfl, h2⟩ := h; exact hf a b h2
  | err e => rcases h with h | rfl <;> [exact .inl h; exact .inr rfl]
  | panic e => rcases h with h | rfl <;> [exact .inl h; exact .inr rfl]
  | diverge => rcases h with h | rfl <;> [exact .inl h; exact .inr rfl]

/-- The bytes at `i` of `d` are those at `i'` of `d'`, where more may follow; without `lax` it is the same
place of the same input. -/
structure Ext (lax : Bool) (A : Arch) (d : Bytes) (i : Nat) (d' : Bytes) (i' : Nat) : Prop where
  le : i ≤ d.length
  le' : i' ≤ d'.length
  pre : d.drop i <+: d'.drop i'
  same : lax = true ∨ d = d' ∧ i = i'
  fits : A.Fits d.length
  fits' : A.Fits d'.length

variable {lax : Bool} {A : Arch} {d d' : Bytes} {i i' : Nat}

theorem prefix_drop {l l' : Bytes} (h : l <+: l') (n : Nat) : l.drop n <+: l'.drop n := by
  obtain ⟨r, rfl⟩ := h
  rw [List.drop_append]
  exact List.prefix_append _ _

theorem Ext.len (h : Ext lax A d i d' i') : d.length + i' ≤ d'.length + i := by
  have := h.pre.length_le
  have := h.le; have := h.le'
  simp only [List.length_drop] at *
  omega

theorem Ext.adv (h : Ext lax A d i d' i') {j j' : Nat} (h1 : i ≤ j) (h2 : j ≤ d.length) (h3 : j' + i = i' + j) : Ext lax A d j d' j' := by
  have hl := h.len
  refine ⟨h2, by omega, ?_, ?_, h.fits, h.fits'⟩
  · have := prefix_drop h.pre (j - i)
    rw [List.drop_drop, List.drop_drop] at this
    rwa [show i + (j - i) = j by omega, show i' + (j - i) = j' by omega] at this
  · rcases h.same with h | ⟨h4, h5⟩
    · exact .inl h
    · exact .inr ⟨h4, by omega⟩

theorem Ext.refl (hf : A.Fits d.length) (hi : i ≤ d.length) : Ext lax A d i d i :=
  ⟨hi, hi, List.prefix_rfl, .inr ⟨rfl, rfl⟩, hf, hf⟩

/-- Indices at the same distance. -/
def Adv (d : Bytes) (i i' : Nat) (j j' : Nat) : Prop := i < j ∧ j ≤ d.length ∧ j' + i = i' + j

theorem getElem?_pre (h : d.drop i <+: d'.drop i') {b : UInt8} (hb : d[i]? = some b) : d'[i']? = some b := by
  obtain ⟨r, hr⟩ := h
  have h1 : (d.drop i)[0]? = some b := by simpa using hb
  have h2 : (d'.drop i')[0]? = some b := by
    rw [← hr, List.getElem?_append_left]
    · exact h1
    · rcases hd : d.drop i with _ | ⟨x, xs⟩
      · rw [hd] at h1; simp at h1
      · simp
  simpa using h2

theorem decodeVarintLoop_pre (w : Nat) : ∀ (n s i i' : Nat) (acc v : BitVec w) (j : Nat), d.drop i <+: d'.drop i' →
    decodeVarintLoop w d n s i acc = .ok (v, j) → ∃ c, j = i + c ∧ decodeVarintLoop w d' n s i' acc = .ok (v, i' + c) := by
  intro n
  induction n with
  | zero => intro s i i' acc v j _ h; simp [decodeVarintLoop] at h
  | succ n ih =>
    intro s i i' acc v j hp h
    rw [decodeVarintLoop] at h ⊢
    split at h
    · simp at h
    · rename_i hs
      rw [if_neg hs]
      split at h
      · simp at h
      · rename_i hl
        rw [List.getElem?_eq_getElem (by omega)] at h
        have hb := getElem?_pre hp (List.getElem?_eq_getElem (by omega : i < d.length))
        have hl' : ¬ i' ≥ d'.length := by
          intro hge
          rw [List.getElem?_eq_none hge] at hb
          simp at hb
        rw [if_neg hl', hb]
        simp only at h ⊢
        split at h
        · rename_i h8
          rw [if_pos h8]
          simp only [Res.ok.injEq, Prod.mk.injEq] at h
          exact ⟨1, h.2.symm, by rw [h.1]⟩
        · rename_i h8
          rw [if_neg h8]
          have hp' : d.drop (i + 1) <+: d'.drop (i' + 1) := by
            have := prefix_drop hp 1
            rwa [List.drop_drop, List.drop_drop] at this
          obtain ⟨c, h1, h2⟩ := ih _ _ _ _ _ _ hp' h
          exact ⟨c + 1, by omega, by rw [h2]; congr 2; omega⟩

/-- Reading into a variable that holds `acc`. -/
theorem sim_varintLoop (h : Ext lax A d i d' i') (w : Nat) (acc : BitVec w) :
    SimRes lax (fun a b => b.1 = a.1 ∧ Adv d i i' a.2 b.2) (decodeVarintLoop w d 11 0 i acc) (decodeVarintLoop w d' 11 0 i' acc) := by
  refine SimRes.of ?_ ?_
  · rcases h.same with h | ⟨rfl, rfl⟩
    · exact .inl h
    · exact .inr rfl
  · rintro ⟨v, j⟩ hv
    have hj := decodeVarintLoop_all w d 11 0 i acc rfl (by omega)
    rw [Nat.mul_zero, hv] at hj
    obtain ⟨c, h1, h2⟩ := decodeVarintLoop_pre w _ _ _ _ _ _ _ h.pre hv
    exact ⟨_, h2, rfl, hj.1, hj.2, by simp; omega⟩

theorem sim_varint (h : Ext lax A d i d' i') (w : Nat) :
    SimRes lax (fun a b => b.1 = a.1 ∧ Adv d i i' a.2 b.2) (decodeVarint w d i) (decodeVarint w d' i') := sim_varintLoop h w 0

theorem sim_span (hA : A.Valid) (h : Ext lax A d i d' i') (w : Nat) :
    SimRes lax (fun a b => Adv d i i' a.1 b.1 ∧ a.1 ≤ a.2 ∧ a.2 ≤ d.length ∧ b.2 + i = i' + a.2) (readSpan A w d i) (readSpan A w d' i') := by
  refine SimRes.of ?_ ?_
  · rcases h.same with h | ⟨rfl, rfl⟩
    · exact .inl h
    · exact .inr rfl
  · rintro ⟨j, post⟩ hv
    have hall := readSpan_all hA w h.fits i
    rw [hv] at hall
    simp only [Res.All] at hall
    have hs := sim_varint h w
    unfold readSpan at hv ⊢
    obtain ⟨⟨n, k⟩, h1, h2⟩ := Res.bind_eq_ok.1 hv
    rw [h1] at hs
    obtain ⟨⟨n', k'⟩, h3, h4, h5⟩ := hs
    simp only at h2 h4
    subst h4
    rw [h3]
    simp only [Res.bind_ok]
    split at h2
    · simp at h2
    · rename_i hl
      split at h2
      · simp at h2
      · rename_i hp
        split at h2
        · simp at h2
        · rename_i hq
          simp only [Res.ok.injEq, Prod.mk.injEq] at h2
          obtain ⟨rfl, rfl⟩ := h2
          have hw : A.wrap n'.toInt < (2 ^ (A.bits - 1) : Nat) := by
            have := hA.pos
            have hp := two_pow_pred (n := A.bits) (by omega)
            have : A.wrap n'.toInt < ((2 ^ A.bits : Nat) + 1) / 2 := by
              unfold Arch.wrap; exact Int.bmod_lt (by positivity)
            omega
          have hf := h.fits
          have hf' := h.fits'
          unfold Arch.Fits at hf hf'
          have hpos := hA.pos
          have h2p := two_pow_pred (n := A.bits) (by omega)
          have hlen := h.len
          obtain ⟨a1, a2, a3⟩ := h5
          simp only at a1 a2 a3
          have heq : A.wrap (↑k + A.wrap n'.toInt) = ↑k + A.wrap n'.toInt := by
            rcases Arch.wrap_cases hA (k + A.wrap n'.toInt) (by omega) (by omega) with h | h
            · exact h.1
            · omega
          rw [heq] at hp hq hall ⊢
          rw [if_neg hl, Arch.wrap_small hA (k' + A.wrap n'.toInt) (by omega) (by omega), if_neg (by omega), if_neg (by omega)]
          exact ⟨_, rfl, ⟨hall.1, by omega, by simp only; omega⟩, hall.2.1, hall.2.2, by simp only; omega⟩

theorem sim_slice (h : Ext lax A d i d' i') {j j' : Nat} (h1 : i ≤ j) (h2 : j ≤ d.length) (h3 : j' + i = i' + j) :
    slice d' i' j' = slice d i j := by
  have := h.len
  rw [slice_all h1 h2, slice_all (by omega) (by omega)]
  congr 1
  obtain ⟨r, hr⟩ := h.pre
  rw [← hr, List.take_append_of_le_length (by simp; omega), show j' - i' = j - i by omega]

theorem sim_fixed (hA : A.Valid) (h : Ext lax A d i d' i') {n : Nat} (hn : 0 < n) (hn8 : n ≤ 8) :
    SimRes lax (fun a b => b.1 = a.1 ∧ Adv d i i' a.2 b.2) (decodeFixed A n d i) (decodeFixed A n d' i') := by
  refine SimRes.of ?_ ?_
  · rcases h.same with h | ⟨rfl, rfl⟩
    · exact .inl h
    · exact .inr rfl
  · rintro ⟨v, j⟩ hv
    have hall := decodeFixed_all hA hn hn8 h.fits h.le
    rw [hv] at hall
    have hf := h.fits
    have hf' := h.fits'
    have hl := h.len
    have hle := h.le
    have hle' := h.le'
    unfold Arch.Fits at hf hf'
    unfold decodeFixed at hv ⊢
    rw [Arch.wrap_small hA _ (by omega) (by omega)] at hv ⊢
    split at hv
    · simp at hv
    · rename_i h1
      rw [if_pos (by omega)] at hv
      rw [if_neg (by omega), if_pos (by omega)]
      simp only [Res.ok.injEq, Prod.mk.injEq] at hv
      obtain ⟨rfl, rfl⟩ := hv
      refine ⟨_, rfl, ?_, hall.1, hall.2.1, by simp only; omega⟩
      obtain ⟨r, hr⟩ := h.pre
      simp only
      rw [← hr, List.take_append_of_le_length (by simp; omega)]

theorem sim_readNum (hA : A.Valid) (h : Ext lax A d i d' i') (k : Kind) :
    SimRes lax (fun a b => b.1 = a.1 ∧ Adv d i i' a.2 b.2) (readNum A k d i) (readNum A k d' i') := by
  have hfx : ∀ (n : Nat) (conv : Nat → BitVec 64), 0 < n → n ≤ 8 → SimRes lax (fun (a b : BitVec 64 × Nat) => b.1 = a.1 ∧ Adv d i i' a.2 b.2)
      (do let (v, j) ← decodeFixed A n d i; Res.ok (conv v, j)) (do let (v, j) ← decodeFixed A n d' i'; Res.ok (conv v, j)) := by
    intro n conv h1 h2
    refine (sim_fixed hA h h1 h2).bind ?_
    rintro ⟨v, j⟩ ⟨v', j'⟩ ⟨h4, h5⟩
    simp only at h4; subst h4
    exact ⟨_, rfl, rfl, h5⟩
  have hv : ∀ (w : Nat) (conv : BitVec w → BitVec 64), SimRes lax (fun (a b : BitVec 64 × Nat) => b.1 = a.1 ∧ Adv d i i' a.2 b.2)
      (do let (v, j) ← decodeVarint w d i; Res.ok (conv v, j)) (do let (v, j) ← decodeVarint w d' i'; Res.ok (conv v, j)) := by
    intro w conv
    refine (sim_varint h w).bind ?_
    rintro ⟨v, j⟩ ⟨v', j'⟩ ⟨h4, h5⟩
    simp only at h4; subst h4
    exact ⟨_, rfl, rfl, h5⟩
  cases k <;> simp only [readNum] <;>
    first
    | exact hv _ _
    | exact hfx 8 _ (by omega) (by omega)
    | exact hfx 4 _ (by omega) (by omega)
    | exact hv A.bits (fun v => if v = 0 then 0 else 1)
    | exact hv 32 (fun v => (unzigzag32 v).signExtend 64)
    | exact hfx 4 (fun v => (BitVec.ofNat 32 v).signExtend 64) (by omega) (by omega)
    | exact Or.inr rfl

theorem sim_skipAt (hA : A.Valid) (h : Ext lax A d i d' i') {l l' : Nat} (hl : l ≤ d.length) (hl' : l' + i = i' + l) :
    SimRes lax (fun a b => Adv d i i' a b ∧ a ≤ l) (skipAt A d i l) (skipAt A d' i' l') := by
  refine SimRes.of ?_ ?_
  · rcases h.same with h | ⟨rfl, rfl⟩
    · exact .inl h
    · exact .inr (by rw [show l' = l by omega])
  · intro j hj
    have hall := skipAt_all (limit := l) hA h.fits h.le
    rw [hj] at hall
    simp only [Res.All] at hall
    have hf := h.fits
    have hf' := h.fits'
    have hlen := h.len
    have hle := h.le
    have hle' := h.le'
    unfold Arch.Fits at hf hf'
    unfold skipAt at hj ⊢
    rw [slice_all hle (Nat.le_refl _)] at hj
    rw [slice_all hle' (Nat.le_refl _)]
    simp only [Res.bind_ok] at hj ⊢
    rw [← List.length_drop, List.take_length] at hj ⊢
    obtain ⟨n, h1, h2⟩ := Res.bind_eq_ok.1 hj
    have hfd : A.Fits (d.drop i).length := by unfold Arch.Fits; simp; omega
    have hn := skip_lt hA (d.drop i) hfd
    rw [h1] at hn
    simp only [Res.All] at hn
    have hpos := hA.pos
    have h2p := two_pow_pred (n := A.bits) (by omega)
    have hjn : j = i + n := by
      split at h2
      · simp at h2
      · split at h2
        · simp at h2
        · simp only [Res.ok.injEq] at h2
          rcases Arch.wrap_cases hA (i + n) (by omega) (by omega) with h | h <;> omega
    have hsound := skip_sound A hA (d.drop i) hfd n h1 (by simp; omega)
    obtain ⟨r, hr⟩ := h.pre
    have hd' : d'.drop i' = (d.drop i).take n ++ ((d.drop i).drop n ++ r) := by
      rw [← List.append_assoc, List.take_append_drop, hr]
    have hsk : skip A (d'.drop i') = .ok n := by
      rw [hd', skip_complete A hA _ _ (by rw [← hd']; unfold Arch.Fits; simp; omega) hsound]
      simp; omega
    rw [hsk]
    simp only [Res.bind_ok]
    rw [Arch.wrap_small hA (i' + n) (by omega) (by omega), if_neg (by omega), if_neg (by omega)]
    exact ⟨_, rfl, ⟨hall.1, by omega, by omega⟩, hall.2⟩

/-- Kinds decoded straight into the struct field. -/
def directKind : Kind → Bool
  | .int64 => true
  | .uint64 => true
  | .int32 => true
  | .enum => true
  | .uint32 => true
  | .fixed64 => true
  | .fixed32 => true
  | .sfixed64 => true
  | .sfixed32 => true
  | _ => false

theorem varintAcc_ok (w : Nat) : ∀ (n s i : Nat) (acc v : BitVec w) (j : Nat),
    decodeVarintLoop w d n s i acc = .ok (v, j) → varintAcc w d n s i acc = v := by
  intro n
  induction n with
  | zero => intro s i acc v j h; simp [decodeVarintLoop] at h
  | succ n ih =>
    intro s i acc v j h
    rw [decodeVarintLoop] at h
    rw [varintAcc]
    split at h
    · simp at h
    · rename_i hs
      rw [if_neg hs]
      split at h
      · simp at h
      · rename_i hl
        rw [List.getElem?_eq_getElem (by omega)] at h ⊢
        simp only at h ⊢
        split at h
        · rename_i h8
          rw [if_pos h8]
          simp only [Res.ok.injEq, Prod.mk.injEq] at h
          exact h.1
        · rename_i h8
          rw [if_neg h8]
          exact ih _ _ _ _ _ h

/-- After a successful read the struct field holds the value read. -/
theorem direct_ok {k : Kind} {v : BitVec 64} {j : Nat} (h : readNum A k d i = .ok (v, j)) :
    direct A k d i = if directKind k then some v else none := by
  have hv : ∀ (w : Nat) (conv : BitVec w → BitVec 64), (do let (v, j) ← decodeVarint w d i; Res.ok (conv v, j)) = .ok (v, j) →
      conv (varintAcc w d 11 0 i 0) = v := by
    intro w conv h
    obtain ⟨⟨u, k⟩, h1, h2⟩ := Res.bind_eq_ok.1 h
    simp only [Res.ok.injEq, Prod.mk.injEq] at h2
    rw [varintAcc_ok w _ _ _ _ _ _ h1]
    exact h2.1
  cases k <;> simp only [direct, directKind, if_true, Bool.false_eq_true, if_false, h]
  all_goals exact congrArg some (hv _ _ h)

end Vtp
