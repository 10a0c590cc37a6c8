import Verif.Lemmas.Ext
import Verif.Lemmas.Safe
/-! Two runs of the decoder side by side. -/

namespace Vtp
open Spec

/-- Two outcomes with receivers agree; see `SimRes`. -/
def SimOut {α β : Type} (lax : Bool) (P : Val → Val → Prop) (Q : α → β → Prop) (x : Val × Res α) (x' : Val × Res β) : Prop :=
  match x.2 with
  | .ok a => P x.1 x'.1 ∧ ∃ b, x'.2 = .ok b ∧ Q a b
  | .err e => lax = true ∨ P x.1 x'.1 ∧ x'.2 = .err e
  | .panic p => lax = true ∨ P x.1 x'.1 ∧ x'.2 = .panic p
  | .diverge => lax = true ∨ P x.1 x'.1 ∧ x'.2 = .diverge

/-- Two programs agree on related receivers. -/
def Sim {α β : Type} (lax : Bool) (P : Val → Val → Prop) (x : UM α) (x' : UM β) (Q : α → β → Prop) : Prop :=
  ∀ m m', P m m' → SimOut lax P Q (x m) (x' m')

namespace Sim
variable {α β α' β' : Type} {lax : Bool} {P : Val → Val → Prop}

theorem mono {x : UM α} {x' : UM α'} {Q Q' : α → α' → Prop} (h : Sim lax P x x' Q) (hq : ∀ a b, Q a b → Q' a b) : Sim lax P x x' Q' := by
  intro m m' hm
  have := h m m' hm
  unfold SimOut at *
  split at this
  · obtain ⟨h1, b, h2, h3⟩ := this; exact ⟨h1, b, h2, hq _ _ h3⟩
  all_goals exact this

theorem weaken {x : UM α} {x' : UM α'} {Q : α → α' → Prop} (h : Sim false P x x' Q) : Sim lax P x x' Q := by
  intro m m' hm
  have := h m m' hm
  unfold SimOut at *
  split at this
  · exact this
  all_goals exact .inr (by simpa using this)

theorem pure {a : α} {b : β} {Q : α → β → Prop} (h : Q a b) : Sim lax P (pure a : UM α) (pure b : UM β) Q :=
  fun _ _ hm => ⟨hm, b, rfl, h⟩

theorem lift {r : Res α} {r' : Res β} {Q : α → β → Prop} (h : SimRes lax Q r r') : Sim lax P (UM.lift r) (UM.lift r') Q := by
  intro m m' hm
  unfold SimOut
  cases r with
  | ok a => exact ⟨hm, h⟩
  | err e => exact h.imp id fun h => ⟨hm, h⟩
  | panic e => exact h.imp id fun h => ⟨hm, h⟩
  | diverge => exact h.imp id fun h => ⟨hm, h⟩

theorem bind {x : UM α} {x' : UM α'} {f : α → UM β} {f' : α' → UM β'} {Q : α → α' → Prop} {Q' : β → β' → Prop}
    (hx : Sim lax P x x' Q) (hf : ∀ a b, Q a b → Sim lax P (f a) (f' b) Q') : Sim lax P (x >>= f) (x' >>= f') Q' := by
  intro m m' hm
  rw [UM.bind_def, UM.bind_def]
  have h := hx m m' hm
  generalize x m = r at h
  generalize x' m' = r' at h
  obtain ⟨m1, r⟩ := r
  obtain ⟨m1', r'⟩ := r'
  unfold SimOut at h
  simp only at h
  cases r with
  | ok a => obtain ⟨h1, b, rfl, h2⟩ := h; exact hf a b h2 m1 m1' h1
  | err e => rcases h with h | ⟨h, rfl⟩ <;> [exact .inl h; exact .inr ⟨h, rfl⟩]
  | panic e => rcases h with h | ⟨h, rfl⟩ <;> [exact .inl h; exact .inr ⟨h, rfl⟩]
  | diverge => rcases h with h | ⟨h, rfl⟩ <;> [exact .inl h; exact .inr ⟨h, rfl⟩]

end Sim

theorem UM.bind_eq_ok {α β : Type} {x : UM α} {f : α → UM β} {m : Val} {b : β} (h : ((x >>= f) m).2 = .ok b) :
    ∃ m1 a, x m = (m1, .ok a) ∧ (f a m1).2 = .ok b := by
  rw [UM.bind_def] at h
  generalize hx : x m = r at h
  obtain ⟨m1, r⟩ := r
  cases r with
  | ok a => exact ⟨m1, a, rfl, h⟩
  | err e => simp at h
  | panic e => simp at h
  | diverge => simp at h

theorem Sim.of_fail {α β : Type} {P : Val → Val → Prop} {x : UM α} {x' : UM β} {Q : α → β → Prop}
    (h : ∀ m a, (x m).2 ≠ .ok a) : Sim true P x x' Q := by
  intro m m' _
  unfold SimOut
  cases hr : (x m).2 with
  | ok a => exact absurd hr (h m a)
  | err e => exact .inl rfl
  | panic e => exact .inl rfl
  | diverge => exact .inl rfl

/-! ## Relations between messages -/

/-- Related messages of a type, related values of the struct field of a field of a type. -/
structure VRel where
  msg : Nat → Val → Val → Prop
  slot : Nat → FieldDesc → Val → Val → Prop
  /-- Related contents of strings and byte slices taken from the input. -/
  str : Bytes → Bytes → Prop

/-- Related scalars. -/
def VRel.scal (V : VRel) (v v' : Val) : Prop := v = v' ∨ ∃ b b', v = .str b ∧ v' = .str b' ∧ V.str b b'

theorem VRel.scal_bits {V : VRel} {v v' : Val} (h : V.scal v v') : v.bits = v'.bits := by
  rcases h with rfl | ⟨b, b', rfl, rfl, _⟩ <;> rfl

/-- Related elements, oneof members and map values. -/
def VRel.elem (V : VRel) (k : Kind) (t : Nat) (v v' : Val) : Prop :=
  if k = .message ∨ k = .group then v = .nil ∧ v' = .nil ∨ V.msg t v v' else V.scal v v'

theorem VRel.elem_scalar {V : VRel} {k : Kind} {t : Nat} {v v' : Val} (h : k ≠ .message ∧ k ≠ .group) : V.elem k t v v' ↔ V.scal v v' := by
  simp [VRel.elem, h.1, h.2]

/-- The schemas differ at most in which messages are pooled. -/
def SamePlan (S S' : Schema) : Prop := ∀ t, S'.msg t = { S.msg t with pooled := (S'.msg t).pooled }

namespace SamePlan
variable {S S' : Schema} (h : SamePlan S S') (t : Nat)
include h
theorem fields : (S'.msg t).fields = (S.msg t).fields := by rw [h t]
theorem foreign : (S'.msg t).foreign = (S.msg t).foreign := by rw [h t]
theorem proto3 : (S'.msg t).proto3 = (S.msg t).proto3 := by rw [h t]
theorem keepUnknown : (S'.msg t).keepUnknown = (S.msg t).keepUnknown := by rw [h t]
theorem extRanges : (S'.msg t).extRanges = (S.msg t).extRanges := by rw [h t]
theorem nslots : (S'.msg t).nslots = (S.msg t).nslots := by rw [h t]
theorem required : (S'.msg t).required = (S.msg t).required := by unfold MsgDesc.required; rw [h.fields]
theorem noFields : Vtp.noFields (S'.msg t) = Vtp.noFields (S.msg t) := by unfold Vtp.noFields; rw [h.required]
theorem zeroMsg : Vtp.zeroMsg S' t = Vtp.zeroMsg S t := by
  unfold Vtp.zeroMsg
  have : zeroSlot (S'.msg t) = zeroSlot (S.msg t) := by funext s; unfold zeroSlot; rw [h.fields]
  rw [h.nslots, this]
theorem markField (f : FieldDesc) (has : List (BitVec 64)) : Vtp.markField (S'.msg t) f has = Vtp.markField (S.msg t) f has := by
  unfold Vtp.markField; rw [h.required]
theorem checkRequired (has : List (BitVec 64)) (fs : List FieldDesc) : Vtp.checkRequired (S'.msg t) has fs = Vtp.checkRequired (S.msg t) has fs := by
  induction fs with
  | nil => rfl
  | cons f fs ih => unfold Vtp.checkRequired; rw [h.required, ih]
end SamePlan

theorem SamePlan.refl (S : Schema) : SamePlan S S := fun _ => rfl

/-- What `TFromVTPool()` gives, or `&T{}` if there is no pool for the type. -/
def UEnv.fresh (E : UEnv) (off t : Nat) : Val := if (E.S.msg t).pooled then E.alloc off t else zeroMsg E.S t

theorem UEnv.fresh_pooled {E : UEnv} {off t : Nat} (h : (E.S.msg t).pooled = true) : E.fresh off t = E.alloc off t := by
  simp [UEnv.fresh, h]

/-- What is needed of two environments and a relation for the decoder to respect it. -/
structure SimEnv (V : VRel) (E E' : UEnv) : Prop where
  schema : SamePlan E.S E'.S
  runtime : E'.R = E.R
  arch : E'.A = E.A
  valid : E.A.Valid
  make : E.A.bits = 64 ∨ E'.aliasing = E.aliasing ∨ noBytesMaps E.S
  nil : ∀ t m m', V.msg t m m' → m.isNil = m'.isNil
  zero : ∀ t, V.msg t (zeroMsg E.S t) (zeroMsg E.S t)
  rt : ∀ t b v, (E.S.msg t).foreign = true → E.R.unmarshal t b = some v → V.msg t v v
  part : ∀ t b, Sim false (V.msg t) (runtimePartial E t b) (runtimePartial E' t b) fun _ _ => True
  get : ∀ t, (E.S.msg t).foreign = false → ∀ f ∈ (E.S.msg t).fields, Sim false (V.msg t) (getSlot f.slot) (getSlot f.slot) (V.slot t f)
  set : ∀ t, (E.S.msg t).foreign = false → ∀ f ∈ (E.S.msg t).fields, ∀ v v', V.slot t f v v' →
    Sim false (V.msg t) (setSlot f.slot v) (setSlot f.slot v') fun _ _ => True
  unk : ∀ t, (E.S.msg t).foreign = false → ∀ b, Sim false (V.msg t) (appendUnknown b) (appendUnknown b) fun _ _ => True
  num : ∀ t, ∀ f ∈ (E.S.msg t).fields, f.oneof = false → (f.card == .repeated) = false → numeric f.kind = true →
    ∀ n, V.slot t f (.num n) (.num n)
  str : ∀ t, ∀ f ∈ (E.S.msg t).fields, f.oneof = false → (f.card == .repeated) = false → f.kind = .string ∨ f.kind = .bytes →
    ∀ b b', V.str b b' → V.slot t f (.str b) (.str b')
  wrap : ∀ t, ∀ f ∈ (E.S.msg t).fields, f.oneof = true → ∀ v v', V.elem f.kind f.msg v v' → V.slot t f (.wrap f.num v) (.wrap f.num v')
  append : ∀ t, ∀ f ∈ (E.S.msg t).fields, f.oneof = false → (f.card == .repeated) = true → f.hasMessage = false → ∀ s s', V.slot t f s s' →
    ∀ v v', V.scal v v' → SimRes false (V.slot t f) (appendVal s v) (appendVal s' v')
  elems : ∀ t, ∀ f ∈ (E.S.msg t).fields, f.isList = true → ∀ s s', V.slot t f s s' → (s.elems = [] ↔ s'.elems = [])
  empty : ∀ t, ∀ f ∈ (E.S.msg t).fields, f.isList = true → V.slot t f (.list [] []) (.list [] [])
  map : ∀ t, ∀ f ∈ (E.S.msg t).fields, ∀ md, f.map = some md → ∀ s s', V.slot t f s s' →
    V.slot t f (if s.isNil then .map [] else s) (if s'.isNil then .map [] else s') ∧
    ((∃ es es', (if s.isNil then .map [] else s) = Val.map es ∧ (if s'.isNil then .map [] else s') = Val.map es' ∧
      ∀ k v v', V.elem md.val md.valMsg v v' → V.slot t f (.map (mapInsert es k v)) (.map (mapInsert es' k v'))) ∨
     ∀ k v v', Sim false (V.msg t) (mapPut f (if s.isNil then .map [] else s) k v) (mapPut f (if s'.isNil then .map [] else s') k v')
       fun _ _ => True)
  sub : ∀ t, ∀ f ∈ (E.S.msg t).fields, f.kind = .message → f.map = none → ∀ s s', V.slot t f s s' → ∀ off off',
    ((E.S.msg f.msg).pooled = true → V.msg f.msg (E.alloc off f.msg) (E'.fresh off' f.msg)) →
    SimRes false (V.msg f.msg) (subTarget E (E.S.msg t) f off s) (subTarget E' (E'.S.msg t) f off' s') ∧
    (∀ x x', V.msg f.msg x x' → V.slot t f (subAssign f s x) (subAssign f s' x')) ∧ holds f s = holds f s'

/-- The bytes `b` at offsets `off` and `off'` are kept the same way and the pool answers alike. -/
structure Pos (V : VRel) (E E' : UEnv) (off off' : Nat) (b : Bytes) : Prop where
  keep : ∀ k s, s <+: b.drop k → V.str (E.keep (off + k) s) (E'.keep (off' + k) s)
  alloc : ∀ k t, k ≤ b.length → (E.S.msg t).pooled = true → V.msg t (E.alloc (off + k) t) (E'.fresh (off' + k) t)

/-- A pair of positions in a pair of inputs. -/
structure At (V : VRel) (E E' : UEnv) (lax : Bool) (d : Bytes) (base i : Nat) (d' : Bytes) (base' i' : Nat) : Prop where
  ext : Ext lax E.A d i d' i'
  pos : Pos V E E' (base + i) (base' + i') (d.drop i)

variable {V : VRel} {E E' : UEnv} {lax : Bool} {d d' : Bytes} {base base' i i' t : Nat}

theorem Pos.sub {off off' : Nat} {b : Bytes} (h : Pos V E E' off off' b) (k n : Nat) (hk : k ≤ b.length) :
    Pos V E E' (off + k) (off' + k) ((b.drop k).take n) := by
  constructor
  · intro j s hs
    have := h.keep (k + j) s ?_
    · rwa [← Nat.add_assoc, ← Nat.add_assoc] at this
    · rw [List.drop_take, List.drop_drop] at hs
      exact hs.trans (List.take_prefix _ _)
  · intro j t hj hp
    have := h.alloc (k + j) t (by simp at hj; omega) hp
    rwa [← Nat.add_assoc, ← Nat.add_assoc] at this

theorem At.adv (h : At V E E' lax d base i d' base' i') {j j' : Nat} (h1 : i ≤ j) (h2 : j ≤ d.length) (h3 : j' + i = i' + j) :
    At V E E' lax d base j d' base' j' := by
  refine ⟨h.ext.adv h1 h2 h3, ?_⟩
  have := h.pos.sub (j - i) ((d.drop i).drop (j - i)).length (by simp; omega)
  rw [List.take_length, List.drop_drop] at this
  rwa [show base + i + (j - i) = base + j by omega, show base' + i' + (j - i) = base' + j' by omega,
    show i + (j - i) = j by omega] at this

theorem At.sub (h : At V E E' lax d base i d' base' i') (n : Nat) : Pos V E E' (base + i) (base' + i') ((d.drop i).take n) := by
  have := h.pos.sub 0 n (by omega)
  simpa using this

theorem At.keep (h : At V E E' lax d base i d' base' i') (n : Nat) :
    V.str (E.keep (base + i) ((d.drop i).take n)) (E'.keep (base' + i') ((d.drop i).take n)) := by
  have := h.pos.keep 0 ((d.drop i).take n) (by simpa using List.take_prefix _ _)
  simpa using this

/-- The recursive calls agree on inputs shorter than `N`. -/
def RecSim (V : VRel) (E E' : UEnv) (lax : Bool) (rec rec' : SubDec) (N : Nat) : Prop :=
  ∀ off off' t b, (E.S.msg t).foreign = false → b.length < N → E.A.Fits b.length → Pos V E E' off off' b →
    Sim lax (V.msg t) (rec off t b) (rec' off' t b) (fun _ _ => True)

theorem sim_decodeMessage (hE : SimEnv V E E') {rec rec' : SubDec} {N : Nat} (hr : RecSim V E E' lax rec rec' N) {off off' t : Nat} {b : Bytes}
    (hb : b.length < N) (hF : E.A.Fits b.length) (hp : Pos V E E' off off' b) :
    Sim lax (V.msg t) (decodeMessage E rec off t b) (decodeMessage E' rec' off' t b) (fun _ _ => True) := by
  intro m m' hm
  unfold decodeMessage
  rw [hE.schema.foreign, hE.runtime]
  cases hf : (E.S.msg t).foreign with
  | true =>
    simp only [if_true, ← hE.nil t m m' hm]
    split
    · exact .inr ⟨hm, rfl⟩
    · cases hu : E.R.unmarshal t b with
      | none => exact .inr ⟨hm, rfl⟩
      | some v => exact ⟨hE.rt t b v hf hu, (), rfl, trivial⟩
  | false => exact hr off off' t b hf hb hF hp m m' hm

theorem sim_mapItem (hE : SimEnv V E E') {k : Kind} {rec rec' : SubDec} {N : Nat} (hr : k = .message → RecSim V E E' lax rec rec' N)
    (hN : k = .message → d.length ≤ N + 1 ∧ 1 ≤ i)
    (hat : At V E E' lax d base i d' base' i') (hk : k ≠ .group) (hmake : k = .bytes → E.A.bits = 64 ∨ E'.aliasing = E.aliasing) (t : Nat) (old old' : Val) (ho : k ≠ .message → old.bits = old'.bits) :
    SimRes lax (fun a b => V.elem k t a.1 b.1 ∧ Adv d i i' a.2 b.2) (mapItem E rec k t d base i old) (mapItem E' rec' k t d' base' i' old') := by
  have hx := hat.ext
  have hv : ∀ (w : Nat) (acc acc' : BitVec w) (conv : BitVec w → BitVec 64), acc = acc' → (k ≠ .message ∧ k ≠ .group) →
      SimRes lax (fun (a b : Val × Nat) => V.elem k t a.1 b.1 ∧ Adv d i i' a.2 b.2)
        (do let (v, j) ← decodeVarintLoop w d 11 0 i acc; Res.ok (Val.num (conv v), j))
        (do let (v, j) ← decodeVarintLoop w d' 11 0 i' acc'; Res.ok (Val.num (conv v), j)) := by
    rintro w acc _ conv rfl hn
    refine (sim_varintLoop hx w acc).bind ?_
    rintro ⟨v, j⟩ ⟨v', j'⟩ ⟨h4, h5⟩
    simp only at h4; subst h4
    exact ⟨_, rfl, (VRel.elem_scalar hn).2 (.inl rfl), h5⟩
  have hn : (k ≠ .message ∧ k ≠ .group) → SimRes lax (fun (a b : Val × Nat) => V.elem k t a.1 b.1 ∧ Adv d i i' a.2 b.2)
        (do let (v, j) ← readNum E.A k d i; Res.ok (Val.num v, j))
        (do let (v, j) ← readNum E'.A k d' i'; Res.ok (Val.num v, j)) := by
    intro hn
    rw [hE.arch]
    refine (sim_readNum hE.valid hx k).bind ?_
    rintro ⟨v, j⟩ ⟨v', j'⟩ ⟨h4, h5⟩
    simp only at h4; subst h4
    exact ⟨_, rfl, (VRel.elem_scalar hn).2 (.inl rfl), h5⟩
  have hstr : (k ≠ .message ∧ k ≠ .group) → SimRes lax (fun (a b : Val × Nat) => V.elem k t a.1 b.1 ∧ Adv d i i' a.2 b.2)
        (do let (i, post) ← readSpan E.A 64 d i; let b ← slice d i post; .ok (.str (E.keep (base + i) b), post))
        (do let (i, post) ← readSpan E'.A 64 d' i'; let b ← slice d' i post; .ok (.str (E'.keep (base' + i) b), post)) := by
    intro hn
    rw [hE.arch]
    refine (sim_span hE.valid hx 64).bind ?_
    rintro ⟨j, post⟩ ⟨j', post'⟩ ⟨⟨h1, h2, h3⟩, h4, h5, h6⟩
    simp only at h1 h2 h3 h4 h5 h6 ⊢
    have hat' := hat.adv (by omega : i ≤ j) h2 h3
    rw [sim_slice hat'.ext h4 h5 (by omega), slice_all h4 h5]
    simp only [Res.bind_ok]
    exact ⟨_, rfl, (VRel.elem_scalar hn).2 (.inr ⟨_, _, rfl, rfl, hat'.keep _⟩), by simp only; omega, h5, h6⟩
  unfold mapItem
  cases k <;> simp only
  case int64 => exact hv 64 _ _ id (by rw [ho (by simp)]) (by simp)
  case uint64 => exact hv 64 _ _ id (by rw [ho (by simp)]) (by simp)
  case int32 => exact hv 32 _ _ _ (by rw [ho (by simp)]) (by simp)
  case enum => exact hv 32 _ _ _ (by rw [ho (by simp)]) (by simp)
  case uint32 => exact hv 32 _ _ _ (by rw [ho (by simp)]) (by simp)
  case string => exact hstr (by simp)
  case bytes =>
    rw [hE.arch]
    have hvi := sim_varint hx 64
    have hs := hstr (by simp)
    rw [hE.arch] at hs
    cases hd : decodeVarint 64 d i with
    | ok r =>
      obtain ⟨n, j⟩ := r
      rw [hd] at hvi
      obtain ⟨⟨n', j'⟩, h1, h2, h3⟩ := hvi
      simp only at h2; subst h2
      rw [h1]
      simp only [Res.bind_ok]
      -- the length test of `make` gives the same answer on both sides
      have hmk : ∀ q, readSpan E.A 64 d i = .ok q → E.A.bits = 64 → n'.toNat < 2 ^ 63 := by
        intro q hq hb
        unfold readSpan at hq
        rw [hd] at hq
        simp only [Res.bind_ok] at hq
        split at hq
        · simp at hq
        · rename_i hlen
          have hw : E.A.wrap n'.toInt = n'.toInt := by
            unfold Arch.wrap
            rw [hb, ← BitVec.toInt_ofInt]
            simp
          rw [hw, BitVec.toInt_eq_toNat_cond] at hlen
          split at hlen <;> omega
      have hsp := sim_span hE.valid hx 64
      cases hrs : readSpan E.A 64 d i with
      | ok q =>
        rw [hrs] at hsp hs
        obtain ⟨q', h4, h5⟩ := hsp
        rw [h4] at hs ⊢
        simp only [Res.bind_ok] at hs ⊢
        have hcond : (!E'.aliasing && decide (n'.toNat ≥ 2 ^ (E.A.bits - 1))) = (!E.aliasing && decide (n'.toNat ≥ 2 ^ (E.A.bits - 1))) := by
          rcases hmake rfl with hb | hb
          · have := hmk q hrs hb
            rw [hb]
            simp [show ¬ 9223372036854775808 ≤ n'.toNat by omega]
          · rw [hb]
        rw [hcond]
        split
        · exact .inr rfl
        · exact hs
      | err e =>
        rw [hrs] at hsp
        rcases hsp with hl | hsp
        · exact .inl hl
        · rw [hsp]; exact .inr rfl
      | panic e =>
        rw [hrs] at hsp
        rcases hsp with hl | hsp
        · exact .inl hl
        · rw [hsp]; exact .inr rfl
      | diverge =>
        rw [hrs] at hsp
        rcases hsp with hl | hsp
        · exact .inl hl
        · rw [hsp]; exact .inr rfl
    | err e =>
      rw [hd] at hvi
      rcases hvi with hl | hvi
      · exact .inl hl
      · rw [hvi]; exact .inr rfl
    | panic e =>
      rw [hd] at hvi
      rcases hvi with hl | hvi
      · exact .inl hl
      · rw [hvi]; exact .inr rfl
    | diverge =>
      rw [hd] at hvi
      rcases hvi with hl | hvi
      · exact .inl hl
      · rw [hvi]; exact .inr rfl
  case message =>
    rw [hE.arch]
    refine (sim_span hE.valid hx _).bind ?_
    rintro ⟨j, post⟩ ⟨j', post'⟩ ⟨⟨h1, h2, h3⟩, h4, h5, h6⟩
    simp only at h1 h2 h3 h4 h5 h6 ⊢
    have hat' := hat.adv (by omega : i ≤ j) h2 h3
    rw [sim_slice hat'.ext h4 h5 (by omega), slice_all h4 h5]
    simp only [Res.bind_ok]
    have hF := hx.fits
    have hlen : ((d.drop j).take (post - j)).length < d.length := by simp; omega
    have := sim_decodeMessage hE (hr rfl) (t := t) (by have := hN rfl; simp; omega) (by unfold Arch.Fits at hF ⊢; omega) (hat'.sub (post - j)) _ _ (hE.zero t)
    rw [hE.schema.zeroMsg]
    generalize decodeMessage E rec (base + j) t ((d.drop j).take (post - j)) (zeroMsg E.S t) = r at this
    generalize decodeMessage E' rec' (base' + j') t ((d.drop j).take (post - j)) (zeroMsg E.S t) = r' at this
    obtain ⟨v, r⟩ := r
    obtain ⟨v', r'⟩ := r'
    unfold SimOut at this
    simp only at this
    cases r with
    | ok u =>
      obtain ⟨hm, b, rfl, _⟩ := this
      exact ⟨_, rfl, by simp only [VRel.elem, true_or, if_true]; exact .inr hm, by simp only; omega, h5, h6⟩
    | err e => rcases this with h | ⟨_, rfl⟩ <;> [exact .inl h; exact .inr rfl]
    | panic e => rcases this with h | ⟨_, rfl⟩ <;> [exact .inl h; exact .inr rfl]
    | diverge => rcases this with h | ⟨_, rfl⟩ <;> [exact .inl h; exact .inr rfl]
  case group => exact absurd rfl hk
  all_goals exact hn (by simp)

/-- Map keys. -/
theorem sim_mapKey (hA : E.A.Valid) (harch : E'.A = E.A) {k : Kind} (hk : mapKeyKind k = true) (rec rec' : SubDec) (hx : Ext lax E.A d i d' i')
    (base base' : Nat) (old : Val) :
    SimRes lax (fun a b => b.1 = a.1 ∧ Adv d i i' a.2 b.2) (mapItem { E with aliasing := false } rec k 0 d base i old)
      (mapItem { E' with aliasing := false } rec' k 0 d' base' i' old) := by
  have hv : ∀ (w : Nat) (acc : BitVec w) (conv : BitVec w → BitVec 64),
      SimRes lax (fun (a b : Val × Nat) => b.1 = a.1 ∧ Adv d i i' a.2 b.2)
        (do let (v, j) ← decodeVarintLoop w d 11 0 i acc; Res.ok (Val.num (conv v), j))
        (do let (v, j) ← decodeVarintLoop w d' 11 0 i' acc; Res.ok (Val.num (conv v), j)) := by
    intro w acc conv
    refine (sim_varintLoop hx w acc).bind ?_
    rintro ⟨v, j⟩ ⟨v', j'⟩ ⟨h4, h5⟩
    simp only at h4; subst h4
    exact ⟨_, rfl, rfl, h5⟩
  have hn : SimRes lax (fun (a b : Val × Nat) => b.1 = a.1 ∧ Adv d i i' a.2 b.2)
        (do let (v, j) ← readNum E.A k d i; Res.ok (Val.num v, j))
        (do let (v, j) ← readNum E'.A k d' i'; Res.ok (Val.num v, j)) := by
    rw [harch]
    refine (sim_readNum hA hx k).bind ?_
    rintro ⟨v, j⟩ ⟨v', j'⟩ ⟨h4, h5⟩
    simp only at h4; subst h4
    exact ⟨_, rfl, rfl, h5⟩
  unfold mapItem
  cases k <;> simp only [mapKeyKind, Bool.false_eq_true] at hk <;> simp only
  case int64 => exact hv 64 _ id
  case uint64 => exact hv 64 _ id
  case int32 => exact hv 32 _ _
  case uint32 => exact hv 32 _ _
  case string =>
    rw [harch]
    refine (sim_span hA hx 64).bind ?_
    rintro ⟨j, post⟩ ⟨j', post'⟩ ⟨⟨h1, h2, h3⟩, h4, h5, h6⟩
    simp only at h1 h2 h3 h4 h5 h6 ⊢
    rw [sim_slice (hx.adv (by omega : i ≤ j) h2 h3) h4 h5 (by omega), slice_all h4 h5]
    simp only [Res.bind_ok]
    exact ⟨_, rfl, rfl, by simp only; omega, h5, h6⟩
  all_goals exact hn

theorem sim_entryLoop (hE : SimEnv V E E') {rec rec' : SubDec} {N : Nat} (hr : RecSim V E E' lax rec rec' N) (hN : d.length ≤ N + 1)
    {md : MapDesc} (hk : mapKeyKind md.key = true) (hv : md.val ≠ .group)
    (hmake : md.val = .bytes → E.A.bits = 64 ∨ E'.aliasing = E.aliasing) {post : Nat} (hp : post ≤ d.length) :
    ∀ (n n' i i' post' : Nat) (key val val' : Val), At V E E' lax d base i d' base' i' → d.length - i < n → d'.length - i' < n' →
      post' + i = i' + post → V.elem md.val md.valMsg val val' →
      SimRes lax (fun a b => b.1 = a.1 ∧ V.elem md.val md.valMsg a.2 b.2)
        (entryLoop E rec md d base post n i key val) (entryLoop E' rec' md d' base' post' n' i' key val') := by
  intro n
  induction n with
  | zero => intro n' i i' post' key val val' _ h; exfalso; omega
  | succ n ih =>
    intro n' i i' post' key val val' hat hn hn' hpost hval
    obtain ⟨n', rfl⟩ : ∃ q, n' = q + 1 := ⟨n' - 1, by omega⟩
    rw [entryLoop, entryLoop]
    by_cases hi : i < post
    · rw [if_pos hi, if_pos (by omega)]
      refine (sim_varint hat.ext 64).bind ?_
      rintro ⟨wire, j⟩ ⟨wire', j'⟩ ⟨h1, h2, h3, h4⟩
      simp only at h1 h2 h3 h4 ⊢
      subst h1
      have hat' := hat.adv (by omega : i ≤ j) h3 h4
      have hl := hat.ext.len
      split
      · refine (sim_mapKey hE.valid hE.arch hk rec rec' hat'.ext base base' key).bind ?_
        rintro ⟨key1, j1⟩ ⟨key1', j1'⟩ ⟨h5, h6, h7, h8⟩
        simp only at h5 h6 h7 h8 ⊢
        rw [h5]
        exact ih n' j1 j1' post' _ val val' (hat'.adv (by omega) h7 h8) (by omega) (by omega) (by omega) hval
      · split
        · refine (sim_mapItem hE (fun _ => hr) (fun _ => ⟨hN, by omega⟩) hat' hv hmake md.valMsg val val' ?_).bind ?_
          · intro hm; exact VRel.scal_bits ((VRel.elem_scalar ⟨hm, hv⟩).1 hval)
          · rintro ⟨val1, j1⟩ ⟨val1', j1'⟩ ⟨h5, h6, h7, h8⟩
            simp only at h5 h6 h7 h8 ⊢
            exact ih n' j1 j1' post' _ _ _ (hat'.adv (by omega) h7 h8) (by omega) (by omega) (by omega) h5
        · rw [hE.arch]
          refine (sim_skipAt hE.valid hat.ext hp hpost).bind ?_
          rintro j1 j1' ⟨⟨h6, h7, h8⟩, h9⟩
          exact ih n' j1 j1' post' _ _ _ (hat.adv (by omega) h7 h8) (by omega) (by omega) (by omega) hval
    · rw [if_neg hi, if_neg (by omega)]
      exact ⟨_, rfl, rfl, hval⟩

theorem elem_zero (V : VRel) (k : Kind) (t : Nat) : V.elem k t (zeroScalar k) (zeroScalar k) := by
  unfold VRel.elem
  split
  · rename_i h
    left
    rcases h with rfl | rfl <;> exact ⟨rfl, rfl⟩
  · exact .inl rfl

theorem sim_mapEntry (hE : SimEnv V E E') (hS : schemaOK E.S = true) {rec rec' : SubDec} {N : Nat} (hr : RecSim V E E' lax rec rec' N)
    (hN : d.length ≤ N + 1) (hi : 1 ≤ i)
    (hf : (E.S.msg t).foreign = false) {f : FieldDesc} (h : f ∈ (E.S.msg t).fields) {md : MapDesc} (hmd : f.map = some md)
    (hat : At V E E' lax d base i d' base' i') {post post' : Nat} (hp : post ≤ d.length) (hpost : post' + i = i' + post) :
    Sim lax (V.msg t) (mapEntry E rec f md d base i post) (mapEntry E' rec' f md d' base' i' post') (fun _ _ => True) := by
  obtain ⟨m1, m2, m3, m4⟩ := ((schemaOK_msg hS t).fields f h).map md hmd
  have hmk : md.val = .bytes → E.A.bits = 64 ∨ E'.aliasing = E.aliasing := by
    intro hb
    rcases hE.make with h1 | h1 | h1
    · exact .inl h1
    · exact .inr h1
    · exact absurd hb (h1 t f h md hmd)
  unfold mapEntry
  refine (hE.get t hf f h).weaken.bind fun s s' hs => ?_
  obtain ⟨h1, h2⟩ := hE.map t f h md hmd s s' hs
  refine (hE.set t hf f h _ _ h1).weaken.bind fun _ _ _ => ?_
  refine (Sim.lift (sim_entryLoop hE hr hN m3 m4 hmk hp (d.length + 1) (d'.length + 1) i i' post' _ _ _ hat (by omega) (by omega) hpost
    (elem_zero V md.val md.valMsg))).bind ?_
  rintro ⟨k, v⟩ ⟨k', v'⟩ ⟨h3, h4⟩
  simp only at h3 h4 ⊢
  subst h3
  rcases h2 with ⟨es, es', h5, h6, h7⟩ | h2
  · rw [h5, h6]
    exact (hE.set t hf f h _ _ (h7 _ _ _ h4)).weaken
  · exact (h2 _ _ _).weaken

theorem sim_messageItem (hE : SimEnv V E E') {rec rec' : SubDec} {N : Nat} (hr : RecSim V E E' lax rec rec' N)
    (hf : (E.S.msg t).foreign = false) {f : FieldDesc} (h : f ∈ (E.S.msg t).fields) (hk : f.kind = .message) (hmd : f.map = none)
    {off off' : Nat} {b : Bytes} (hb : b.length < N) (hF : E.A.Fits b.length) (hp : Pos V E E' off off' b) :
    Sim lax (V.msg t) (messageItem E rec (E.S.msg t) f off b) (messageItem E' rec' (E'.S.msg t) f off' b) (fun _ _ => True) := by
  unfold messageItem
  refine (hE.get t hf f h).weaken.bind fun s s' hs => ?_
  obtain ⟨h1, h2, h3⟩ := hE.sub t f h hk hmd s s' hs off off' (fun hpool => by simpa using hp.alloc 0 f.msg (by omega) hpool)
  refine (Sim.lift h1).weaken.bind fun x x' hx => ?_
  have hd := sim_decodeMessage hE hr (t := f.msg) hb hF hp x x' hx
  rw [← h3]
  generalize decodeMessage E rec off f.msg b x = r at hd
  generalize decodeMessage E' rec' off' f.msg b x' = r' at hd
  obtain ⟨y, r⟩ := r
  obtain ⟨y', r'⟩ := r'
  simp only
  have hlax : lax = true → (∀ a, r ≠ .ok a) → ∀ (c : Bool) (u : Unit → UM Unit) (z : UM Unit) (w : UM Unit),
      Sim lax (V.msg t) (if c then UM.lift r >>= u else z >>= fun _ => UM.lift r) w (fun _ _ => True) := by
    intro hl hn c u z w
    subst hl
    refine Sim.of_fail fun m a ha => ?_
    split at ha
    · obtain ⟨m1, a1, h4, _⟩ := UM.bind_eq_ok ha
      simp only [UM.lift_def, Prod.mk.injEq] at h4
      exact hn _ h4.2
    · obtain ⟨m1, a1, _, h4⟩ := UM.bind_eq_ok ha
      exact hn _ h4
  unfold SimOut at hd
  simp only at hd
  have hgo : V.msg f.msg y y' → r' = r →
      Sim lax (V.msg t) (if (f.oneof && !holds f s) = true then UM.lift r >>= fun _ => setSlot f.slot (subAssign f s y)
          else setSlot f.slot (subAssign f s y) >>= fun _ => UM.lift r)
        (if (f.oneof && !holds f s) = true then UM.lift r' >>= fun _ => setSlot f.slot (subAssign f s' y')
          else setSlot f.slot (subAssign f s' y') >>= fun _ => UM.lift r') (fun _ _ => True) := by
    rintro hy rfl
    have hset := (hE.set t hf f h _ _ (h2 _ _ hy)).weaken (lax := lax)
    have hl : Sim lax (V.msg t) (UM.lift r') (UM.lift r') (fun _ _ => True) :=
      Sim.lift (SimRes.of (.inr rfl) fun a ha => ⟨a, ha, trivial⟩)
    split
    · exact hl.bind fun _ _ _ => hset
    · exact hset.bind fun _ _ _ => hl
  cases r with
  | ok u => obtain ⟨hy, _, rfl, _⟩ := hd; exact hgo hy rfl
  | err e =>
    rcases hd with hd | ⟨hy, rfl⟩
    · exact hlax hd (by simp) _ _ _ _
    · exact hgo hy rfl
  | panic e =>
    rcases hd with hd | ⟨hy, rfl⟩
    · exact hlax hd (by simp) _ _ _ _
    · exact hgo hy rfl
  | diverge =>
    rcases hd with hd | ⟨hy, rfl⟩
    · exact hlax hd (by simp) _ _ _ _
    · exact hgo hy rfl

/-- The loop of a group field fails, the same way in both. -/
theorem groupLoop_fails (hA : E.A.Valid) (harch : E'.A = E.A) (rec rec' : SubDec) (f : FieldDesc) {wire : BitVec 64} (hw : (wire &&& 7).toNat ≠ 4)
    {d : Bytes} (hF : E.A.Fits d.length) (base base' start : Nat) :
    ∀ (n i : Nat), d.length - i < n → ∃ e, groupLoop E rec f wire d base start n i = UM.lift (.err e) ∧
      groupLoop E' rec' f wire d base' start n i = UM.lift (.err e) := by
  intro n
  induction n with
  | zero => intro i h; exfalso; omega
  | succ n ih =>
    intro i h
    rw [groupLoop, groupLoop, harch]
    have h1 := decodeVarint_all 64 d i
    cases hd : decodeVarint 64 d i with
    | ok r =>
      obtain ⟨v, j⟩ := r
      rw [hd] at h1
      simp only [Res.All] at h1
      rw [UM.lift_ok_bind, UM.lift_ok_bind]
      simp only [if_neg hw]
      rw [slice_all h1.2 (Nat.le_refl _), UM.lift_ok_bind, UM.lift_ok_bind]
      have hlen : ((d.drop j).take (d.length - j)).length ≤ d.length := by simp
      have h2 := skip_lt hA ((d.drop j).take (d.length - j)) (by unfold Arch.Fits at hF ⊢; omega)
      cases hs : skip E.A ((d.drop j).take (d.length - j)) with
      | ok k =>
        rw [hs] at h2
        simp only [Res.All] at h2
        rw [UM.lift_ok_bind, UM.lift_ok_bind]
        split
        · exact ⟨_, rfl, rfl⟩
        · rename_i hneg
          apply ih
          unfold Arch.Fits at hF
          have hpos := hA.pos
          have h2p := two_pow_pred (n := E.A.bits) (by omega)
          rcases Arch.wrap_cases hA (j + k) (by omega) (by omega) with h | h <;> omega
      | err e => exact ⟨e, rfl, rfl⟩
      | panic p => rw [hs] at h2; exact h2.elim
      | diverge => rw [hs] at h2; exact h2.elim
    | err e => exact ⟨e, rfl, rfl⟩
    | panic p => rw [hd] at h1; exact h1.elim
    | diverge => rw [hd] at h1; exact h1.elim

/-- Storing related scalars. -/
theorem sim_store (hE : SimEnv V E E') (hf : (E.S.msg t).foreign = false) {f : FieldDesc} (h : f ∈ (E.S.msg t).fields) (hm : f.hasMessage = false) {v v' : Val}
    (hvv : V.scal v v') (hv : f.oneof = false → (f.card == .repeated) = false → V.slot t f v v') :
    Sim lax (V.msg t) (store f v) (store f v') (fun _ _ => True) := by
  have hk : f.kind ≠ .message ∧ f.kind ≠ .group := by
    constructor <;> intro hk <;> simp [FieldDesc.hasMessage, hk] at hm
  unfold store
  cases ho : f.oneof with
  | true =>
    simp only [if_true]
    exact (hE.set t hf f h _ _ (hE.wrap t f h ho v v' ((VRel.elem_scalar hk).2 hvv))).weaken
  | false =>
    simp only [Bool.false_eq_true, if_false]
    cases hc : f.card == .repeated with
    | true =>
      simp only [if_true]
      refine (hE.get t hf f h).weaken.bind fun s s' hs => ?_
      refine (Sim.lift (hE.append t f h ho hc hm s s' hs v v' hvv)).weaken.bind fun s1 s1' hs1 => ?_
      exact (hE.set t hf f h _ _ hs1).weaken
    | false =>
      simp only [Bool.false_eq_true, if_false]
      exact (hE.set t hf f h _ _ (hv ho hc)).weaken

theorem sim_num (hE : SimEnv V E E') (hf : (E.S.msg t).foreign = false) {f : FieldDesc} (h : f ∈ (E.S.msg t).fields) (hk : numeric f.kind = true)
    (p3 : Bool) (hx : Ext lax E.A d i d' i') :
    Sim lax (V.msg t) (do
      if !f.oneof && f.card != .repeated && p3 && !f.synthetic then
        match direct E.A f.kind d i with
        | some v => setSlot f.slot (.num v)
        | none => pure ()
      let (v, i) ← UM.lift (readNum E.A f.kind d i)
      store f (.num v)
      pure i) (do
      if !f.oneof && f.card != .repeated && p3 && !f.synthetic then
        match direct E'.A f.kind d' i' with
        | some v => setSlot f.slot (.num v)
        | none => pure ()
      let (v, i) ← UM.lift (readNum E'.A f.kind d' i')
      store f (.num v)
      pure i) (Adv d i i') := by
  rw [hE.arch]
  have hm := hasMessage_of_numeric hk
  have hr := sim_readNum hE.valid hx f.kind
  have rest : Sim lax (V.msg t) (do
      let (v, i) ← UM.lift (readNum E.A f.kind d i)
      store f (.num v)
      pure i) (do
      let (v, i) ← UM.lift (readNum E.A f.kind d' i')
      store f (.num v)
      pure i) (Adv d i i') := by
    refine (Sim.lift hr).bind ?_
    rintro ⟨v, j⟩ ⟨v', j'⟩ ⟨h1, h2⟩
    simp only at h1 h2 ⊢
    subst h1
    refine (sim_store hE hf h hm (.inl rfl) fun ho hc => hE.num t f h ho hc hk _).bind fun _ _ _ => ?_
    exact Sim.pure h2
  have hdir : direct E.A f.kind d' i' = direct E.A f.kind d i ∨ lax = true ∧ ∀ a, readNum E.A f.kind d i ≠ .ok a := by
    rcases hx.same with hl | ⟨rfl, rfl⟩
    · cases hrd : readNum E.A f.kind d i with
      | ok a =>
        left
        rw [hrd] at hr
        obtain ⟨⟨v', j'⟩, h1, h2, h3⟩ := hr
        obtain ⟨v, j⟩ := a
        simp only at h2
        rw [direct_ok hrd, direct_ok h1, h2]
      | err e => exact .inr ⟨hl, by simp⟩
      | panic e => exact .inr ⟨hl, by simp⟩
      | diverge => exact .inr ⟨hl, by simp⟩
    · exact .inl rfl
  rcases hdir with hdir | ⟨rfl, hno⟩
  · rw [hdir]
    split
    · rename_i hc
      simp only [Bool.and_eq_true, Bool.not_eq_true', bne_iff_ne, ne_eq] at hc
      cases hd : direct E.A f.kind d i with
      | none => exact rest
      | some v =>
        refine ((hE.set t hf f h _ _ (hE.num t f h hc.1.1.1 (by simpa using hc.1.1.2) hk v)).weaken).bind fun _ _ _ => rest
    · exact rest
  · refine Sim.of_fail fun m a ha => ?_
    have hbad : ∀ m1, ((do
      let (v, i) ← UM.lift (readNum E.A f.kind d i)
      store f (.num v)
      pure i : UM Nat) m1).2 ≠ .ok a := by
      intro m1 h1
      obtain ⟨m2, a2, h4, _⟩ := UM.bind_eq_ok h1
      simp only [UM.lift_def, Prod.mk.injEq] at h4
      exact hno _ h4.2
    split at ha
    · cases hd : direct E.A f.kind d i with
      | none => rw [hd] at ha; exact hbad m ha
      | some v =>
        rw [hd] at ha
        obtain ⟨m2, a2, _, h4⟩ := UM.bind_eq_ok ha
        exact hbad _ h4
    · exact hbad m ha

theorem sim_fieldItem (hE : SimEnv V E E') (hS : schemaOK E.S = true) {rec rec' : SubDec} {N : Nat} (hr : RecSim V E E' lax rec rec' N)
    (hN : d.length ≤ N + 1) (hi : 1 ≤ i)
    (hf : (E.S.msg t).foreign = false) {f : FieldDesc} (h : f ∈ (E.S.msg t).fields) (p3 : Bool)
    {wire : BitVec 64} (hw : (wire &&& 7).toNat ≠ 4) (hat : At V E E' lax d base i d' base' i') :
    Sim lax (V.msg t) (fieldItem E rec (E.S.msg t) f p3 wire d base i) (fieldItem E' rec' (E'.S.msg t) f p3 wire d' base' i') (Adv d i i') := by
  have hx := hat.ext
  have hnum := fun hk => sim_num hE hf h hk p3 hx
  have hstr : ∀ w, f.kind = .string ∨ f.kind = .bytes → Sim lax (V.msg t)
      (do let (i, post) ← UM.lift (readSpan E.A w d i)
          let s ← UM.lift (slice d i post)
          store f (.str (E.keep (base + i) s))
          pure post)
      (do let (i, post) ← UM.lift (readSpan E'.A w d' i')
          let s ← UM.lift (slice d' i post)
          store f (.str (E'.keep (base' + i) s))
          pure post) (Adv d i i') := by
    intro w hk
    have hm : f.hasMessage = false := by rcases hk with hk | hk <;> simp [FieldDesc.hasMessage, hk]
    rw [hE.arch]
    refine (Sim.lift (sim_span hE.valid hx w)).bind ?_
    rintro ⟨j, post⟩ ⟨j', post'⟩ ⟨⟨h1, h2, h3⟩, h4, h5, h6⟩
    simp only at h1 h2 h3 h4 h5 h6 ⊢
    have hat' := hat.adv (by omega : i ≤ j) h2 h3
    rw [sim_slice hat'.ext h4 h5 (by omega), slice_all h4 h5, UM.lift_ok_bind, UM.lift_ok_bind]
    have hkp := hat'.keep (post - j)
    refine (sim_store hE hf h hm (.inr ⟨_, _, rfl, rfl, hkp⟩) fun ho hc => hE.str t f h ho hc hk _ _ hkp).bind fun _ _ _ => ?_
    exact Sim.pure ⟨by omega, h5, h6⟩
  cases hk : f.kind <;> rw [hk] at hnum <;> unfold fieldItem <;> rw [hk] <;> simp only
  case string => exact hstr 64 (.inl hk)
  case bytes => rw [hE.arch]; have := hstr E.A.bits (.inr hk); rw [hE.arch] at this; exact this
  case group =>
    rcases hx.same with rfl | ⟨rfl, rfl⟩
    · obtain ⟨e, h1, _⟩ := groupLoop_fails hE.valid hE.arch rec rec' f hw hx.fits base base' i (d.length + 1) i (by omega)
      rw [h1]
      exact Sim.of_fail fun m a => by simp
    · obtain ⟨e, h1, h2⟩ := groupLoop_fails hE.valid hE.arch rec rec' f hw hx.fits base base' i (d.length + 1) i (by omega)
      rw [h1, h2]
      exact Sim.lift (.inr rfl)
  case message =>
    rw [hE.arch]
    refine (Sim.lift (sim_span hE.valid hx _)).bind ?_
    rintro ⟨j, post⟩ ⟨j', post'⟩ ⟨⟨h1, h2, h3⟩, h4, h5, h6⟩
    simp only at h1 h2 h3 h4 h5 h6 ⊢
    have hat' := hat.adv (by omega : i ≤ j) h2 h3
    cases hmd : f.map with
    | some md =>
      simp only
      refine (sim_mapEntry hE hS hr hN (by omega) hf h hmd hat' h5 (by omega)).bind fun _ _ _ => ?_
      exact Sim.pure ⟨by omega, h5, h6⟩
    | none =>
      simp only
      rw [sim_slice hat'.ext h4 h5 (by omega), slice_all h4 h5, UM.lift_ok_bind, UM.lift_ok_bind]
      have hF := hx.fits
      have hlen : ((d.drop j).take (post - j)).length < d.length := by simp; omega
      refine (sim_messageItem hE hr hf h hk hmd (by simp; omega) (by unfold Arch.Fits at hF ⊢; omega) (hat'.sub _)).bind fun _ _ _ => ?_
      exact Sim.pure ⟨by omega, h5, h6⟩
  all_goals exact hnum rfl

theorem sim_packedLoop (hE : SimEnv V E E') (hS : schemaOK E.S = true) {rec rec' : SubDec} {N : Nat} (hr : RecSim V E E' lax rec rec' N)
    (hN : d.length ≤ N + 1)
    (hf : (E.S.msg t).foreign = false) {f : FieldDesc} (h : f ∈ (E.S.msg t).fields)
    {wire : BitVec 64} (hw : (wire &&& 7).toNat ≠ 4) (post : Nat) :
    ∀ (n n' i i' post' : Nat), 1 ≤ i → At V E E' lax d base i d' base' i' → d.length - i < n → d'.length - i' < n' → post' + i = i' + post →
    Sim lax (V.msg t) (packedLoop E rec (E.S.msg t) f wire d base post n i) (packedLoop E' rec' (E'.S.msg t) f wire d' base' post' n' i')
      (fun j j' => i ≤ j ∧ j ≤ d.length ∧ j' + i = i' + j) := by
  intro n
  induction n with
  | zero => intro n' i i' post' _ _ hn; exfalso; omega
  | succ n ih =>
    intro n' i i' post' h1i hat hn hn' hpost
    obtain ⟨n', rfl⟩ : ∃ q, n' = q + 1 := ⟨n' - 1, by omega⟩
    have hle := hat.ext.le
    have hl := hat.ext.len
    rw [packedLoop, packedLoop]
    by_cases hi : i < post
    · rw [if_pos hi, if_pos (by omega)]
      refine (sim_fieldItem hE hS hr hN h1i hf h false hw hat).bind ?_
      rintro j j' ⟨h1, h2, h3⟩
      exact (ih n' j j' post' (by omega) (hat.adv (by omega) h2 h3) (by omega) (by omega) (by omega)).mono fun a b hab => ⟨by omega, hab.2.1, by omega⟩
    · rw [if_neg hi, if_neg (by omega)]
      exact Sim.pure ⟨Nat.le_refl _, hle, by omega⟩

theorem sim_prealloc (hE : SimEnv V E E') (hf : (E.S.msg t).foreign = false) {f : FieldDesc} (h : f ∈ (E.S.msg t).fields)
    (hl : f.isList = true) (c : Nat) : Sim lax (V.msg t) (prealloc f c) (prealloc f c) (fun _ _ => True) := by
  unfold prealloc
  split
  · refine (hE.get t hf f h).weaken.bind fun s s' hs => ?_
    have := hE.elems t f h hl s s' hs
    by_cases he : s.elems = []
    · rw [if_pos he, if_pos (this.1 he)]
      exact (hE.set t hf f h _ _ (hE.empty t f h hl)).weaken
    · rw [if_neg he, if_neg (fun hc => he (this.2 hc))]
      exact Sim.pure trivial
  · exact Sim.pure trivial

theorem sim_fieldCase (hE : SimEnv V E E') (hS : schemaOK E.S = true) {rec rec' : SubDec} {N : Nat} (hr : RecSim V E E' lax rec rec' N)
    (hN : d.length ≤ N + 1) (hi : 1 ≤ i)
    (hf : (E.S.msg t).foreign = false) {f : FieldDesc} (h : f ∈ (E.S.msg t).fields)
    {wire : BitVec 64} (hw : (wire &&& 7).toNat ≠ 4) (hat : At V E E' lax d base i d' base' i') :
    Sim lax (V.msg t) (fieldCase E rec (E.S.msg t) f wire d base i) (fieldCase E' rec' (E'.S.msg t) f wire d' base' i')
      (fun j j' => i ≤ j ∧ j ≤ d.length ∧ j' + i = i' + j) := by
  have hx := hat.ext
  have herr : ∀ e, Sim lax (V.msg t) (UM.lift (.err e) : UM Nat) (UM.lift (.err e) : UM Nat) (fun j j' => i ≤ j ∧ j ≤ d.length ∧ j' + i = i' + j) :=
    fun e => Sim.lift (.inr rfl)
  unfold fieldCase
  simp only [hE.schema.proto3]
  split
  · rename_i hl
    simp only [Bool.and_eq_true] at hl
    split
    · exact (sim_fieldItem hE hS hr hN hi hf h _ hw hat).mono fun a b hab => ⟨by have := hab.1; omega, hab.2⟩
    · split
      · rw [hE.arch]
        refine (Sim.lift (sim_span hE.valid hx _)).bind ?_
        rintro ⟨j, post⟩ ⟨j', post'⟩ ⟨⟨h1, h2, h3⟩, h4, h5, h6⟩
        simp only at h1 h2 h3 h4 h5 h6 ⊢
        have hat' := hat.adv (by omega : i ≤ j) h2 h3
        rw [sim_slice hat'.ext h4 h5 (by omega), slice_all h4 h5, UM.lift_ok_bind, UM.lift_ok_bind]
        refine (sim_prealloc hE hf h hl.1 _).bind fun _ _ _ => ?_
        exact (sim_packedLoop hE hS hr hN hf h hw post (d.length + 1) (d'.length + 1) j j' post' (by omega) hat' (by omega) (by omega) (by omega)).mono
          fun a b hab => ⟨by omega, hab.2.1, by omega⟩
      · exact herr _
  · split
    · exact herr _
    · exact (sim_fieldItem hE hS hr hN hi hf h _ hw hat).mono fun a b hab => ⟨by have := hab.1; omega, hab.2⟩

/-! ## Required fields -/

/-- The bits on the left are set on the right. -/
def HasRel (lax : Bool) (has has' : List (BitVec 64)) : Prop :=
  has' = has ∨ lax = true ∧ has'.length = has.length ∧ ∀ (q : Nat) w w', has[q]? = some w → has'[q]? = some w' → w &&& w' = w

theorem HasRel.len {has has' : List (BitVec 64)} (h : HasRel lax has has') : has'.length = has.length := by
  rcases h with rfl | h
  · rfl
  · exact h.2.1

theorem sim_markField {has has' : List (BitVec 64)} (h : HasRel lax has has') (d : MsgDesc) (f : FieldDesc) :
    SimRes lax (HasRel lax) (markField d f has) (markField d f has') := by
  rcases h with rfl | ⟨h1, h2, h3⟩
  · exact SimRes.of (.inr rfl) fun a ha => ⟨a, ha, .inl rfl⟩
  · unfold markField
    split
    · simp only
      generalize hq : d.required.idxOf f.num / 64 = q
      generalize hb : (1 <<< (d.required.idxOf f.num % 64) : BitVec 64) = bit
      by_cases hlt : q < has.length
      · rw [List.getElem?_eq_getElem hlt, List.getElem?_eq_getElem (by omega)]
        refine ⟨_, rfl, .inr ⟨h1, by simp [h2], ?_⟩⟩
        intro p w w' hw hw'
        rw [List.getElem?_set] at hw hw'
        by_cases hp : q = p
        · subst hp
          simp only [if_true, hlt, show q < has'.length by omega, Option.some.injEq] at hw hw'
          have := h3 q _ _ (List.getElem?_eq_getElem hlt) (List.getElem?_eq_getElem (by omega))
          rw [← hw, ← hw']
          apply BitVec.eq_of_getLsbD_eq
          intro k hk
          have hk' := congrArg (fun x => x.getLsbD k) this
          simp only [BitVec.getLsbD_and, BitVec.getLsbD_or] at hk' ⊢
          cases ha : (has[q]).getLsbD k <;> cases hb' : (has'[q]'(by omega)).getLsbD k <;> simp_all
        · simp only [hp, if_false] at hw hw'
          exact h3 p w w' hw hw'
      · rw [List.getElem?_eq_none (by omega), List.getElem?_eq_none (by omega)]
        exact .inr rfl
    · exact ⟨_, rfl, .inr ⟨h1, h2, h3⟩⟩

theorem sim_checkRequired {has has' : List (BitVec 64)} (h : HasRel lax has has') (d : MsgDesc) : ∀ fs : List FieldDesc,
    SimRes lax (fun _ _ => True) (checkRequired d has fs) (checkRequired d has' fs) := by
  rcases h with rfl | ⟨h1, h2, h3⟩
  · exact fun fs => SimRes.of (.inr rfl) fun a ha => ⟨a, ha, trivial⟩
  · intro fs
    induction fs with
    | nil => exact ⟨_, rfl, trivial⟩
    | cons f fs ih =>
      rw [checkRequired, checkRequired]
      split
      · simp only
        generalize hq : d.required.idxOf f.num / 64 = q
        generalize hb : (1 <<< (d.required.idxOf f.num % 64) : BitVec 64) = bit
        by_cases hlt : q < has.length
        · rw [List.getElem?_eq_getElem hlt, List.getElem?_eq_getElem (by omega)]
          simp only
          split
          · exact .inl h1
          · rename_i hne
            rw [if_neg]
            · exact ih
            · intro hz
              apply hne
              have := h3 q _ _ (List.getElem?_eq_getElem hlt) (List.getElem?_eq_getElem (by omega))
              rw [← this, BitVec.and_assoc, hz]
              simp
        · rw [List.getElem?_eq_none (by omega), List.getElem?_eq_none (by omega)]
          exact .inr rfl
      · exact ih

/-! ## The message -/

theorem sim_unknownCase (hE : SimEnv V E E') (hf : (E.S.msg t).foreign = false) (num : Nat) (hat : At V E E' lax d base i d' base' i')
    (hend : lax = true ∨ d = d') :
    Sim lax (V.msg t) (unknownCase E t num d i) (unknownCase E' t num d' i') (Adv d i i') := by
  have hx := hat.ext
  have hskip : SimRes lax (Adv d i i') (skipAt E.A d i d.length) (skipAt E.A d' i' d'.length) := by
    rcases hx.same with hl | ⟨rfl, rfl⟩
    · subst hl
      have := sim_skipAt hE.valid hx (l := d.length) (l' := i' + d.length - i) (Nat.le_refl _) (by have := hx.le; omega)
      cases hs : skipAt E.A d i d.length with
      | ok j =>
        rw [hs] at this
        obtain ⟨j', h1, h2, _⟩ := this
        -- a larger limit changes nothing
        refine ⟨j', ?_, h2⟩
        have hlen := hx.len
        unfold skipAt at h1 ⊢
        obtain ⟨b, h3, h4⟩ := Res.bind_eq_ok.1 h1
        obtain ⟨n, h5, h6⟩ := Res.bind_eq_ok.1 h4
        rw [h3]; simp only [Res.bind_ok]
        rw [h5]; simp only [Res.bind_ok]
        split at h6
        · simp at h6
        · rename_i h7
          rw [if_neg h7]
          split at h6
          · simp at h6
          · rename_i h8
            rw [if_neg (by omega)]
            exact h6
      | err e => exact .inl rfl
      | panic e => exact .inl rfl
      | diverge => exact .inl rfl
    · exact (sim_skipAt hE.valid hx (l := d.length) (l' := d.length) (Nat.le_refl _) (by omega)).mono fun _ _ h => h.1
  unfold unknownCase
  simp only
  rw [hE.arch, hE.schema.extRanges, hE.schema.keepUnknown]
  refine (Sim.lift hskip).bind ?_
  rintro j j' ⟨h1, h2, h3⟩
  rw [sim_slice hx (by omega) h2 h3, slice_all (by omega) h2]
  have hp : Sim lax (V.msg t) (pure j : UM Nat) (pure j' : UM Nat) (Adv d i i') := Sim.pure ⟨h1, h2, h3⟩
  split
  · rw [UM.lift_ok_bind, UM.lift_ok_bind]
    exact (hE.part t _).weaken.bind fun _ _ _ => hp
  · rw [UM.lift_ok_bind, UM.lift_ok_bind]
    split
    · exact (hE.unk t hf _).weaken.bind fun _ _ _ => hp
    · exact hp

theorem sim_recordStep_of (hE : SimEnv V E E') (hS : schemaOK E.S = true) {rec rec' : SubDec} {N : Nat} (hr : RecSim V E E' lax rec rec' N)
    (hN : d.length ≤ N + 1)
    (hf : (E.S.msg t).foreign = false) (hat : At V E E' lax d base i d' base' i') (hend : lax = true ∨ d = d')
    {has has' : List (BitVec 64)} (hl : HasRel lax has has') :
    Sim lax (V.msg t) (recordStep E rec t d base i has) (recordStep E' rec' t d' base' i' has')
      (fun a b => Adv d i i' a.1 b.1 ∧ HasRel lax a.2 b.2) := by
  unfold recordStep
  refine (Sim.lift (sim_varint hat.ext 64)).bind ?_
  rintro ⟨wire, j⟩ ⟨wire', j'⟩ ⟨h1, h2, h3, h4⟩
  simp only at h1 h2 h3 h4 ⊢
  subst h1
  have herr : ∀ e, Sim lax (V.msg t) (UM.lift (.err e) : UM (Nat × List (BitVec 64))) (UM.lift (.err e) : UM (Nat × List (BitVec 64)))
      (fun a b => Adv d i i' a.1 b.1 ∧ HasRel lax a.2 b.2) := fun e => Sim.lift (.inr rfl)
  rw [hE.schema.fields]
  split
  · exact herr _
  · rename_i hw
    split
    · exact herr _
    · cases hfind : (E.S.msg t).fields.find? (fun f => f.num == ((wire' >>> 3).setWidth 32 : BitVec 32).toNat) with
      | some f =>
        have hmem := List.mem_of_find?_eq_some hfind
        simp only
        refine (sim_fieldCase hE hS hr hN (by omega) hf hmem hw (hat.adv (by omega : i ≤ j) h3 h4)).bind ?_
        rintro k k' ⟨h5, h6, h7⟩
        rw [show ∀ has, markField (E'.S.msg t) f has = markField (E.S.msg t) f has from fun has => hE.schema.markField t f has]
        refine (Sim.lift (sim_markField hl _ f)).bind fun has1 has1' hh => ?_
        exact Sim.pure ⟨⟨by simp; omega, h6, by simp; omega⟩, hh⟩
      | none =>
        simp only
        refine (sim_unknownCase hE hf _ hat hend).bind ?_
        rintro k k' hk
        exact Sim.pure ⟨hk, hl⟩

theorem sim_recordStep (hE : SimEnv V E E') (hS : schemaOK E.S = true) {rec rec' : SubDec} (hr : RecSim V E E' lax rec rec' d.length)
    (hf : (E.S.msg t).foreign = false) (hat : At V E E' lax d base i d' base' i') (hend : lax = true ∨ d = d')
    {has has' : List (BitVec 64)} (hl : HasRel lax has has') :
    Sim lax (V.msg t) (recordStep E rec t d base i has) (recordStep E' rec' t d' base' i' has')
      (fun a b => Adv d i i' a.1 b.1 ∧ HasRel lax a.2 b.2) :=
  sim_recordStep_of hE hS hr (by omega) hf hat hend hl

/-- The loop on the same input. -/
theorem sim_recordLoop (hE : SimEnv V E E') (hS : schemaOK E.S = true) {rec rec' : SubDec} {N : Nat} (hr : RecSim V E E' lax rec rec' N)
    (hN : d.length ≤ N + 1)
    (hf : (E.S.msg t).foreign = false) : ∀ (n i : Nat) (has has' : List (BitVec 64)), At V E E' lax d base i d base' i → d.length - i < n →
    HasRel lax has has' →
    Sim lax (V.msg t) (recordLoop E rec t d base n i has) (recordLoop E' rec' t d base' n i has')
      (fun a b => b.1 = a.1 ∧ HasRel lax a.2 b.2) := by
  intro n
  induction n with
  | zero => intro i has has' _ hn; exfalso; omega
  | succ n ih =>
    intro i has has' hat hn hl
    rw [recordLoop, recordLoop]
    split
    · refine (sim_recordStep_of hE hS hr hN hf hat (.inr rfl) hl).bind ?_
      rintro ⟨j, h1⟩ ⟨j', h1'⟩ ⟨⟨h2, h3, h4⟩, h5⟩
      simp only at h2 h3 h4 h5 ⊢
      obtain rfl : j' = j := by omega
      exact ih j' h1 h1' (hat.adv (by omega) h3 (by omega)) (by omega) h5
    · exact Sim.pure ⟨rfl, hl⟩

theorem sim_unmarshalBody (hE : SimEnv V E E') (hS : schemaOK E.S = true) {rec rec' : SubDec} {b : Bytes} {N : Nat} (hr : RecSim V E E' lax rec rec' N) (hN : b.length ≤ N + 1)
    (hf : (E.S.msg t).foreign = false) {off off' : Nat} (hF : E.A.Fits b.length) (hp : Pos V E E' off off' b) :
    Sim lax (V.msg t) (unmarshalBody E rec off t b) (unmarshalBody E' rec' off' t b) (fun _ _ => True) := by
  unfold unmarshalBody
  simp only [hE.schema.fields, hE.schema.noFields, hE.schema.checkRequired]
  refine (sim_recordLoop hE hS hr hN hf (b.length + 1) 0 _ _ ⟨Ext.refl hF (by omega), by simpa using hp⟩ (by omega) (.inl rfl)).bind ?_
  rintro ⟨i, has⟩ ⟨i', has'⟩ ⟨h1, h2⟩
  simp only at h1 h2 ⊢
  subst h1
  refine (Sim.lift (sim_checkRequired h2 _ _)).bind fun _ _ _ => ?_
  split
  · exact Sim.lift (.inr rfl)
  · exact Sim.pure trivial

/-- Two decoders whose limits on nested calls are both above half the size of the input. -/
theorem sim_unmarshalN_half (hE : SimEnv V E E') (hS : schemaOK E.S = true) :
    ∀ n n', RecSim V E E' lax (unmarshalN E n) (unmarshalN E' n') (2 * min n n') := by
  intro n
  induction n with
  | zero => intro n' off off' t b _ hb; exfalso; omega
  | succ n ih =>
    intro n' off off' t b hf hb hF hp
    obtain ⟨n', rfl⟩ : ∃ q, n' = q + 1 := ⟨n' - 1, by omega⟩
    rw [unmarshalN, unmarshalN]
    exact sim_unmarshalBody hE hS (ih n') (by omega) hf hF hp

theorem sim_unmarshalN (hE : SimEnv V E E') (hS : schemaOK E.S = true) (n n' : Nat) :
    RecSim V E E' lax (unmarshalN E n) (unmarshalN E' n') (min n n') :=
  fun off off' t b hf hb hF hp => sim_unmarshalN_half hE hS n n' off off' t b hf (by omega) hF hp

end Vtp
