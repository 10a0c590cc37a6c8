import Verif.Lemmas.UM
import Verif.Lemmas.Depth
import Verif.Lemmas.Schema
import Verif.Spec.DecodeEnv
/-! `UnmarshalVT` does not panic, terminates and keeps messages well typed. -/

namespace Vtp
open Spec

/-- Type of the struct field of `f`. -/
def slotOK (S : Schema) (d : MsgDesc) (f : FieldDesc) (v : Val) : Bool :=
  if f.oneof then oneofOK .solid (wtM S .solid) d f.slot v else fieldOK (wtM S .solid) f v

/-- A message of type `t` with solid oneofs. -/
def Typed (S : Schema) (t : Nat) (m : Val) : Prop := wtM S .solid t m = true

theorem Typed.nonnil {S : Schema} {t : Nat} {m : Val} (h : Typed S t m) : ∃ s u e, m = .msg s u e := by
  unfold Typed wtM at h
  generalize m.depth = n at h
  cases n <;> cases m <;> simp_all [wtN]

theorem Typed.not_nil {S : Schema} {t : Nat} {m : Val} (h : Typed S t m) : m.isNil = false := by
  obtain ⟨s, u, e, rfl⟩ := h.nonnil; rfl

theorem typed_iff {S : Schema} {t : Nat} (hf : (S.msg t).foreign = false) (s : List Val) (u e : Bytes) :
    Typed S t (.msg s u e) ↔ s.length = (S.msg t).nslots ∧ ∀ f ∈ (S.msg t).fields, slotOK S (S.msg t) f (slotOf s f) = true := by
  unfold Typed slotOK
  rw [wtM_msg, hf]
  simp

section
variable {S : Schema} {t : Nat}

theorem safe_getSlot (hf : (S.msg t).foreign = false) {f : FieldDesc} (h : f ∈ (S.msg t).fields) :
    Safe (Typed S t) (getSlot f.slot) (fun v => slotOK S (S.msg t) f v = true) := by
  intro m hm
  obtain ⟨s, u, e, rfl⟩ := hm.nonnil
  exact ⟨hm, ((typed_iff hf s u e).1 hm).2 f h⟩

theorem slotOf_set_self (s : List Val) (f : FieldDesc) (v : Val) (h : f.slot < s.length) : slotOf (s.set f.slot v) f = v := by
  simp [slotOf, List.getD_eq_getElem?_getD, h]

theorem slotOf_set_eq (s : List Val) {f g : FieldDesc} (v : Val) (h : f.slot < s.length) (hs : g.slot = f.slot) :
    slotOf (s.set f.slot v) g = v := by
  simp [slotOf, List.getD_eq_getElem?_getD, hs, h]

theorem slotOf_set_ne (s : List Val) {f g : FieldDesc} (v : Val) (h : g.slot ≠ f.slot) : slotOf (s.set f.slot v) g = slotOf s g := by
  simp [slotOf, List.getD_eq_getElem?_getD, List.getElem?_set_ne (Ne.symm h)]

theorem typed_set (hS : MsgFacts (S.msg t)) (hf : (S.msg t).foreign = false) {f : FieldDesc} (h : f ∈ (S.msg t).fields) {v : Val}
    (hv : slotOK S (S.msg t) f v = true) {s : List Val} {u e : Bytes} (hm : Typed S t (.msg s u e)) :
    Typed S t (.msg (s.set f.slot v) u e) := by
  rw [typed_iff hf] at hm ⊢
  obtain ⟨h1, h2⟩ := hm
  have hlt : f.slot < s.length := by rw [h1]; exact (hS.fields f h).slot
  refine ⟨by simpa using h1, fun g hg => ?_⟩
  by_cases hs : g.slot = f.slot
  · rw [slotOf_set_eq s v hlt hs]
    by_cases hn : g.num = f.num
    · rw [hS.num_inj hg h hn]; exact hv
    · have ho := hS.share g hg f h hn hs
      rw [slotOK, ho.2, if_pos rfl] at hv
      rw [slotOK, ho.1, if_pos rfl, hs]
      exact hv
  · rw [slotOf_set_ne s v hs]; exact h2 g hg

theorem safe_setSlot (hS : MsgFacts (S.msg t)) (hf : (S.msg t).foreign = false) {f : FieldDesc} (h : f ∈ (S.msg t).fields) {v : Val}
    (hv : slotOK S (S.msg t) f v = true) : Safe (Typed S t) (setSlot f.slot v) (fun _ => True) := by
  intro m hm
  obtain ⟨s, u, e, rfl⟩ := hm.nonnil
  exact ⟨typed_set hS hf h hv hm, trivial⟩

theorem safe_appendUnknown (hf : (S.msg t).foreign = false) (b : Bytes) :
    Safe (Typed S t) (appendUnknown b) (fun _ => True) := by
  intro m hm
  obtain ⟨s, u, e, rfl⟩ := hm.nonnil
  refine ⟨?_, trivial⟩
  rw [typed_iff hf] at hm
  exact (typed_iff hf _ _ _).2 hm

end

theorem zeroSlot_eq {d : MsgDesc} (hd : MsgFacts d) {f : FieldDesc} (h : f ∈ d.fields) : zeroSlot d f.slot = zeroField f := by
  unfold zeroSlot
  cases hc : d.fields.find? (fun g => g.slot == f.slot) with
  | none =>
    rw [List.find?_eq_none] at hc
    have := hc f h
    simp at this
  | some g =>
    have h1 := List.mem_of_find?_eq_some hc
    have h2 := List.find?_some hc
    simp only [beq_iff_eq] at h2
    simp only
    by_cases hn : g.num = f.num
    · rw [hd.num_inj h1 h hn]
    · have := hd.share g h1 f h hn h2
      simp [zeroField, this.1, this.2]

theorem scalarOK_zero {k : Kind} (h : k ≠ .message ∧ k ≠ .group) : scalarOK k (zeroScalar k) = true := by
  cases k <;> simp_all [scalarOK, zeroScalar, inRange]

theorem zeroMsg_slot {S : Schema} (hS : schemaOK S = true) {t : Nat} {f : FieldDesc} (h : f ∈ (S.msg t).fields) :
    slotOf ((List.range (S.msg t).nslots).map (zeroSlot (S.msg t))) f = zeroField f := by
  have hd := schemaOK_msg hS t
  have := (hd.fields f h).slot
  rw [slotOf, List.getD_eq_getElem?_getD, List.getElem?_map, List.getElem?_range this]
  exact zeroSlot_eq hd h

theorem zeroMsg_typed {S : Schema} (hS : schemaOK S = true) (t : Nat) : Typed S t (zeroMsg S t) := by
  cases hf : (S.msg t).foreign with
  | true => unfold Typed zeroMsg; rw [wtM_msg, hf]; rfl
  | false =>
    unfold zeroMsg
    rw [typed_iff hf]
    refine ⟨by simp, fun f h => ?_⟩
    have hd := schemaOK_msg hS t
    rw [zeroMsg_slot hS h]
    have ff := hd.fields f h
    unfold slotOK zeroField
    cases ho : f.oneof with
    | true => simp [oneofOK]
    | false =>
      simp only [Bool.false_or, Bool.false_eq_true, if_false]
      unfold fieldOK
      cases hm : f.map with
      | some md => simp [(ff.map md hm).1]
      | none =>
        cases hc : f.card == .repeated <;> simp only [if_true, Bool.true_or, Bool.false_or]
        cases hp : f.presence <;> simp only [if_true, Bool.false_eq_true, if_false]
        · apply scalarOK_zero
          constructor <;> intro hk
          · have := ff.singMsg (by simpa using hc) (by simp [FieldDesc.hasMessage, hk]); simp_all
          · have := ff.singMsg (by simpa using hc) (by simp [FieldDesc.hasMessage, hk]); simp_all
        · rfl

/-! ## Numbers -/

theorem inRange_signExtend (k : Kind) (h : k = .int32 ∨ k = .enum ∨ k = .sint32 ∨ k = .sfixed32) (v : BitVec 32) :
    inRange k (v.signExtend 64) = true := by
  have : ((v.signExtend 64).setWidth 32).signExtend 64 = v.signExtend 64 := by
    congr 1
    apply BitVec.eq_of_getLsbD_eq
    intro i hi
    rw [BitVec.getLsbD_setWidth, BitVec.getLsbD_signExtend]
    simp [hi, show i < 64 by omega]
  rcases h with rfl | rfl | rfl | rfl <;> simp [inRange, this]

theorem inRange_setWidth (v : BitVec 32) : inRange .uint32 (v.setWidth 64) = true := by
  have := v.isLt
  simp [inRange]
  omega

theorem readNum_all {A : Arch} (hA : A.Valid) {k : Kind} (hk : numeric k = true) {d : Bytes} (hf : A.Fits d.length) {i : Nat} (hi : i ≤ d.length) :
    (readNum A k d i).All fun (r : BitVec 64 × Nat) => i < r.2 ∧ r.2 ≤ d.length ∧ inRange k r.1 = true := by
  have hfx : ∀ (n : Nat) (conv : Nat → BitVec 64), 0 < n → n ≤ 8 → (∀ v, v < 256 ^ n → inRange k (conv v) = true) →
      (do let (v, j) ← decodeFixed A n d i; Res.ok (conv v, j)).All fun (r : BitVec 64 × Nat) => i < r.2 ∧ r.2 ≤ d.length ∧ inRange k r.1 = true := by
    intro n conv h1 h2 h3
    refine (decodeFixed_all hA h1 h2 hf hi).bind ?_
    rintro ⟨v, j⟩ ⟨h4, h5, h6⟩
    exact ⟨h4, h5, h3 v h6⟩
  have hv : ∀ (w : Nat) (conv : BitVec w → BitVec 64), (∀ v, inRange k (conv v) = true) →
      (do let (v, j) ← decodeVarint w d i; Res.ok (conv v, j)).All fun (r : BitVec 64 × Nat) => i < r.2 ∧ r.2 ≤ d.length ∧ inRange k r.1 = true := by
    intro w conv h3
    refine (decodeVarint_all w d i).bind ?_
    rintro ⟨v, j⟩ ⟨h4, h5⟩
    exact ⟨h4, h5, h3 v⟩
  cases k <;> simp only [numeric, Bool.false_eq_true] at hk <;> simp only [readNum]
  case double => exact hfx 8 _ (by omega) (by omega) (fun _ _ => rfl)
  case fixed64 => exact hfx 8 _ (by omega) (by omega) (fun _ _ => rfl)
  case sfixed64 => exact hfx 8 _ (by omega) (by omega) (fun _ _ => rfl)
  case float => exact hfx 4 _ (by omega) (by omega) (fun v hv => by simp [inRange]; omega)
  case fixed32 => exact hfx 4 _ (by omega) (by omega) (fun v hv => by simp [inRange]; omega)
  case sfixed32 => exact hfx 4 _ (by omega) (by omega) (fun v _ => inRange_signExtend _ (by simp) _)
  case int64 => exact hv 64 id (fun _ => rfl)
  case uint64 => exact hv 64 id (fun _ => rfl)
  case sint64 => exact hv 64 _ (fun _ => rfl)
  case int32 => exact hv 32 _ (fun v => inRange_signExtend _ (by simp) _)
  case enum => exact hv 32 _ (fun v => inRange_signExtend _ (by simp) _)
  case sint32 => exact hv 32 _ (fun v => inRange_signExtend _ (by simp) _)
  case uint32 => exact hv 32 _ (fun v => inRange_setWidth v)
  case bool => exact hv A.bits (fun v => if v = 0 then 0 else 1) (fun v => by split <;> decide)

theorem direct_inRange {A : Arch} (hA : A.Valid) {k : Kind} (hk : numeric k = true) {d : Bytes} (hf : A.Fits d.length) {i : Nat} (hi : i ≤ d.length)
    {v : BitVec 64} (h : direct A k d i = some v) : inRange k v = true := by
  have hr := readNum_all hA hk hf hi
  cases k <;> simp only [direct, reduceCtorEq] at h
  case int64 => rfl
  case uint64 => rfl
  case int32 => cases h; exact inRange_signExtend _ (by simp) _
  case enum => cases h; exact inRange_signExtend _ (by simp) _
  case uint32 => cases h; exact inRange_setWidth _
  all_goals
    split at h
    · rename_i hq; rw [hq] at hr; cases h; exact hr.2.2
    · cases h; rfl

theorem scalarOK_of_num {k : Kind} (hk : numeric k = true) {n : BitVec 64} (h : inRange k n = true) : scalarOK k (.num n) = true := by
  cases k <;> simp_all [numeric, scalarOK]

theorem elemOK_num (r : Nat → Val → Bool) {k : Kind} (t : Nat) (hk : numeric k = true) {n : BitVec 64} (h : inRange k n = true) :
    elemOK r k t (.num n) = true := by
  cases k <;> simp_all [numeric, elemOK, scalarOK]

/-! ## Fields -/

section
variable {E : UEnv} {t : Nat}

/-- The recursive calls are safe on inputs shorter than `N`. -/
def RecSafe (E : UEnv) (rec : SubDec) (N : Nat) : Prop :=
  ∀ off t b, (E.S.msg t).foreign = false → b.length < N → Safe (Typed E.S t) (rec off t b) (fun _ => True)

theorem safe_decodeMessage (hE : DecodeEnv E) {rec : SubDec} {N : Nat} (hr : RecSafe E rec N) (off t : Nat) (b : Bytes) (hb : b.length < N) :
    Safe (Typed E.S t) (decodeMessage E rec off t b) (fun _ => True) := by
  intro m hm
  unfold decodeMessage
  cases hf : (E.S.msg t).foreign with
  | true =>
    simp only [if_true, hm.not_nil, Bool.false_eq_true, if_false]
    cases hu : E.R.unmarshal t b with
    | none => exact ⟨hm, trivial⟩
    | some v => exact ⟨hE.unmarshal t b v hu, trivial⟩
  | false => exact hr off t b hf hb m hm

/-- A value decoded for `f`, not a map or a message. -/
theorem safe_store (hS : MsgFacts (E.S.msg t)) (hf : (E.S.msg t).foreign = false) {f : FieldDesc} (h : f ∈ (E.S.msg t).fields)
    (hm : f.hasMessage = false) {v : Val} (hv : elemOK (wtM E.S .solid) f.kind f.msg v = true) :
    Safe (Typed E.S t) (store f v) (fun _ => True) := by
  have ff := hS.fields f h
  have hnm : f.map = none := by
    cases hmap : f.map with
    | none => rfl
    | some md => have := (ff.map md hmap).2.1; simp [FieldDesc.hasMessage, this] at hm
  have hk : f.kind ≠ .message ∧ f.kind ≠ .group := by
    constructor <;> intro hk <;> simp [FieldDesc.hasMessage, hk] at hm
  unfold store
  cases ho : f.oneof with
  | true =>
    simp only [if_true]
    refine safe_setSlot hS hf h ?_
    simp only [slotOK, ho, if_true, oneofOK, member_of hS h ho, hv, Bool.true_and]
    simp [hk.1]
  | false =>
    simp only [Bool.false_eq_true, if_false]
    cases hc : f.card == .repeated with
    | true =>
      simp only [if_true]
      refine (safe_getSlot hf h).bind fun s hs => ?_
      simp only [slotOK, ho, Bool.false_eq_true, if_false, fieldOK, hnm, hc, if_true, hm] at hs
      have key : (appendVal s v).All (fun s' => slotOK E.S (E.S.msg t) f s' = true) := by
        cases s <;> simp only [appendVal, Res.All, slotOK, ho, Bool.false_eq_true, if_false, fieldOK, hnm, hc, if_true, hm] at hs ⊢
        · simp [hv]
        · simp only [Bool.and_eq_true] at hs ⊢
          refine ⟨by simp [hv, hs.1] , ?_⟩
          have : ∀ l : List Val, l.isEmpty = true → l.tail.isEmpty = true := by intro l hl; cases l <;> simp_all
          exact this _ hs.2
      refine (Safe.lift key).bind fun s' hs' => ?_
      exact safe_setSlot hS hf h hs'
    | false =>
      simp only [Bool.false_eq_true, if_false]
      refine safe_setSlot hS hf h ?_
      simp only [slotOK, ho, Bool.false_eq_true, if_false, fieldOK, hnm, hc]
      have : scalarOK f.kind v = true := by
        unfold elemOK at hv
        split at hv <;> simp_all
      cases hp : f.presence <;> simp [this, hv]

theorem typed_newSub (hE : DecodeEnv E) (d : MsgDesc) (off t : Nat) : Typed E.S t (newSub E d off t) := by
  unfold newSub
  split
  · exact hE.alloc off t
  · exact zeroMsg_typed hE.schema t

theorem mapItem_all (hE : DecodeEnv E) {rec : SubDec} {d : Bytes} (hr : RecSafe E rec d.length) (hF : E.A.Fits d.length)
    {k : Kind} (hk : k ≠ .group) (hb : k = .bytes → E.A.bits = 64 ∨ E.aliasing = true) (t base : Nat) {i : Nat} (hi : i ≤ d.length) (old : Val) :
    (mapItem E rec k t d base i old).All fun r => i < r.2 ∧ r.2 ≤ d.length ∧ elemOK (wtM E.S .solid) k t r.1 = true := by
  have hv : ∀ (w : Nat) (acc : BitVec w) (conv : BitVec w → BitVec 64), numeric k = true → (∀ v, inRange k (conv v) = true) →
      (do let (v, j) ← decodeVarintLoop w d 11 0 i acc; Res.ok (Val.num (conv v), j)).All
        fun (r : Val × Nat) => i < r.2 ∧ r.2 ≤ d.length ∧ elemOK (wtM E.S .solid) k t r.1 = true := by
    intro w acc conv hn h3
    refine (decodeVarintLoop_all w d 11 0 i acc rfl (by omega)).bind ?_
    rintro ⟨v, j⟩ ⟨h4, h5⟩
    exact ⟨h4, h5, elemOK_num _ _ hn (h3 v)⟩
  have hn : numeric k = true → (do let (v, j) ← readNum E.A k d i; Res.ok (Val.num v, j)).All
        fun (r : Val × Nat) => i < r.2 ∧ r.2 ≤ d.length ∧ elemOK (wtM E.S .solid) k t r.1 = true := by
    intro hn
    refine (readNum_all hE.arch hn hF hi).bind ?_
    rintro ⟨v, j⟩ ⟨h4, h5, h6⟩
    exact ⟨h4, h5, elemOK_num _ _ hn h6⟩
  unfold mapItem
  cases k <;> simp only
  case int64 => exact hv 64 _ id rfl (fun _ => rfl)
  case uint64 => exact hv 64 _ id rfl (fun _ => rfl)
  case int32 => exact hv 32 _ _ rfl (fun v => inRange_signExtend _ (by simp) _)
  case enum => exact hv 32 _ _ rfl (fun v => inRange_signExtend _ (by simp) _)
  case uint32 => exact hv 32 _ _ rfl (fun v => inRange_setWidth v)
  case string =>
    refine (readSpan_all hE.arch 64 hF i).bind ?_
    rintro ⟨j, post⟩ ⟨h1, h2, h3⟩
    simp only at h1 h2 h3 ⊢
    rw [slice_all h2 h3]
    simp only [Res.bind_ok, Res.All]
    exact ⟨by omega, h3, rfl⟩
  case bytes =>
    have hall := readSpan_all hE.arch 64 hF i
    unfold readSpan at hall ⊢
    cases hd : decodeVarint 64 d i with
    | ok r =>
      obtain ⟨n, j⟩ := r
      rw [hd] at hall
      simp only [Res.bind_ok] at hall ⊢
      split at hall <;> rename_i h1
      · rw [if_pos h1]; trivial
      · rw [if_neg h1]
        split at hall <;> rename_i h2
        · rw [if_pos h2]; trivial
        · rw [if_neg h2]
          split at hall <;> rename_i h3
          · rw [if_pos h3]; trivial
          · rw [if_neg h3]
            simp only [Res.All] at hall
            simp only [Res.bind_ok]
            rw [if_neg]
            · rw [slice_all hall.2.1 hall.2.2]
              simp only [Res.bind_ok, Res.All]
              exact ⟨by omega, hall.2.2, rfl⟩
            · simp only [Bool.and_eq_true, Bool.not_eq_true', decide_eq_true_eq, not_and, Nat.not_le]
              intro ha
              have hb' := (hb rfl).resolve_right (by simp [ha])
              have hw : E.A.wrap n.toInt = n.toInt := by
                unfold Arch.wrap
                rw [hb', ← BitVec.toInt_ofInt]
                simp
              rw [hw] at h1
              rw [BitVec.toInt_eq_toNat_cond] at h1
              rw [hb']
              split at h1 <;> omega
    | err e => trivial
    | panic p => rw [hd] at hall; exact hall
    | diverge => rw [hd] at hall; exact hall
  case message =>
    refine (readSpan_all hE.arch _ hF i).bind ?_
    rintro ⟨j, post⟩ ⟨h1, h2, h3⟩
    simp only at h1 h2 h3 ⊢
    rw [slice_all h2 h3]
    simp only [Res.bind_ok]
    have := safe_decodeMessage hE hr (base + j) t ((d.drop j).take (post - j)) (by simp; omega) _ (zeroMsg_typed hE.schema t)
    generalize decodeMessage E rec (base + j) t ((d.drop j).take (post - j)) (zeroMsg E.S t) = r at this
    obtain ⟨v, r⟩ := r
    cases r with
    | ok _ => exact ⟨by simp; omega, h3, by have := this.1; unfold Typed at this; simp [elemOK, this]⟩
    | err e => trivial
    | panic p => exact this.2
    | diverge => exact this.2
  case group => exact absurd rfl hk
  all_goals exact hn rfl

theorem toKey_toVal {k : Kind} (hk : mapKeyKind k = true) {v : Val} (h : scalarOK k v = true) : (toKey v).toVal = v := by
  cases v <;> cases k <;> simp_all [mapKeyKind, scalarOK, toKey, Key.toVal]

theorem mapKeyKind_scalar {k : Kind} (hk : mapKeyKind k = true) : k ≠ .message ∧ k ≠ .group ∧ k ≠ .bytes := by
  cases k <;> simp_all [mapKeyKind]

theorem elemOK_key {r : Nat → Val → Bool} {k : Kind} {t : Nat} {v : Val} (hk : mapKeyKind k = true) :
    elemOK r k t v = scalarOK k v := by
  cases k <;> simp_all [mapKeyKind, elemOK]

theorem decodeEnv_safe (hE : DecodeEnv E) (h : noBytesMaps E.S ∨ E.A.bits = 64) : DecodeEnv { E with aliasing := false } :=
  ⟨hE.schema, hE.arch, hE.alloc, hE.unmarshal, hE.unmarshalPartial, by rcases h with h | h <;> simp [h]⟩

/-- Keys are read without touching the sub-decoder. -/
theorem mapItem_key_all (hE : DecodeEnv E) (rec : SubDec) {d : Bytes} (hF : E.A.Fits d.length)
    {k : Kind} (hk : mapKeyKind k = true) (base : Nat) {i : Nat} (hi : i ≤ d.length) (old : Val) :
    (mapItem { E with aliasing := false } rec k 0 d base i old).All fun r => i < r.2 ∧ r.2 ≤ d.length ∧ scalarOK k r.1 = true := by
  have hv : ∀ (w : Nat) (acc : BitVec w) (conv : BitVec w → BitVec 64), numeric k = true → (∀ v, inRange k (conv v) = true) →
      (do let (v, j) ← decodeVarintLoop w d 11 0 i acc; Res.ok (Val.num (conv v), j)).All
        fun (r : Val × Nat) => i < r.2 ∧ r.2 ≤ d.length ∧ scalarOK k r.1 = true := by
    intro w acc conv hn h3
    refine (decodeVarintLoop_all w d 11 0 i acc rfl (by omega)).bind ?_
    rintro ⟨v, j⟩ ⟨h4, h5⟩
    exact ⟨h4, h5, scalarOK_of_num hn (h3 v)⟩
  have hn : numeric k = true → (do let (v, j) ← readNum E.A k d i; Res.ok (Val.num v, j)).All
        fun (r : Val × Nat) => i < r.2 ∧ r.2 ≤ d.length ∧ scalarOK k r.1 = true := by
    intro hn
    refine (readNum_all hE.arch hn hF hi).bind ?_
    rintro ⟨v, j⟩ ⟨h4, h5, h6⟩
    exact ⟨h4, h5, scalarOK_of_num hn h6⟩
  unfold mapItem
  cases k <;> simp only [mapKeyKind, Bool.false_eq_true] at hk <;> simp only
  case int64 => exact hv 64 _ id rfl (fun _ => rfl)
  case uint64 => exact hv 64 _ id rfl (fun _ => rfl)
  case int32 => exact hv 32 _ _ rfl (fun v => inRange_signExtend _ (by simp) _)
  case uint32 => exact hv 32 _ _ rfl (fun v => inRange_setWidth v)
  case string =>
    refine (readSpan_all hE.arch 64 hF i).bind ?_
    rintro ⟨j, post⟩ ⟨h1, h2, h3⟩
    simp only at h1 h2 h3 ⊢
    rw [slice_all h2 h3]
    simp only [Res.bind_ok, Res.All]
    exact ⟨by omega, h3, rfl⟩
  all_goals exact hn rfl

theorem entryLoop_all (hE : DecodeEnv E) {rec : SubDec} {d : Bytes} (hr : RecSafe E rec d.length) (hF : E.A.Fits d.length)
    {md : MapDesc} (hk : mapKeyKind md.key = true) (hv : md.val ≠ .group) (hb : md.val = .bytes → E.A.bits = 64 ∨ E.aliasing = true)
    (base : Nat) {post : Nat} (hp : post ≤ d.length) :
    ∀ (n i : Nat) (key val : Val), i ≤ d.length → d.length - i < n → scalarOK md.key key = true →
      elemOK (wtM E.S .solid) md.val md.valMsg val = true →
      (entryLoop E rec md d base post n i key val).All fun r => scalarOK md.key r.1 = true ∧ elemOK (wtM E.S .solid) md.val md.valMsg r.2 = true := by
  intro n
  induction n with
  | zero => intro i key val hi h; exfalso; omega
  | succ n ih =>
    intro i key val hi h h1 h2
    rw [entryLoop]
    split
    · refine (decodeVarint_all 64 d i).bind ?_
      rintro ⟨wire, j⟩ ⟨h3, h4⟩
      simp only at h3 h4 ⊢
      split
      · refine (mapItem_key_all hE rec hF hk base h4 key).bind ?_
        rintro ⟨key', j'⟩ ⟨h5, h6, h7⟩
        exact ih j' key' val h6 (by omega) h7 h2
      · split
        · refine (mapItem_all hE hr hF hv hb md.valMsg base h4 val).bind ?_
          rintro ⟨val', j'⟩ ⟨h5, h6, h7⟩
          exact ih j' key val' h6 (by omega) h1 h7
        · refine (skipAt_all hE.arch hF hi).bind ?_
          rintro j' ⟨h5, h6⟩
          exact ih j' key val (by omega) (by omega) h1 h2
    · exact ⟨h1, h2⟩

theorem mapInsert_keys (es : List (Key × Val)) (k : Key) (v : Val) (h : (es.map (·.1)).Nodup) :
    ((mapInsert es k v).map (·.1)).Nodup ∧ (∀ e ∈ mapInsert es k v, e = (k, v) ∨ e ∈ es) := by
  induction es with
  | nil => simp [mapInsert]
  | cons e es ih =>
    obtain ⟨k', v'⟩ := e
    simp only [List.map_cons, List.nodup_cons] at h
    obtain ⟨h1, h2⟩ := h
    rw [mapInsert]
    split
    · rename_i hkk
      subst hkk
      refine ⟨by simpa using ⟨by simpa using h1, h2⟩, ?_⟩
      intro e he
      rcases List.mem_cons.1 he with rfl | he
      · exact .inl rfl
      · exact .inr (by simp [he])
    · rename_i hkk
      obtain ⟨i1, i2⟩ := ih h2
      refine ⟨?_, ?_⟩
      · simp only [List.map_cons, List.nodup_cons]
        refine ⟨fun hm => ?_, i1⟩
        obtain ⟨e, he, hek⟩ := List.mem_map.1 hm
        rcases i2 e he with rfl | he
        · exact hkk hek.symm
        · exact h1 (List.mem_map.2 ⟨e, he, hek⟩)
      · intro e he
        rcases List.mem_cons.1 he with rfl | he
        · exact .inr (by simp)
        · rcases i2 e he with h | h
          · exact .inl h
          · exact .inr (by simp [h])

theorem safe_mapEntry (hE : DecodeEnv E) {rec : SubDec} {d : Bytes} (hr : RecSafe E rec d.length) (hF : E.A.Fits d.length)
    (hf : (E.S.msg t).foreign = false) {f : FieldDesc} (h : f ∈ (E.S.msg t).fields) {md : MapDesc} (hmd : f.map = some md)
    (base : Nat) {i post : Nat} (hi : i ≤ d.length) (hp : post ≤ d.length) :
    Safe (Typed E.S t) (mapEntry E rec f md d base i post) (fun _ => True) := by
  have hS := schemaOK_msg hE.schema t
  have ff := hS.fields f h
  obtain ⟨m1, m2, m3, m4⟩ := ff.map md hmd
  have ho : f.oneof = false := by
    cases hc : f.oneof
    · rfl
    · have := (ff.oneof hc).1; rw [m1] at this; cases this
  have hb : md.val = .bytes → E.A.bits = 64 ∨ E.aliasing = true := by
    intro hv
    rcases hE.bytesMap with h' | h' | h'
    · exact .inl h'
    · exact .inr h'
    · exact absurd hv (h' t f h md hmd)
  unfold mapEntry
  refine (safe_getSlot hf h).bind fun s hs => ?_
  have hs' : slotOK E.S (E.S.msg t) f (if s.isNil then .map [] else s) = true := by
    split
    · simp [slotOK, ho, fieldOK, hmd]
    · exact hs
  generalize hgs : (if s.isNil then Val.map [] else s) = s' at hs' ⊢
  have hsn : ∃ es, s' = .map es := by
    simp only [slotOK, ho, Bool.false_eq_true, if_false, fieldOK, hmd] at hs
    cases s <;> simp [Val.isNil] at hgs hs <;> exact ⟨_, hgs.symm⟩
  obtain ⟨es, rfl⟩ := hsn
  refine (safe_setSlot hS hf h hs').bind fun _ _ => ?_
  have hz1 := mapKeyKind_scalar m3
  refine (Safe.lift (entryLoop_all hE hr hF m3 m4 hb base hp (d.length + 1) i _ _ hi (by omega)
    (scalarOK_zero ⟨hz1.1, hz1.2.1⟩) ?_)).bind ?_
  · cases hvk : md.val <;> simp [elemOK, zeroScalar, scalarOK, inRange, Val.isNil]
  · rintro ⟨k, v⟩ ⟨h1, h2⟩
    simp only
    refine safe_setSlot hS hf h ?_
    simp only [slotOK, ho, Bool.false_eq_true, if_false, fieldOK, hmd, Bool.and_eq_true, decide_eq_true_eq, List.all_eq_true] at hs' ⊢
    obtain ⟨i1, i2⟩ := mapInsert_keys es (toKey k) v hs'.1
    refine ⟨i1, fun e he => ?_⟩
    rcases i2 e he with rfl | he
    · simp only
      rw [toKey_toVal m3 h1]
      exact ⟨h1, h2⟩
    · exact hs'.2 e he

/-- A group is never decoded: the loop ends with an error. -/
theorem groupLoop_err (hE : DecodeEnv E) (rec : SubDec) (f : FieldDesc) {wire : BitVec 64} (hw : (wire &&& 7).toNat ≠ 4) {d : Bytes}
    (hF : E.A.Fits d.length) (base start : Nat) :
    ∀ (n i : Nat), d.length - i < n → ∃ e, groupLoop E rec f wire d base start n i = UM.lift (.err e) := by
  intro n
  induction n with
  | zero => intro i h; exfalso; omega
  | succ n ih =>
    intro i h
    rw [groupLoop]
    have h1 := decodeVarint_all 64 d i
    cases hd : decodeVarint 64 d i with
    | ok r =>
      obtain ⟨v, j⟩ := r
      rw [hd] at h1
      simp only [Res.All] at h1
      rw [UM.lift_ok_bind]
      simp only [if_neg hw]
      rw [slice_all h1.2 (Nat.le_refl _), UM.lift_ok_bind]
      have hlen : ((d.drop j).take (d.length - j)).length ≤ d.length := by simp
      have h2 := skip_lt hE.arch ((d.drop j).take (d.length - j)) (by unfold Arch.Fits at hF ⊢; omega)
      cases hs : skip E.A ((d.drop j).take (d.length - j)) with
      | ok k =>
        rw [hs] at h2
        simp only [Res.All] at h2
        rw [UM.lift_ok_bind]
        split
        · exact ⟨_, rfl⟩
        · rename_i hneg
          apply ih
          unfold Arch.Fits at hF
          have hpos := hE.arch.pos
          have h2p := two_pow_pred (n := E.A.bits) (by omega)
          rcases Arch.wrap_cases hE.arch (j + k) (by omega) (by omega) with h | h <;> omega
      | err e => exact ⟨e, rfl⟩
      | panic p => rw [hs] at h2; exact h2.elim
      | diverge => rw [hs] at h2; exact h2.elim
    | err e => exact ⟨e, rfl⟩
    | panic p => rw [hd] at h1; exact h1.elim
    | diverge => rw [hd] at h1; exact h1.elim

/-- What a sub-message is decoded into is a message of its type, and so is the struct field afterwards. -/
theorem subTarget_all (hE : DecodeEnv E) {f : FieldDesc} (h : f ∈ (E.S.msg t).fields) (hk : f.kind = .message) (hmd : f.map = none)
    (off : Nat) {s : Val} (hs : slotOK E.S (E.S.msg t) f s = true) :
    (subTarget E (E.S.msg t) f off s).All fun x => Typed E.S f.msg x ∧
      ∀ x', Typed E.S f.msg x' → slotOK E.S (E.S.msg t) f (subAssign f s x') = true := by
  have hS := schemaOK_msg hE.schema t
  have hmsg : f.hasMessage = true := by simp [FieldDesc.hasMessage, hk]
  unfold subTarget subAssign
  cases ho : f.oneof with
  | true =>
    simp only [slotOK, ho, if_true] at hs ⊢
    have hnew : ∀ x', Typed E.S f.msg x' → oneofOK .solid (wtM E.S .solid) (E.S.msg t) f.slot (.wrap f.num x') = true := by
      intro x' hx'
      have hx2 := hx'.not_nil
      unfold Typed at hx'
      simp [oneofOK, member_of hS h ho, hk, elemOK, hx', hx2]
    cases s <;> simp only [oneofOK, Bool.false_eq_true] at hs <;> simp only [Res.All]
    · exact ⟨typed_newSub hE _ _ _, hnew⟩
    · refine ⟨?_, hnew⟩
      split
      · rename_i n x hn
        subst hn
        rw [member_of hS h ho] at hs
        simp only [hk, elemOK, Bool.and_eq_true, Bool.or_eq_true, Bool.not_eq_true'] at hs
        unfold Typed
        cases hx : x.isNil <;> simp_all
      · exact typed_newSub hE _ _ _
    · simp at hs
  | false =>
    simp only [slotOK, ho, Bool.false_eq_true, if_false, fieldOK, hmd, hmsg, if_true] at hs ⊢
    have hel : ∀ x', Typed E.S f.msg x' → elemOK (wtM E.S .solid) f.kind f.msg x' = true := by
      intro x' hx'; unfold Typed at hx'; simp [hk, elemOK, hx']
    cases hc : f.card == .repeated with
    | true =>
      simp only [hc, if_true] at hs ⊢
      cases s <;> simp only [Bool.false_eq_true] at hs <;> simp only [Res.All]
      · exact ⟨zeroMsg_typed hE.schema _, fun x' hx' => by simp [hel x' hx']⟩
      · rename_i xs sp
        simp only [Bool.and_eq_true, List.all_eq_true] at hs
        have hassign : ∀ x', Typed E.S f.msg x' → ((xs ++ [x']).all (elemOK (wtM E.S .solid) f.kind f.msg) && sp.tail.all (elemOK (wtM E.S .solid) f.kind f.msg)) = true := by
          intro x' hx'
          simp only [Bool.and_eq_true, List.all_eq_true]
          constructor
          · intro y hy
            rcases List.mem_append.1 hy with hy | hy
            · exact hs.1 y hy
            · rw [List.mem_singleton.1 hy]; exact hel x' hx'
          · intro y hy
            exact hs.2 y (List.mem_of_mem_tail hy)
        cases hp : (E.S.msg t).pooled <;> simp only [if_true, Bool.false_eq_true, if_false]
        · exact ⟨zeroMsg_typed hE.schema _, hassign⟩
        · cases sp with
          | nil => exact ⟨zeroMsg_typed hE.schema _, hassign⟩
          | cons y ys =>
            refine ⟨?_, hassign⟩
            cases hy : y.isNil <;> simp only [if_true, Bool.false_eq_true, if_false]
            · have := hs.2 y (by simp)
              simp only [hk, elemOK, hy, Bool.false_or] at this
              exact this
            · exact zeroMsg_typed hE.schema _
    | false =>
      simp only [hc, Bool.false_eq_true, if_false] at hs ⊢
      have hp := (hS.fields f h).singMsg (by simpa using hc) hmsg
      simp only [hp, if_true] at hs ⊢
      refine ⟨?_, fun x' hx' => by simp [hel x' hx']⟩
      cases hy : s.isNil <;> simp only [if_true, Bool.false_eq_true, if_false]
      · simp only [hy, Bool.false_or, hk, elemOK] at hs
        exact hs
      · exact typed_newSub hE _ _ _

theorem safe_messageItem (hE : DecodeEnv E) {rec : SubDec} {N : Nat} (hr : RecSafe E rec N)
    (hf : (E.S.msg t).foreign = false) {f : FieldDesc} (h : f ∈ (E.S.msg t).fields) (hk : f.kind = .message) (hmd : f.map = none)
    (off : Nat) {b : Bytes} (hb : b.length < N) :
    Safe (Typed E.S t) (messageItem E rec (E.S.msg t) f off b) (fun _ => True) := by
  have hS := schemaOK_msg hE.schema t
  unfold messageItem
  refine (safe_getSlot hf h).bind fun s hs => ?_
  have key := subTarget_all hE h hk hmd off hs
  refine (Safe.lift key).bind fun x hx => ?_
  have hd := safe_decodeMessage hE hr off f.msg b hb x hx.1
  generalize decodeMessage E rec off f.msg b x = r at hd
  obtain ⟨x', r⟩ := r
  simp only
  split
  · refine (Safe.lift hd.2).bind fun _ _ => ?_
    exact safe_setSlot hS hf h (hx.2 x' hd.1)
  · refine (safe_setSlot hS hf h (hx.2 x' hd.1)).bind fun _ _ => ?_
    exact Safe.lift hd.2

theorem numeric_of {k : Kind} (h1 : k ≠ .message) (h2 : k ≠ .group) (h3 : k ≠ .string) (h4 : k ≠ .bytes) : numeric k = true := by
  cases k <;> simp_all [numeric]

theorem hasMessage_of_numeric {f : FieldDesc} (h : numeric f.kind = true) : f.hasMessage = false := by
  cases hk : f.kind <;> simp_all [numeric, FieldDesc.hasMessage]

theorem safe_num (hE : DecodeEnv E) {d : Bytes} (hF : E.A.Fits d.length) (hf : (E.S.msg t).foreign = false)
    {f : FieldDesc} (h : f ∈ (E.S.msg t).fields) (hk : numeric f.kind = true) {p3 : Bool} (hp3 : p3 = true → f.card ≠ .repeated → (E.S.msg t).proto3 = true)
    {i : Nat} (hi : i ≤ d.length) :
    Safe (Typed E.S t) (do
      if !f.oneof && f.card != .repeated && p3 && !f.synthetic then
        match direct E.A f.kind d i with
        | some v => setSlot f.slot (.num v)
        | none => pure ()
      let (v, i) ← UM.lift (readNum E.A f.kind d i)
      store f (.num v)
      pure i) (fun j => i < j ∧ j ≤ d.length) := by
  have hS := schemaOK_msg hE.schema t
  have hm := hasMessage_of_numeric hk
  have ff := hS.fields f h
  have rest : Safe (Typed E.S t) (do
      let (v, i) ← UM.lift (readNum E.A f.kind d i)
      store f (.num v)
      pure i) (fun j => i < j ∧ j ≤ d.length) := by
    refine (Safe.lift (readNum_all hE.arch hk hF hi)).bind ?_
    rintro ⟨v, j⟩ ⟨h1, h2, h3⟩
    refine (safe_store hS hf h hm (elemOK_num _ _ hk h3)).bind fun _ _ => ?_
    exact Safe.pure ⟨h1, h2⟩
  split
  · rename_i hc
    simp only [Bool.and_eq_true, Bool.not_eq_true', bne_iff_ne, ne_eq] at hc
    have hsafe : Safe (Typed E.S t) (match direct E.A f.kind d i with
        | some v => setSlot f.slot (.num v)
        | none => pure ()) (fun _ => True) := by
      cases hd : direct E.A f.kind d i with
      | none => exact Safe.pure trivial
      | some v =>
        refine safe_setSlot hS hf h ?_
        have hp := ff.implicit hc.1.1.2 (hp3 hc.1.2 hc.1.1.2) hc.1.1.1 hc.2 hm
        have hmap : f.map = none := by
          cases hmap : f.map with
          | none => rfl
          | some md => exact absurd (ff.map md hmap).1 hc.1.1.2
        have hcard : (f.card == .repeated) = false := by simpa using hc.1.1.2
        simp only [slotOK, hc.1.1.1, Bool.false_eq_true, if_false, fieldOK, hmap, hcard, hp]
        exact scalarOK_of_num hk (direct_inRange hE.arch hk hF hi hd)
    cases hd : direct E.A f.kind d i with
    | none => exact rest
    | some v => rw [hd] at hsafe; exact hsafe.bind fun _ _ => rest
  · exact rest

theorem safe_fieldItem (hE : DecodeEnv E) {rec : SubDec} {d : Bytes} (hr : RecSafe E rec d.length) (hF : E.A.Fits d.length)
    (hf : (E.S.msg t).foreign = false) {f : FieldDesc} (h : f ∈ (E.S.msg t).fields) {p3 : Bool} (hp3 : p3 = true → f.card ≠ .repeated → (E.S.msg t).proto3 = true)
    {wire : BitVec 64} (hw : (wire &&& 7).toNat ≠ 4) (base : Nat) {i : Nat} (hi : i ≤ d.length) :
    Safe (Typed E.S t) (fieldItem E rec (E.S.msg t) f p3 wire d base i) (fun j => i < j ∧ j ≤ d.length) := by
  have hS := schemaOK_msg hE.schema t
  have hnum := fun hk => safe_num hE hF hf h (p3 := p3) hk hp3 hi
  cases hk : f.kind <;> rw [hk] at hnum <;> unfold fieldItem <;> rw [hk] <;> simp only
  case string =>
    refine (Safe.lift (readSpan_all hE.arch 64 hF i)).bind ?_
    rintro ⟨j, post⟩ ⟨h1, h2, h3⟩
    simp only at h1 h2 h3 ⊢
    rw [slice_all h2 h3, UM.lift_ok_bind]
    refine (safe_store hS hf h (by simp [FieldDesc.hasMessage, hk]) (by simp [hk, elemOK, scalarOK])).bind fun _ _ => ?_
    exact Safe.pure ⟨by omega, h3⟩
  case bytes =>
    refine (Safe.lift (readSpan_all hE.arch _ hF i)).bind ?_
    rintro ⟨j, post⟩ ⟨h1, h2, h3⟩
    simp only at h1 h2 h3 ⊢
    rw [slice_all h2 h3, UM.lift_ok_bind]
    refine (safe_store hS hf h (by simp [FieldDesc.hasMessage, hk]) (by simp [hk, elemOK, scalarOK])).bind fun _ _ => ?_
    exact Safe.pure ⟨by omega, h3⟩
  case group =>
    obtain ⟨e, he⟩ := groupLoop_err hE rec f hw hF base i (d.length + 1) i (by omega)
    rw [he]
    exact Safe.lift trivial
  case message =>
    refine (Safe.lift (readSpan_all hE.arch _ hF i)).bind ?_
    rintro ⟨j, post⟩ ⟨h1, h2, h3⟩
    simp only at h1 h2 h3 ⊢
    cases hmd : f.map with
    | some md =>
      simp only
      refine (safe_mapEntry hE hr hF hf h hmd base (by omega) h3).bind fun _ _ => ?_
      exact Safe.pure ⟨by omega, h3⟩
    | none =>
      simp only
      rw [slice_all h2 h3, UM.lift_ok_bind]
      refine (safe_messageItem hE hr hf h hk hmd (base + j) (b := (d.drop j).take (post - j)) (by simp; omega)).bind fun _ _ => ?_
      exact Safe.pure ⟨by omega, h3⟩
  all_goals exact hnum rfl

theorem safe_packedLoop (hE : DecodeEnv E) {rec : SubDec} {d : Bytes} (hr : RecSafe E rec d.length) (hF : E.A.Fits d.length)
    (hf : (E.S.msg t).foreign = false) {f : FieldDesc} (h : f ∈ (E.S.msg t).fields)
    {wire : BitVec 64} (hw : (wire &&& 7).toNat ≠ 4) (base post : Nat) :
    ∀ (n i : Nat), i ≤ d.length → d.length - i < n →
    Safe (Typed E.S t) (packedLoop E rec (E.S.msg t) f wire d base post n i) (fun j => i ≤ j ∧ j ≤ d.length) := by
  intro n
  induction n with
  | zero => intro i hi hn; exfalso; omega
  | succ n ih =>
    intro i hi hn
    rw [packedLoop]
    split
    · refine (safe_fieldItem hE hr hF hf h (by simp) hw base hi).bind ?_
      rintro j ⟨h1, h2⟩
      exact (ih j h2 (by omega)).mono fun a ha => ⟨by omega, ha.2⟩
    · exact Safe.pure ⟨Nat.le_refl _, hi⟩

theorem safe_prealloc (hS : MsgFacts (E.S.msg t)) (hf : (E.S.msg t).foreign = false) {f : FieldDesc} (h : f ∈ (E.S.msg t).fields)
    (hl : f.isList = true) (c : Nat) : Safe (Typed E.S t) (prealloc f c) (fun _ => True) := by
  unfold prealloc
  split
  · refine (safe_getSlot hf h).bind fun s _ => ?_
    split
    · refine safe_setSlot hS hf h ?_
      simp only [FieldDesc.isList, Bool.and_eq_true, Option.isNone_iff_eq_none] at hl
      have ho : f.oneof = false := by
        cases hc : f.oneof
        · rfl
        · have := ((hS.fields f h).oneof hc).1; rw [this] at hl; simp at hl
      simp [slotOK, ho, fieldOK, hl.1, hl.2]
    · exact Safe.pure trivial
  · exact Safe.pure trivial

theorem safe_fieldCase (hE : DecodeEnv E) {rec : SubDec} {d : Bytes} (hr : RecSafe E rec d.length) (hF : E.A.Fits d.length)
    (hf : (E.S.msg t).foreign = false) {f : FieldDesc} (h : f ∈ (E.S.msg t).fields)
    {wire : BitVec 64} (hw : (wire &&& 7).toNat ≠ 4) (base : Nat) {i : Nat} (hi : i ≤ d.length) :
    Safe (Typed E.S t) (fieldCase E rec (E.S.msg t) f wire d base i) (fun j => i ≤ j ∧ j ≤ d.length) := by
  have hS := schemaOK_msg hE.schema t
  unfold fieldCase
  simp only
  split
  · rename_i hl
    simp only [Bool.and_eq_true] at hl
    split
    · exact (safe_fieldItem hE hr hF hf h (by simp) hw base hi).mono fun a ha => ⟨by omega, ha.2⟩
    · split
      · refine (Safe.lift (readSpan_all hE.arch _ hF i)).bind ?_
        rintro ⟨j, post⟩ ⟨h1, h2, h3⟩
        simp only at h1 h2 h3 ⊢
        rw [slice_all h2 h3, UM.lift_ok_bind]
        refine (safe_prealloc hS hf h hl.1 _).bind fun _ _ => ?_
        exact (safe_packedLoop hE hr hF hf h hw base post (d.length + 1) j (by omega) (by omega)).mono fun a ha => ⟨by omega, ha.2⟩
      · exact Safe.lift trivial
  · split
    · exact Safe.lift trivial
    · exact (safe_fieldItem hE hr hF hf h (fun hp _ => hp) hw base hi).mono fun a ha => ⟨by omega, ha.2⟩

/-! ## Required fields -/

theorem required_mem {d : MsgDesc} {f : FieldDesc} (h : f ∈ d.fields) (hc : (f.card == .required) = true) : f.num ∈ d.required := by
  unfold MsgDesc.required
  exact List.mem_map.2 ⟨f, List.mem_filter.2 ⟨h, hc⟩, rfl⟩

theorem bit_lt {d : MsgDesc} {f : FieldDesc} (h : f ∈ d.fields) (hc : (f.card == .required) = true) :
    d.required.idxOf f.num / 64 < (noFields d).length := by
  have h1 := List.idxOf_lt_length_of_mem (required_mem h hc)
  unfold noFields
  rw [if_pos (by omega)]
  simp only [List.length_replicate]
  omega

theorem markField_all {d : MsgDesc} {f : FieldDesc} (h : f ∈ d.fields) {has : List (BitVec 64)} (hl : has.length = (noFields d).length) :
    (markField d f has).All fun has' => has'.length = (noFields d).length := by
  unfold markField
  split
  · rename_i hc
    have := bit_lt h hc
    simp only
    rw [List.getElem?_eq_getElem (by omega)]
    simpa [Res.All] using hl
  · exact hl

theorem checkRequired_all {d : MsgDesc} {has : List (BitVec 64)} (hl : has.length = (noFields d).length) :
    ∀ fs : List FieldDesc, (∀ f ∈ fs, f ∈ d.fields) → (checkRequired d has fs).All fun _ => True := by
  intro fs
  induction fs with
  | nil => intro _; trivial
  | cons f fs ih =>
    intro h
    rw [checkRequired]
    split
    · rename_i hc
      have := bit_lt (h f (by simp)) hc
      simp only
      rw [List.getElem?_eq_getElem (by omega)]
      simp only
      split
      · trivial
      · exact ih fun g hg => h g (by simp [hg])
    · exact ih fun g hg => h g (by simp [hg])

/-! ## The message -/

theorem safe_unknownCase (hE : DecodeEnv E) {d : Bytes} (hF : E.A.Fits d.length) (hf : (E.S.msg t).foreign = false)
    (num : Nat) {i : Nat} (hi : i ≤ d.length) :
    Safe (Typed E.S t) (unknownCase E t num d i) (fun j => i < j ∧ j ≤ d.length) := by
  unfold unknownCase
  refine (Safe.lift (skipAt_all hE.arch hF hi)).bind ?_
  rintro j ⟨h1, h2⟩
  split
  · rw [slice_all (by omega) h2, UM.lift_ok_bind]
    have : Safe (Typed E.S t) (runtimePartial E t ((d.drop i).take (j - i))) (fun _ => True) := by
      intro m hm
      obtain ⟨s, u, e, rfl⟩ := hm.nonnil
      unfold runtimePartial
      simp only
      cases hu : E.R.unmarshalPartial t ((d.drop i).take (j - i)) with
      | none => exact ⟨hm, trivial⟩
      | some v => exact ⟨hE.unmarshalPartial _ _ _ hu, trivial⟩
    refine this.bind fun _ _ => Safe.pure ⟨h1, h2⟩
  · rw [slice_all (by omega) h2, UM.lift_ok_bind]
    have hp : Safe (Typed E.S t) (pure j : UM Nat) (fun j => i < j ∧ j ≤ d.length) := Safe.pure ⟨h1, h2⟩
    split
    · exact (safe_appendUnknown hf _).bind fun _ _ => hp
    · exact hp

theorem safe_recordStep (hE : DecodeEnv E) {rec : SubDec} {d : Bytes} (hr : RecSafe E rec d.length) (hF : E.A.Fits d.length)
    (hf : (E.S.msg t).foreign = false) (base : Nat) {i : Nat} (hi : i ≤ d.length) {has : List (BitVec 64)}
    (hl : has.length = (noFields (E.S.msg t)).length) :
    Safe (Typed E.S t) (recordStep E rec t d base i has)
      (fun r => i < r.1 ∧ r.1 ≤ d.length ∧ r.2.length = (noFields (E.S.msg t)).length) := by
  unfold recordStep
  refine (Safe.lift (decodeVarint_all 64 d i)).bind ?_
  rintro ⟨wire, j⟩ ⟨h1, h2⟩
  simp only at h1 h2 ⊢
  split
  · exact Safe.lift trivial
  · rename_i hw
    split
    · exact Safe.lift trivial
    · cases hfind : (E.S.msg t).fields.find? (fun f => f.num == ((wire >>> 3).setWidth 32 : BitVec 32).toNat) with
      | some f =>
        have hmem := List.mem_of_find?_eq_some hfind
        simp only
        refine (safe_fieldCase hE hr hF hf hmem hw base h2).bind ?_
        rintro k ⟨h3, h4⟩
        refine (Safe.lift (markField_all hmem hl)).bind fun has' hh => ?_
        exact Safe.pure ⟨by simp; omega, h4, hh⟩
      | none =>
        simp only
        refine (safe_unknownCase hE hF hf _ hi).bind ?_
        rintro k ⟨h3, h4⟩
        exact Safe.pure ⟨h3, h4, hl⟩

theorem safe_recordLoop (hE : DecodeEnv E) {rec : SubDec} {d : Bytes} (hr : RecSafe E rec d.length) (hF : E.A.Fits d.length)
    (hf : (E.S.msg t).foreign = false) (base : Nat) : ∀ (n i : Nat) (has : List (BitVec 64)), i ≤ d.length → d.length - i < n →
    has.length = (noFields (E.S.msg t)).length →
    Safe (Typed E.S t) (recordLoop E rec t d base n i has)
      (fun r => r.1 = d.length ∧ r.2.length = (noFields (E.S.msg t)).length) := by
  intro n
  induction n with
  | zero => intro i has hi hn; exfalso; omega
  | succ n ih =>
    intro i has hi hn hl
    rw [recordLoop]
    split
    · refine (safe_recordStep hE hr hF hf base hi hl).bind ?_
      rintro ⟨j, has'⟩ ⟨h1, h2, h3⟩
      exact ih j has' h2 (by simp only at h1; omega) h3
    · exact Safe.pure ⟨by simp; omega, hl⟩

theorem safe_unmarshalBody (hE : DecodeEnv E) {rec : SubDec} {d : Bytes} (hr : RecSafe E rec d.length) (hF : E.A.Fits d.length)
    (hf : (E.S.msg t).foreign = false) (base : Nat) :
    Safe (Typed E.S t) (unmarshalBody E rec base t d) (fun _ => True) := by
  unfold unmarshalBody
  refine (safe_recordLoop hE hr hF hf base (d.length + 1) 0 _ (by omega) (by omega) rfl).bind ?_
  rintro ⟨i, has⟩ ⟨h1, h2⟩
  refine (Safe.lift (checkRequired_all h2 _ fun _ h => h)).bind fun _ _ => ?_
  simp only at h1 ⊢
  rw [if_neg (by omega)]
  exact Safe.pure trivial

theorem safe_unmarshalN (hE : DecodeEnv E) (L : Nat) (hL : E.A.Fits L) : ∀ n, n ≤ L + 1 → RecSafe E (unmarshalN E n) n := by
  intro n
  induction n with
  | zero => intro _ off t b hf hb; omega
  | succ n ih =>
    intro hn off t b hf hb
    rw [unmarshalN]
    refine safe_unmarshalBody hE (fun off t b' hf' hb' => ih (by omega) off t b' hf' (by omega)) ?_ hf off
    unfold Arch.Fits at hL ⊢; omega

end

end Vtp
