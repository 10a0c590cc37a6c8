import Verif.Spec.RoundTrip
import Verif.Lemmas.Steps
import Verif.Lemmas.Order
import Verif.Lemmas.EqualEncode
/-!
# Reading back what was written
-/

namespace Vtp
open Spec

/-! ## Scalars -/

theorem littleEndian_succ (n v : Nat) : littleEndian (n + 1) v = UInt8.ofNat v :: littleEndian n (v / 256) := by
  unfold littleEndian
  rw [List.range_succ_eq_map, List.map_cons, List.map_map]
  simp only [Nat.pow_zero, Nat.div_one, List.cons.injEq, true_and]
  apply List.map_congr_left
  intro k _
  simp only [Function.comp, Nat.pow_succ]
  rw [Nat.div_div_eq_div_mul, Nat.mul_comm]

theorem fromLE_littleEndian (n v : Nat) : fromLE (littleEndian n v) = v % 256 ^ n := by
  induction n generalizing v with
  | zero => simp [littleEndian, fromLE, Nat.mod_one]
  | succ n ih =>
    rw [littleEndian_succ, fromLE, ih, UInt8.toNat_ofNat']
    show v % 256 + 256 * (v / 256 % 256 ^ n) = v % 256 ^ (n + 1)
    rw [Nat.pow_succ, Nat.mul_comm (256 ^ n), Nat.mod_mul]

theorem littleEndian_length (n v : Nat) : (littleEndian n v).length = n := by simp [littleEndian]

theorem scalar_back_num {k : Kind} (hk : numeric k = true) {v : Val} (hv : scalarOK k v = true) :
    ∃ p, PackedItem p (scalar k v) ∧ scalarValue k p = some v ∧ payloadType p = wireType k := by
  have hn : ∃ n, v = .num n ∧ inRange k n = true := by
    cases k <;> simp [numeric] at hk <;> cases v <;> simp_all [scalarOK]
  obtain ⟨n, rfl, hr⟩ := hn
  have hlt := n.isLt
  have h32 : ∀ m : Nat, m < 2 ^ 32 → m < 2 ^ 64 := by intro m hm; omega
  have hsx : (BitVec.ofNat 32 n.toNat) = n.setWidth 32 := by
    apply BitVec.eq_of_toNat_eq; simp
  cases k <;> simp [numeric] at hk
  case bool =>
    refine ⟨.varint (if n = 0 then 0 else 1), .varint ?_, ?_, rfl⟩
    · exact varint_isVarint _ (by split <;> omega)
    · simp only [scalarValue, wireType, varintNum]
      simp [inRange] at hr
      by_cases h0 : n = 0
      · simp [h0]
      · simp only [h0, if_false]
        have : n.toNat ≠ 0 := fun h => h0 (BitVec.eq_of_toNat_eq (by simpa using h))
        have h1 : n = 1 := BitVec.eq_of_toNat_eq (by simp; omega)
        simp [h1]
  case int32 | enum =>
    refine ⟨.varint n.toNat, .varint (varint_isVarint _ hlt), ?_, rfl⟩
    simp [inRange] at hr
    simp [scalarValue, wireType, varintNum, low32_eq, hr]
  case int64 | uint64 =>
    refine ⟨.varint n.toNat, .varint (varint_isVarint _ hlt), ?_, rfl⟩
    simp [scalarValue, wireType, varintNum]
  case uint32 =>
    refine ⟨.varint n.toNat, .varint (varint_isVarint _ hlt), ?_, rfl⟩
    simp [inRange] at hr
    simp only [scalarValue, wireType, varintNum]
    rw [Nat.mod_eq_of_lt hr]; simp
  case sint32 =>
    have hz : zigzag (n.setWidth 32).toInt < 2 ^ 32 := by rw [← zigzag32_toNat]; exact (zigzag32 _).isLt
    refine ⟨.varint (zigzag (n.setWidth 32).toInt), .varint (varint_isVarint _ (h32 _ hz)), ?_, rfl⟩
    simp [inRange] at hr
    simp only [scalarValue, wireType, varintNum]
    rw [Nat.mod_eq_of_lt hz, unzigzag_zigzag]
    rw [BitVec.signExtend] at hr
    rw [hr]
    simp
  case sint64 =>
    have hz : zigzag n.toInt < 2 ^ 64 := by rw [← zigzag64_toNat]; exact (zigzag64 _).isLt
    refine ⟨.varint (zigzag n.toInt), .varint (varint_isVarint _ hz), ?_, rfl⟩
    simp only [scalarValue, wireType, varintNum]
    rw [unzigzag_zigzag]
    simp
  case sfixed32 =>
    refine ⟨.i32 (littleEndian 4 n.toNat), .i32 (littleEndian_length _ _), ?_, rfl⟩
    simp [inRange] at hr
    have : BitVec.ofNat 32 (n.toNat % 256 ^ 4) = n.setWidth 32 := by apply BitVec.eq_of_toNat_eq; simp
    simp [scalarValue, wireType, fromLE_littleEndian, low32_eq]
    rw [show n.toNat % 4294967296 = n.toNat % 256 ^ 4 by rfl, this, hr]
  case fixed32 | float =>
    refine ⟨.i32 (littleEndian 4 n.toNat), .i32 (littleEndian_length _ _), ?_, rfl⟩
    simp [inRange] at hr
    simp [scalarValue, wireType, fromLE_littleEndian]
    rw [Nat.mod_eq_of_lt hr]; simp
  case sfixed64 | fixed64 | double =>
    refine ⟨.i64 (littleEndian 8 n.toNat), .i64 (littleEndian_length _ _), ?_, rfl⟩
    simp [scalarValue, wireType, fromLE_littleEndian]
    rw [Nat.mod_eq_of_lt (by omega)]; simp

theorem tag_isVarint {num wt : Nat} (hn : ValidNum num) (hw : wt < 8) : IsVarint (num * 8 + wt) (tag num wt) := by
  unfold ValidNum at hn
  exact varint_isVarint _ (by omega)

theorem len_isRecord {num : Nat} (hn : ValidNum num) {b : Bytes} (hb : b.length < 2 ^ 64) : IsRecord num (.len b) (tag num 2 ++ delimited b) := by
  unfold delimited lenPrefix
  rw [Nat.mod_eq_of_lt hb]
  exact .len num _ _ _ hn (tag_isVarint hn (by omega)) (varint_isVarint _ hb)

/-- The scalar read from the record of a scalar. -/
def backScalar (k : Kind) (v : Val) : Val := if k = .bytes then .str v.bytes else v

theorem scalar_isRecord {num : Nat} (hn : ValidNum num) {k : Kind} {v : Val} (hv : scalarOK k v = true)
    (hb : (tag num (wireType k) ++ scalar k v).length < 2 ^ 64) :
    ∃ p, IsRecord num p (tag num (wireType k) ++ scalar k v) ∧ scalarValue k p = some (backScalar k v) := by
  by_cases hk : numeric k = true
  · obtain ⟨p, h1, h2, h3⟩ := scalar_back_num hk hv
    have hb : backScalar k v = v := by unfold backScalar; rw [if_neg (by rintro rfl; simp [numeric] at hk)]
    refine ⟨p, ?_, by rw [hb]; exact h2⟩
    rw [← h3]
    cases h1 with
    | varint h => exact .varint num _ _ _ hn (tag_isVarint hn (by decide)) h
    | i64 h => exact .i64 num _ _ hn (tag_isVarint hn (by decide)) h
    | i32 h => exact .i32 num _ _ hn (tag_isVarint hn (by decide)) h
  · have h2 : k = .string ∨ k = .bytes := by cases k <;> simp_all [numeric, scalarOK]
    have hw : wireType k = 2 := by rcases h2 with rfl | rfl <;> rfl
    have hs : scalar k v = delimited v.bytes := by rcases h2 with rfl | rfl <;> rfl
    rw [hw, hs] at hb ⊢
    refine ⟨.len v.bytes, len_isRecord hn (by simp [delimited] at hb; omega), ?_⟩
    rcases h2 with rfl | rfl
    · cases v <;> simp_all [scalarOK, scalarValue, backScalar, Val.bytes]
    · simp [scalarValue, backScalar]

theorem packed_back {k : Kind} (hk : numeric k = true) : ∀ {xs : List Val}, (∀ x ∈ xs, scalarOK k x = true) →
    Packed k (xs.map (scalar k)).flatten xs
  | [], _ => .nil
  | x :: xs, h => by
    obtain ⟨p, h1, h2, _⟩ := scalar_back_num hk (h x (by simp))
    rw [List.map_cons, List.flatten_cons]
    exact .cons h1 h2 (packed_back hk fun y hy => h y (by simp [hy]))

theorem Sized.put_get {D : MsgDesc} {m : Val} (h : Sized D m) {f : FieldDesc} (hf : f.slot < D.nslots) : Spec.put m f (Spec.get m f) = m := by
  obtain ⟨s, u, e, rfl, hs⟩ := h
  simp only [Spec.put, Spec.get, Val.msg.injEq, and_true]
  rw [List.getD_eq_getElem?_getD, List.getElem?_eq_getElem (by omega)]
  exact List.set_getElem_self _

theorem concat_cons_some {x : Option Bytes} {xs : List (Option Bytes)} {b : Bytes} (h : concat (x :: xs) = some b) :
    ∃ a c, x = some a ∧ concat xs = some c ∧ b = a ++ c := by
  cases x with
  | none => simp [concat] at h
  | some a =>
    cases hc : concat xs with
    | none => simp [concat, hc] at h
    | some c => simp [concat, hc] at h; exact ⟨a, c, rfl, rfl, h.symm⟩

/-! ## Elements -/

section back
variable {E : Env} {rE : Nat → Val → Option Bytes} {rec : Nat → Val → Val} {okv : Nat → Val → Bool} {P : Nat → Val → Prop} {Q : SubRel} {B : Nat}

/-- The bytes are records of the field with number `n`. -/
def RecordsOf (n : Nat) (rs : List Rec) (b : Bytes) : Prop := Records rs b ∧ ∀ r ∈ rs, r.num = n

/-- Sub-messages whose encoding has less than `B` bytes can be read back. -/
def SubBack (E : Env) (rE : Nat → Val → Option Bytes) (rec : Nat → Val → Val) (okv : Nat → Val → Bool) (P : Nat → Val → Prop) (Q : SubRel) (B : Nat) : Prop :=
  B ≤ 2 ^ 64 ∧ ∀ t v b, (E.S.msg t).foreign = false → rE t v = some b → b.length < B →
    (if v = .nil then ∀ f ∈ (E.S.msg t).fields, f.card ≠ .required else okv t v = true ∧ P t v) →
    Q t b (zeroMsg E.S t) (if v = .nil then zeroMsg E.S t else rec t v)

variable (H : SubBack E rE rec okv P Q B)
include H

theorem message_back {t : Nat} {v : Val} (hv : elemOK okv .message t v = true) (hr : RestorableElem E.S E.R P .message t v) {b : Bytes}
    (hb : Spec.sub E rE t v = some b) (hl : b.length < B) : subRel E.S E.R Q t b (zeroMsg E.S t) (backElem E.S E.R rec .message t v) := by
  unfold Spec.sub at hb
  unfold subRel backElem
  unfold RestorableElem at hr
  simp only [reduceCtorEq, if_false, if_true] at hr ⊢
  cases hf : (E.S.msg t).foreign with
  | true =>
    simp only [hf, if_true] at hb hr ⊢
    obtain ⟨b', w, _, hb', hw, _⟩ := hr
    rw [hb] at hb'
    cases hb'
    simp [reparse, hb, hw]
  | false =>
    simp only [hf, Bool.false_eq_true, if_false] at hb hr ⊢
    refine H.2 t v b hf hb hl ?_
    by_cases hn : v = .nil
    · simpa [hn] using hr
    · simp only [hn, if_false] at hr ⊢
      refine ⟨?_, hr⟩
      simp only [elemOK, Bool.or_eq_true] at hv
      rcases hv with h | h
      · cases v <;> simp_all [Val.isNil]
      · exact h

theorem record_back {num : Nat} (hn : ValidNum num) {k : Kind} {t : Nat} {v : Val} (hv : elemOK okv k t v = true) (hr : RestorableElem E.S E.R P k t v) {b : Bytes}
    (hb : record E rE num k t v = some b) (hl : b.length < B) :
    ∃ p, IsRecord num p b ∧ ((scalarValue k p = some (backElem E.S E.R rec k t v)) ∨
      (k = .message ∧ ∃ c, p = .len c ∧ subRel E.S E.R Q t c (zeroMsg E.S t) (backElem E.S E.R rec k t v))) := by
  by_cases hm : k = .message
  · subst hm
    unfold record at hb
    cases hc : Spec.sub E rE t v with
    | none => simp [hc] at hb
    | some c =>
      simp [hc] at hb
      subst hb
      have hl' : c.length < B := by simp [delimited] at hl; omega
      exact ⟨.len c, len_isRecord hn (by have := H.1; omega), .inr ⟨rfl, c, rfl, message_back H hv hr hc hl'⟩⟩
  · have hg : k ≠ .group := by
      rintro rfl
      simp [RestorableElem] at hr
    have hb' : b = tag num (wireType k) ++ scalar k v := by
      unfold record at hb
      cases k <;> simp_all
    have hv' : scalarOK k v = true := by
      unfold elemOK at hv
      cases k <;> simp_all
    have hbk : backElem E.S E.R rec k t v = backScalar k v := by
      unfold backElem backScalar; rw [if_neg hm]
    subst hb'
    obtain ⟨p, h1, h2⟩ := scalar_isRecord hn hv' (by have := H.1; omega)
    exact ⟨p, h1, .inl (by rw [hbk]; exact h2)⟩

variable {D : MsgDesc} (hD : MsgFacts D)
include hD

theorem list_back {f : FieldDesc} (hf : f ∈ D.fields) (hc : f.card = .repeated) (hm : f.map = none) : ∀ {xs : List Val} {b : Bytes},
    (∀ x ∈ xs, elemOK okv f.kind f.msg x = true) → (∀ x ∈ xs, RestorableElem E.S E.R P f.kind f.msg x) →
    concat (xs.map (record E rE f.num f.kind f.msg)) = some b → b.length < B →
    ∃ rs, RecordsOf f.num rs b ∧ ∀ m, Sized D m → Steps E.S (subRel E.S E.R Q) D rs m (put m f (extend (get m f) (xs.map (backElem E.S E.R rec f.kind f.msg)))) := by
  intro xs
  have ff := hD.fields f hf
  induction xs with
  | nil =>
    intro b _ _ hb _
    simp [concat] at hb
    subst hb
    refine ⟨[], ⟨.nil, by simp⟩, fun m hm => ?_⟩
    rw [List.map_nil, extend_nil, hm.put_get ff.slot]
    exact .nil
  | cons x xs ih =>
    intro b hv hr hb hl
    rw [List.map_cons] at hb
    obtain ⟨a, c, h1, h2, rfl⟩ := concat_cons_some hb
    simp at hl
    obtain ⟨rs, h3, h4⟩ := ih (fun y hy => hv y (by simp [hy])) (fun y hy => hr y (by simp [hy])) h2 (by omega)
    obtain ⟨p, h5, h6⟩ := record_back H ⟨ff.pos, ff.small⟩ (hv x (by simp)) (hr x (by simp)) h1 (by omega)
    refine ⟨⟨f.num, p, a⟩ :: rs, ⟨.cons (r := ⟨f.num, p, a⟩) h5 h3.1, by simpa using h3.2⟩, fun m hs => ?_⟩
    have h7 := h4 (put m f (extend (get m f) [backElem E.S E.R rec f.kind f.msg x])) (hs.put f _)
    rw [hs.get_put ff.slot, extend_append, put_put] at h7
    refine .cons (m1 := put m f (extend (get m f) [backElem E.S E.R rec f.kind f.msg x])) ?_ h7
    rcases h6 with h6 | ⟨h6, c', rfl, h8⟩
    · exact .element hf hc hm h6
    · exact .elementMessage hf hc hm h6 h8

omit hD in
theorem entry_back {num : Nat} (hn : ValidNum num) {md : MapDesc} (hk : mapKeyKind md.key = true) {e : Key × Val} (hkv : scalarOK md.key e.1.toVal = true)
    (hv : elemOK okv md.val md.valMsg e.2 = true) (hr : RestorableElem E.S E.R P md.val md.valMsg e.2) {b : Bytes}
    (hb : Spec.entry E rE num md e = some b) (hl : b.length < B) :
    ∃ c, IsRecord num (.len c) b ∧ Entry E.S (subRel E.S E.R Q) md c e.1 (backElem E.S E.R rec md.val md.valMsg e.2) := by
  unfold Spec.entry at hb
  cases h1 : record E rE 1 md.key 0 e.1.toVal with
  | none => simp [h1] at hb
  | some kb =>
    cases h2 : record E rE 2 md.val md.valMsg e.2 with
    | none => simp [h1, h2] at hb
    | some vb =>
      simp [h1, h2] at hb
      subst hb
      have hlen : (kb ++ vb).length < B := by simp [delimited] at hl ⊢; omega
      refine ⟨kb ++ vb, len_isRecord hn (by have := H.1; omega), ?_⟩
      have hkm : md.key ≠ .message ∧ md.key ≠ .group ∧ md.key ≠ .bytes := by
        refine ⟨?_, ?_, ?_⟩ <;> intro h <;> simp [h, mapKeyKind] at hk
      have hok : elemOK okv md.key 0 e.1.toVal = true := by
        unfold elemOK
        cases hkk : md.key <;> simp_all
      have hrk : RestorableElem E.S E.R P md.key 0 e.1.toVal := by
        unfold RestorableElem
        rw [if_neg hkm.2.1, if_neg hkm.1]; trivial
      simp at hlen
      obtain ⟨p, h3, h4⟩ := record_back H (num := 1) (by decide) hok hrk h1 (by omega)
      obtain ⟨q, h5, h6⟩ := record_back H (num := 2) (by decide) hv hr h2 (by omega)
      have hbk : backElem E.S E.R rec md.key 0 e.1.toVal = e.1.toVal := by
        unfold backElem; rw [if_neg hkm.1, if_neg hkm.2.2]
      rw [hbk] at h4
      have h4 : scalarValue md.key p = some e.1.toVal := by
        rcases h4 with h | ⟨h, _⟩
        · exact h
        · exact absurd h hkm.1
      refine ⟨[⟨1, p, kb⟩, ⟨2, q, vb⟩], some e.1.toVal, some (backElem E.S E.R rec md.val md.valMsg e.2), ?_, ?_, ?_, by simp, rfl⟩
      · have := Records.cons (r := ⟨1, p, kb⟩) h3 (.cons (r := ⟨2, q, vb⟩) h5 .nil)
        simpa using this
      · refine .key h4 ?_
        rcases h6 with h6 | ⟨h6, c, rfl, h7⟩
        · exact .value h6 .nil
        · exact .message h6 h7 .nil
      · cases e.1 <;> rfl

theorem map_back {f : FieldDesc} (hf : f ∈ D.fields) {md : MapDesc} (hm : f.map = some md) : ∀ {es : List (Key × Val)} {b : Bytes},
    (es.map (·.1)).Nodup →
    (∀ e ∈ es, scalarOK md.key e.1.toVal = true ∧ elemOK okv md.val md.valMsg e.2 = true) → (∀ e ∈ es, RestorableElem E.S E.R P md.val md.valMsg e.2) →
    concat (es.map (Spec.entry E rE f.num md)) = some b → b.length < B →
    ∃ rs, RecordsOf f.num rs b ∧ ∀ m, Sized D m → (∀ e ∈ (get m f).entries, ∀ e' ∈ es, e.1 ≠ e'.1) → Steps E.S (subRel E.S E.R Q) D rs m
      (put m f (if es = [] then get m f else .map ((get m f).entries ++ es.map fun e => (e.1, backElem E.S E.R rec md.val md.valMsg e.2)))) := by
  intro es
  have ff := hD.fields f hf
  induction es with
  | nil =>
    intro b _ _ _ hb _
    simp [concat] at hb
    subst hb
    refine ⟨[], ⟨.nil, by simp⟩, fun m hm _ => ?_⟩
    rw [if_pos rfl, hm.put_get ff.slot]
    exact .nil
  | cons x xs ih =>
    intro b hnd hv hr hb hl
    rw [List.map_cons] at hb hnd
    obtain ⟨a, c, h1, h2, rfl⟩ := concat_cons_some hb
    simp only [List.nodup_cons, List.mem_map, not_exists, not_and] at hnd
    simp at hl
    obtain ⟨rs, h3, h4⟩ := ih hnd.2 (fun y hy => hv y (by simp [hy])) (fun y hy => hr y (by simp [hy])) h2 (by omega)
    obtain ⟨c', h5, h6⟩ := entry_back H (num := f.num) ⟨ff.pos, ff.small⟩ (ff.map md hm).2.2.1 (hv x (by simp)).1 (hv x (by simp)).2 (hr x (by simp)) h1 (by omega)
    refine ⟨⟨f.num, .len c', a⟩ :: rs, ⟨.cons (r := ⟨f.num, .len c', a⟩) h5 h3.1, by simpa using h3.2⟩, fun m hs hdis => ?_⟩
    have hins : insertEntry (get m f).entries x.1 (backElem E.S E.R rec md.val md.valMsg x.2) =
        (get m f).entries ++ [(x.1, backElem E.S E.R rec md.val md.valMsg x.2)] := by
      unfold insertEntry
      rw [if_neg]
      simp only [List.any_eq_true, beq_iff_eq, not_exists, not_and]
      intro e he
      exact hdis e he x (by simp)
    refine .cons (.entry hf hm h6) ?_
    rw [hins]
    have h7 := h4 (put m f (.map ((get m f).entries ++ [(x.1, backElem E.S E.R rec md.val md.valMsg x.2)]))) (hs.put f _) (by
      rw [hs.get_put ff.slot]
      intro e he e' he'
      simp only [Val.entries, List.mem_append, List.mem_singleton] at he
      rcases he with he | rfl
      · exact hdis e he e' (by simp [he'])
      · exact fun h => hnd.1 e' he' h.symm)
    rw [hs.get_put ff.slot, put_put] at h7
    rw [if_neg (by simp)]
    by_cases hx : xs = []
    · subst hx; simpa using h7
    · rw [if_neg hx] at h7
      simpa [Val.entries] using h7

/-- What `RestorableN` says about a field. -/
def RestorableField (E : Env) (P : Nat → Val → Prop) (f : FieldDesc) (v : Val) : Prop :=
  match v with
  | .nil => True
  | .wrap n' x => f.num = n' → RestorableElem E.S E.R P f.kind f.msg x
  | .list xs _ => ∀ x ∈ xs, RestorableElem E.S E.R P f.kind f.msg x
  | .map es => ∀ md, f.map = some md → ∀ e ∈ es, RestorableElem E.S E.R P md.val md.valMsg e.2
  | v => RestorableElem E.S E.R P f.kind f.msg v

omit H hD in
theorem restorable_single {f : FieldDesc} {v : Val} (h : RestorableField E P f v) (hv : v ≠ .nil)
    (ho : elemOK okv f.kind f.msg v = true) (hok : ∀ t w, okv t w = true → ∃ s u e, w = .msg s u e) : RestorableElem E.S E.R P f.kind f.msg v := by
  unfold RestorableField at h
  have : v = .nil ∨ (∃ n, v = .num n) ∨ (∃ n, v = .str n) ∨ ∃ s u e, v = .msg s u e := by
    unfold elemOK at ho
    cases hk : f.kind <;> simp only [hk] at ho <;>
      first
      | (simp only [Bool.or_eq_true] at ho
         rcases ho with ho | ho
         · cases v <;> simp_all [Val.isNil]
         · exact .inr (.inr (.inr (hok _ _ ho))))
      | (cases v <;> simp_all [scalarOK])
  rcases this with rfl | ⟨n, rfl⟩ | ⟨n, rfl⟩ | ⟨s, u, e, rfl⟩
  · exact absurd rfl hv
  all_goals exact h

theorem single_back {f : FieldDesc} (hf : f ∈ D.fields) (ho : f.oneof = false) (hc : f.card ≠ .repeated) {v : Val} {b : Bytes}
    (hv : elemOK okv f.kind f.msg v = true) (hr : RestorableElem E.S E.R P f.kind f.msg v)
    (hb : record E rE f.num f.kind f.msg v = some b) (hl : b.length < B) :
    ∃ rs, RecordsOf f.num rs b ∧ (∃ r ∈ rs, r.num = f.num) ∧ ∀ m, (f.kind = .message → get m f = .nil) →
      Steps E.S (subRel E.S E.R Q) D rs m (put m f (backElem E.S E.R rec f.kind f.msg v)) := by
  have ff := hD.fields f hf
  obtain ⟨p, h5, h6⟩ := record_back H ⟨ff.pos, ff.small⟩ hv hr hb hl
  refine ⟨[⟨f.num, p, b⟩], ⟨by simpa using Records.cons (r := ⟨f.num, p, b⟩) h5 .nil, by simp⟩, ⟨⟨f.num, p, b⟩, by simp, rfl⟩, fun m hm => .cons ?_ .nil⟩
  rcases h6 with h6 | ⟨h6, c, rfl, h7⟩
  · exact .scalar hf ho hc h6
  · exact .message hf ho hc h6 (by rw [if_pos (hm h6)]; exact h7)

theorem field_back {f : FieldDesc} (hf : f ∈ D.fields) (ho : f.oneof = false) (hok : ∀ t w, okv t w = true → ∃ s u e, w = .msg s u e) {v : Val} {b : Bytes}
    (hv : fieldOK okv f v = true) (hr : RestorableField E P f v) (hb : field E rE f v = some b) (hl : b.length < B) :
    ∃ rs, RecordsOf f.num rs b ∧ (f.card = .required → ∃ r ∈ rs, r.num = f.num) ∧ ∀ m, Sized D m → get m f = zeroField f →
      Steps E.S (subRel E.S E.R Q) D rs m (put m f (backField E.S E.R rec f v)) := by
  have ff := hD.fields f hf
  unfold fieldOK at hv
  unfold field at hb
  unfold backField
  cases hm : f.map with
  | some md =>
    simp only [hm] at hv hb ⊢
    have hcr := (ff.map md hm).1
    have hz : zeroField f = .nil := by simp [zeroField, hcr]
    have hnr : f.card ≠ .required := by rw [hcr]; simp
    cases v <;> simp only [Bool.false_eq_true] at hv
    · simp [Val.entries, concat] at hb
      subst hb
      refine ⟨[], ⟨.nil, by simp⟩, fun h => absurd h hnr, fun m hs hg => ?_⟩
      rw [if_pos (by rfl), ← hz, ← hg, hs.put_get ff.slot]
      exact .nil
    · rename_i es
      simp only [Bool.and_eq_true, decide_eq_true_eq, List.all_eq_true] at hv
      simp only [Val.entries] at hb ⊢
      obtain ⟨rs, h1, h2⟩ := map_back H hD hf hm (es := es.reverse) (by rw [List.map_reverse]; exact List.nodup_reverse.2 hv.1) (fun e he => by simpa using hv.2 e (by simpa using he))
        (fun e he => hr md hm e (by simpa using he)) hb hl
      refine ⟨rs, h1, fun h => absurd h hnr, fun m hs hg => ?_⟩
      have h3 := h2 m hs (by rw [hg, hz]; simp [Val.entries])
      rw [hg, hz] at h3
      simpa [Val.entries] using h3
  | none =>
    simp only [hm] at hv hb ⊢
    by_cases hc : f.card = .repeated
    · have hz : zeroField f = .nil := by simp [zeroField, hc]
      have hnr : f.card ≠ .required := by rw [hc]; simp
      simp only [hc, beq_self_eq_true, if_true] at hv hb ⊢
      have key : ∀ xs, v.elems = xs → (∀ x ∈ xs, elemOK okv f.kind f.msg x = true) → (∀ x ∈ xs, RestorableElem E.S E.R P f.kind f.msg x) →
          ∃ rs, RecordsOf f.num rs b ∧ (Card.repeated = .required → ∃ r ∈ rs, r.num = f.num) ∧ ∀ m, Sized D m → get m f = zeroField f →
            Steps E.S (subRel E.S E.R Q) D rs m (put m f (if xs = [] then .nil else .list (xs.map (backElem E.S E.R rec f.kind f.msg)) [])) := by
        intro xs hxs hx1 hx2
        rw [hxs] at hb
        cases hp : f.packed with
        | false =>
          rw [hp] at hb
          simp only [Bool.false_eq_true, if_false] at hb
          obtain ⟨rs, h1, h2⟩ := list_back H hD hf hc hm hx1 hx2 hb hl
          refine ⟨rs, h1, by simp, fun m hs hg => ?_⟩
          have h3 := h2 m hs
          rw [hg, hz] at h3
          cases xs with
          | nil => simpa [extend] using h3
          | cons x xs => simpa [extend] using h3
        | true =>
          rw [hp] at hb
          simp only [if_true] at hb
          have hnum := (ff.packed hp).2.2
          by_cases he : xs = []
          · rw [if_pos he] at hb ⊢
            cases hb
            refine ⟨[], ⟨.nil, by simp⟩, by simp, fun m hs hg => ?_⟩
            rw [← hz, ← hg, hs.put_get ff.slot]
            exact .nil
          · rw [if_neg he] at hb ⊢
            cases hb
            have hbk : xs.map (backElem E.S E.R rec f.kind f.msg) = xs := by
              conv => rhs; rw [← List.map_id xs]
              apply List.map_congr_left
              intro x _
              unfold backElem
              rw [if_neg (by intro h; simp [h, numeric] at hnum), if_neg (by intro h; simp [h, numeric] at hnum)]; rfl
            rw [hbk]
            refine ⟨[⟨f.num, .len (xs.map (scalar f.kind)).flatten, _⟩], ⟨by
              simpa using Records.cons (r := ⟨f.num, .len (xs.map (scalar f.kind)).flatten, _⟩)
                (len_isRecord (num := f.num) ⟨ff.pos, ff.small⟩ (b := (xs.map (scalar f.kind)).flatten) (by have := H.1; simp only [delimited, List.length_append] at hl; omega)) .nil, by simp⟩, by simp, fun m hs hg => .cons ?_ .nil⟩
            have h3 := Step.packed (S := E.S) (sub := subRel E.S E.R Q) (raw := tag f.num 2 ++ delimited (xs.map (scalar f.kind)).flatten) (m := m) hf hc hm hnum (packed_back hnum (xs := xs) (fun x hx => by
              have := hx1 x hx
              unfold elemOK at this
              cases hk : f.kind <;> simp_all [numeric]))
            rw [hg, hz] at h3
            simpa [extend, he] using h3
      cases v <;> simp only [Bool.false_eq_true] at hv
      · exact key [] rfl (by simp) (by simp)
      · rename_i xs sp
        simp only [Bool.and_eq_true, List.all_eq_true] at hv
        exact key xs rfl hv.1 hr
    · have hc' : (f.card == .repeated) = false := by simpa using hc
      simp only [hc', hc, if_false, Bool.false_eq_true] at hv hb ⊢
      cases hp : f.presence with
      | true =>
        have hz : zeroField f = .nil := by simp [zeroField, hp]
        simp only [hp, if_true, Bool.true_or] at hv hb ⊢
        by_cases hn : v = .nil
        · rw [if_pos hn] at hb ⊢
          split at hb
          · cases hb
          · rename_i h
            cases hb
            refine ⟨[], ⟨.nil, by simp⟩, fun h' => absurd h' h, fun m hs hg => ?_⟩
            rw [← hz, ← hg, hs.put_get ff.slot]
            exact .nil
        · rw [if_neg hn] at hb ⊢
          have hv' : elemOK okv f.kind f.msg v = true := by
            rw [Bool.or_eq_true] at hv
            rcases hv with h | h
            · cases v <;> simp_all [Val.isNil]
            · exact h
          obtain ⟨rs, h1, h2, h3⟩ := single_back H hD hf ho hc hv' (restorable_single hr hn hv' hok) hb hl
          exact ⟨rs, h1, fun _ => h2, fun m hs hg => h3 m fun _ => by rw [hg, hz]⟩
      | false =>
        have hnm : f.hasMessage = false := by
          by_contra h
          simp at h
          have := ff.singMsg hc h
          rw [hp] at this; cases this
        have hnr : f.card ≠ .required := fun h => by
          have := (ff.req h).1
          rw [hp] at this; cases this
        simp only [hp, hnm, Bool.false_eq_true, if_false, Bool.false_or] at hv hb ⊢
        by_cases hzv : isZeroVal f.kind v = true
        · rw [if_pos hzv] at hb ⊢
          cases hb
          refine ⟨[], ⟨.nil, by simp⟩, fun h' => absurd h' hnr, fun m hs hg => ?_⟩
          rw [← hg, hs.put_get ff.slot]
          exact .nil
        · rw [if_neg hzv] at hb ⊢
          simp [FieldDesc.hasMessage] at hnm
          have hv' : elemOK okv f.kind f.msg v = true := by
            unfold elemOK
            cases hk : f.kind <;> simp_all
          have hn : RestorableElem E.S E.R P f.kind f.msg v := by
            unfold RestorableElem
            rw [if_neg hnm.2, if_neg hnm.1]; trivial
          obtain ⟨rs, h1, h2, h3⟩ := single_back H hD hf ho hc hv' hn hb hl
          exact ⟨rs, h1, fun _ => h2, fun m hs hg => h3 m fun h => absurd h hnm.1⟩

theorem member_back {f : FieldDesc} (hf : f ∈ D.fields) (ho : f.oneof = true) {v : Val} {b : Bytes}
    (hv : elemOK okv f.kind f.msg v = true) (hr : RestorableElem E.S E.R P f.kind f.msg v)
    (hb : record E rE f.num f.kind f.msg v = some b) (hl : b.length < B) :
    ∃ rs, RecordsOf f.num rs b ∧ ∀ m, get m f = .nil → Steps E.S (subRel E.S E.R Q) D rs m (put m f (.wrap f.num (backElem E.S E.R rec f.kind f.msg v))) := by
  have ff := hD.fields f hf
  obtain ⟨p, h5, h6⟩ := record_back H ⟨ff.pos, ff.small⟩ hv hr hb hl
  refine ⟨[⟨f.num, p, b⟩], ⟨by simpa using Records.cons (r := ⟨f.num, p, b⟩) h5 .nil, by simp⟩, fun m hm => .cons ?_ .nil⟩
  rcases h6 with h6 | ⟨h6, c, rfl, h7⟩
  · exact .member hf ho h6
  · exact .memberMessage hf ho h6 (by rw [hm]; exact h7)

/-- The field is written: not a member of a oneof, or the member held. -/
def Held (slots : List Val) (f : FieldDesc) : Prop := f.oneof = false ∨ ∃ x, slotOf slots f = .wrap f.num x

omit H in
theorem backSlot_eq (slots : List Val) {f : FieldDesc} (h : f ∈ D.fields) :
    backSlot E.S E.R rec D slots f.slot = if f.oneof then backOneof E.S E.R rec D f.slot (slotOf slots f) else backField E.S E.R rec f (slotOf slots f) := by
  unfold backSlot
  cases hc : D.fields.find? (fun g => g.slot == f.slot) with
  | none =>
    rw [List.find?_eq_none] at hc
    have := hc f h
    simp at this
  | some g =>
    have h1 := List.mem_of_find?_eq_some hc
    have h2 := List.find?_some hc
    simp only [beq_iff_eq] at h2
    simp only
    by_cases hn : g.num = f.num
    · rw [hD.num_inj h1 h hn]
    · have := hD.share g h1 f h hn h2
      simp [this.1, this.2, slotOf, h2]

theorem chunk_back (hok : ∀ t w, okv t w = true → ∃ s u e, w = .msg s u e) {slots : List Val}
    (hv : ∀ f ∈ D.fields, (if f.oneof then oneofOK .plain okv D f.slot (slotOf slots f) else fieldOK okv f (slotOf slots f)) = true)
    (hr : ∀ f ∈ D.fields, RestorableField E P f (slotOf slots f)) {f : FieldDesc} (hf : f ∈ D.fields) {b : Bytes}
    (hb : chunkStrict E rE slots f = some b) (hl : b.length < B) :
    ∃ rs, RecordsOf f.num rs b ∧ (f.card = .required → ∃ r ∈ rs, r.num = f.num) ∧
      (Held slots f → ∀ m, Sized D m → get m f = zeroField f → Steps E.S (subRel E.S E.R Q) D rs m (put m f (backSlot E.S E.R rec D slots f.slot))) ∧
      (¬ Held slots f → rs = []) := by
  have ff := hD.fields f hf
  have hv := hv f hf
  have hr := hr f hf
  rw [backSlot_eq hD slots hf]
  unfold chunkStrict at hb
  cases ho : f.oneof with
  | false =>
    rw [ho] at hb hv
    obtain ⟨rs, h1, h2, h3⟩ := field_back H hD hf ho hok hv hr hb hl
    exact ⟨rs, h1, h2, fun _ => h3, fun h => absurd (.inl ho) h⟩
  | true =>
    rw [ho] at hb hv
    have hnr : f.card ≠ .required := by rw [(ff.oneof ho).1]; simp
    have hz : zeroField f = .nil := by simp [zeroField, ho]
    simp only [if_true] at hb hv ⊢
    by_cases hh : ∃ x, slotOf slots f = .wrap f.num x
    · obtain ⟨x, hx⟩ := hh
      rw [hx] at hb hv hr
      simp only [if_true] at hb
      simp only [oneofOK, member_of hD hf ho, Bool.and_eq_true] at hv
      obtain ⟨rs, h1, h2⟩ := member_back H hD hf ho hv.1 (hr rfl) hb hl
      refine ⟨rs, h1, fun h => absurd h hnr, fun _ m hs hg => ?_, fun h => absurd (.inr ⟨x, hx⟩) h⟩
      have h3 := h2 m (by rw [hg, hz])
      simpa [hx, backOneof, member_of hD hf ho] using h3
    · have hb' : b = [] := by
        cases hs : slotOf slots f <;> rw [hs] at hb hh <;> simp at hb hh <;> first | exact hb.symm | exact hb | (rw [if_neg hh] at hb; cases hb; rfl)
      subst hb'
      refine ⟨[], ⟨.nil, by simp⟩, fun h => absurd h hnr, fun h => ?_, fun _ => rfl⟩
      rcases h with h | h
      · rw [ho] at h; cases h
      · exact absurd h hh

theorem chunks_back (hok : ∀ t w, okv t w = true → ∃ s u e, w = .msg s u e) {slots : List Val}
    (hv : ∀ f ∈ D.fields, (if f.oneof then oneofOK .plain okv D f.slot (slotOf slots f) else fieldOK okv f (slotOf slots f)) = true)
    (hr : ∀ f ∈ D.fields, RestorableField E P f (slotOf slots f)) : ∀ (fs : List FieldDesc) {b : Bytes}, (∀ f ∈ fs, f ∈ D.fields) → (fs.map (·.num)).Nodup →
    concat (fs.map (chunkStrict E rE slots)) = some b → b.length < B →
    ∃ rs, Records rs b ∧ (∀ f ∈ fs, f.card = .required → ∃ r ∈ rs, r.num = f.num) ∧ ∀ s u e, s.length = D.nslots →
      (∀ f ∈ fs, Held slots f → slotOf s f = zeroField f) → ∃ s', Steps E.S (subRel E.S E.R Q) D rs (.msg s u e) (.msg s' u e) ∧ s'.length = D.nslots ∧
        (∀ f ∈ fs, Held slots f → slotOf s' f = backSlot E.S E.R rec D slots f.slot) ∧ ∀ i, (∀ f ∈ fs, Held slots f → f.slot ≠ i) → s'.getD i .nil = s.getD i .nil := by
  intro fs
  induction fs with
  | nil =>
    intro b _ _ hb _
    simp [concat] at hb
    subst hb
    exact ⟨[], .nil, by simp, fun s u e hs _ => ⟨s, .nil, hs, by simp, fun _ _ => rfl⟩⟩
  | cons f fs ih =>
    intro b hsub hnd hb hl
    rw [List.map_cons] at hb hnd
    obtain ⟨a, c, h1, h2, rfl⟩ := concat_cons_some hb
    simp only [List.nodup_cons, List.mem_map, not_exists, not_and] at hnd
    simp at hl
    have hf := hsub f (by simp)
    have ff := hD.fields f hf
    obtain ⟨rs, h3, h3', h4⟩ := ih (fun g hg => hsub g (by simp [hg])) hnd.2 h2 (by omega)
    obtain ⟨rs1, h5, h6, h7, h8⟩ := chunk_back H hD hok hv hr hf h1 (by omega)
    refine ⟨rs1 ++ rs, h5.1.append h3, ?_, fun s u e hs hz => ?_⟩
    · intro g hg hc
      rcases List.mem_cons.1 hg with rfl | hg
      · obtain ⟨r, hr1, hr2⟩ := h6 hc; exact ⟨r, by simp [hr1], hr2⟩
      · obtain ⟨r, hr1, hr2⟩ := h3' g hg hc; exact ⟨r, by simp [hr1], hr2⟩
    by_cases hh : Held slots f
    · have h9 := h7 hh (.msg s u e) ⟨s, u, e, rfl, hs⟩ (hz f (by simp) hh)
      have hne : ∀ g ∈ fs, Held slots g → f.slot ≠ g.slot := by
        intro g hg hg2 hsl
        have hnum : f.num ≠ g.num := fun h => hnd.1 g hg h.symm
        have := hD.share f hf g (hsub g (by simp [hg])) hnum hsl
        rcases hh with h | ⟨x, hx⟩
        · rw [this.1] at h; cases h
        rcases hg2 with h | ⟨y, hy⟩
        · rw [this.2] at h; cases h
        unfold slotOf at hx hy
        rw [hsl, hy] at hx
        injection hx with hx1
        exact hnum hx1.symm
      obtain ⟨s', h10, h11, h12, h13⟩ := h4 (s.set f.slot (backSlot E.S E.R rec D slots f.slot)) u e (by simpa using hs) (fun g hg hg2 => by
        have := hz g (by simp [hg]) hg2
        unfold slotOf at this ⊢
        rw [← this, List.getD_eq_getElem?_getD, List.getElem?_set_ne (hne g hg hg2), List.getD_eq_getElem?_getD])
      refine ⟨s', Steps.trans h9 h10, h11, ?_, ?_⟩
      · intro g hg hg2
        rcases List.mem_cons.1 hg with rfl | hg
        · have := h13 g.slot (fun g' hg' hg2' h => hne g' hg' hg2' h.symm)
          unfold slotOf
          rw [this, List.getD_eq_getElem?_getD, List.getElem?_set_self (by have := ff.slot; omega)]
          rfl
        · exact h12 g hg hg2
      · intro i hi
        rw [h13 i (fun g hg hg2 => hi g (by simp [hg]) hg2), List.getD_eq_getElem?_getD, List.getElem?_set_ne (hi f (by simp) hh), List.getD_eq_getElem?_getD]
    · obtain ⟨s', h10, h11, h12, h13⟩ := h4 s u e hs (fun g hg => hz g (by simp [hg]))
      refine ⟨s', by rw [h8 hh]; exact h10, h11, ?_, ?_⟩
      · intro g hg hg2
        rcases List.mem_cons.1 hg with rfl | hg
        · exact absurd hg2 hh
        · exact h12 g hg hg2
      · intro i hi
        exact h13 i (fun g hg hg2 => hi g (by simp [hg]) hg2)

end back

theorem perm_of_map {α β : Type} (f : α → β) {l : List α} {l' : List β} (h : (l.map f).Perm l') : ∃ m, l.Perm m ∧ m.map f = l' := by
  generalize hk : l.map f = k at h
  induction h generalizing l with
  | nil => exact ⟨[], by rw [List.map_eq_nil_iff.1 hk], rfl⟩
  | cons x _ ih =>
    cases l with
    | nil => cases hk
    | cons a l =>
      simp only [List.map_cons, List.cons.injEq] at hk
      obtain ⟨m, h1, h2⟩ := ih hk.2
      exact ⟨a :: m, h1.cons a, by simp [hk.1, h2]⟩
  | swap x y l' =>
    rcases l with _ | ⟨a, _ | ⟨b, l⟩⟩ <;> simp at hk
    exact ⟨b :: a :: l, .swap _ _ _, by simp [hk]⟩
  | trans _ _ ih1 ih2 =>
    obtain ⟨m, h1, h2⟩ := ih1 hk
    obtain ⟨m', h3, h4⟩ := ih2 h2
    exact ⟨m', h1.trans h3, h4⟩

/-- The records of a message in either order: those of its written fields, in some order. -/
theorem body_chunks {E : Env} {rE : Nat → Val → Option Bytes} {D : MsgDesc} (hD : MsgFacts D) (strict : Bool) (slots : List Val) :
    ∃ fs : List FieldDesc, fs.Perm (D.fields.filter fun f => chunkStrict E rE slots f != some []) ∧
      (if strict then bodyStrict E rE D slots else bodyDefault E rE D slots) = concat (fs.map (chunkStrict E rE slots)) := by
  have hp := ascending_perm D.fields
  have hfm : ((ascending D.fields).map (chunkStrict E rE slots)).filter (fun c => c != some []) =
      ((ascending D.fields).filter fun f => chunkStrict E rE slots f != some []).map (chunkStrict E rE slots) := by
    rw [List.filter_map]; rfl
  cases strict with
  | true =>
    refine ⟨(ascending D.fields).filter fun f => chunkStrict E rE slots f != some [], hp.filter _, ?_⟩
    rw [← hfm, concat_filter]; rfl
  | false =>
    have h := chunks_perm E rE hD slots
    rw [hfm] at h
    obtain ⟨m, h1, h2⟩ := perm_of_map _ h
    refine ⟨m, h1.symm.trans (hp.filter _), ?_⟩
    rw [h2, concat_filter]; rfl

theorem records_nil {rs : List Rec} (h : Records rs []) : rs = [] := by
  generalize hb : ([] : Bytes) = b at h
  cases h with
  | nil => rfl
  | cons h1 _ =>
    have hne : ∀ {n p b}, IsRecord n p b → b ≠ [] := by
      intro n p b h hb
      obtain ⟨_, tag, bs, rfl, h2, _⟩ := h.split
      have := h2.shape
      cases this <;> simp at hb
    exact absurd (List.append_eq_nil_iff.1 hb.symm).1 (hne h1)

theorem unknown_steps {S : Schema} {sub : SubRel} {D : MsgDesc} (hk : D.keepUnknown = true) {s : List Val} {e : Bytes} : ∀ {rs : List Rec} {u : Bytes}, Records rs u →
    (∀ r ∈ rs, (∀ f ∈ D.fields, f.num ≠ r.num) ∧ ∀ e ∈ D.extRanges, ¬ (e.1 ≤ r.num ∧ r.num < e.2)) → ∀ w, Steps S sub D rs (.msg s w e) (.msg s (w ++ u) e) := by
  intro rs u h
  induction h with
  | nil => intro _ w; rw [List.append_nil]; exact .nil
  | @cons r rs rest h1 h2 ih =>
    intro hu w
    have h3 := Step.unknown (S := S) (sub := sub) (m := .msg s w e) (hu r (by simp)).1 (hu r (by simp)).2
    rw [if_pos hk] at h3
    have h4 := ih (fun r hr => hu r (by simp [hr])) (w ++ r.raw)
    rw [List.append_assoc] at h4
    exact .cons h3 h4

/-- Typing with a bound on the depth. -/
def wtUpTo (S : Schema) (n t : Nat) (v : Val) : Bool := wtM S .plain t v && decide (v.depth ≤ n)

theorem wtUpTo_agree (S : Schema) (n : Nat) : Agree n (wtM S .plain) (wtUpTo S n) := by
  intro t v hv
  simp [wtUpTo, hv]

/-- A message that can be read back decodes to what is left of it: for any condition on the unknown fields and any relation that takes the records of the fields with the unknown fields after them. -/
theorem encode_backG {E : Env} (hS : schemaOK E.S = true) (strict : Bool) {U : MsgDesc → Bytes → Prop} {Q : Nat → SubRel} (h0 : ∀ d, U d [])
    (hQ : ∀ n t rs c u s, Records rs c → Steps E.S (subRel E.S E.R (Q n)) (E.S.msg t) rs (zeroMsg E.S t) (.msg s [] []) → Complete (E.S.msg t) rs →
      ((E.S.msg t).keepUnknown = true → U (E.S.msg t) u) → ((E.S.msg t).keepUnknown = false → u = []) → Q (n + 1) t (c ++ u) (zeroMsg E.S t) (.msg s u [])) :
    ∀ (n t : Nat) (v : Val) (b : Bytes), v.depth ≤ n → (E.S.msg t).foreign = false →
    encode E strict t v = some b → b.length < 2 ^ 64 → wtM E.S .plain t v = true → RestorableG U E.S E.R n t v →
    Q (n + 1) t b (zeroMsg E.S t) (backN E.S E.R n t v) := by
  intro n
  induction n with
  | zero =>
    intro t v b hd _ _ _ hw _
    obtain ⟨s, u, e, rfl⟩ := wtN_shape hw
    simp [Val.depth] at hd
  | succ n ih =>
    intro t v b hd hf he hl hw hr
    obtain ⟨s, u, e, rfl⟩ := wtN_shape hw
    have hD := schemaOK_msg hS t
    rw [wtM_msg, hf] at hw
    simp only [Bool.false_or, Bool.and_eq_true, decide_eq_true_eq, List.all_eq_true] at hw
    simp only [Val.depth] at hd
    rw [encode_msg] at he
    have H : SubBack E (encode E strict) (backN E.S E.R n) (wtUpTo E.S n) (RestorableG U E.S E.R n) (Q (n + 1)) (2 ^ 64) := by
      refine ⟨Nat.le_refl _, ?_⟩
      intro t' w c hf' hc hlc hcond
      by_cases hn : w = .nil
      · subst hn
        simp only [if_true] at hcond ⊢
        have : c = [] := by simpa [encode, Val.depth, encodeN] using hc
        subst this
        exact hQ n t' [] [] [] _ .nil .nil (fun f hf1 hf2 => absurd hf2 (hcond f hf1)) (fun _ => h0 _) (fun _ => rfl)
      · simp only [hn, if_false] at hcond ⊢
        simp only [wtUpTo, Bool.and_eq_true, decide_eq_true_eq] at hcond
        exact ih t' w c hcond.1.2 hf' hc hlc hcond.1.1 hcond.2
    have hok : ∀ t w, wtUpTo E.S n t w = true → ∃ s u e, w = .msg s u e := by
      intro t w h
      simp only [wtUpTo, Bool.and_eq_true] at h
      exact wtN_shape h.1
    have hv : ∀ f ∈ (E.S.msg t).fields, (if f.oneof then oneofOK .plain (wtUpTo E.S n) (E.S.msg t) f.slot (slotOf s f) else fieldOK (wtUpTo E.S n) f (slotOf s f)) = true := by
      intro f hff
      have hds : (slotOf s f).depth ≤ n := by have := depth_slotOf s f; omega
      rw [← oneofOK_agree (wtUpTo_agree E.S n) _ _ _ hds, ← fieldOK_agree (wtUpTo_agree E.S n) _ hds]
      exact hw.2 f hff
    have hrf : ∀ f ∈ (E.S.msg t).fields, RestorableField E (RestorableG U E.S E.R n) f (slotOf s f) := hr.2
    obtain ⟨fs, hfs, hbody⟩ := body_chunks (E := E) (rE := encode E strict) hD strict s
    rw [hbody] at he
    cases hcc : concat (fs.map (chunkStrict E (encode E strict) s)) with
    | none => rw [hcc] at he; simp at he
    | some c =>
      rw [hcc] at he
      simp only [Option.bind_some, Option.some.injEq] at he
      subst he
      simp only [List.length_append] at hl
      have hsub : ∀ f ∈ fs, f ∈ (E.S.msg t).fields := fun f hf => (List.mem_filter.1 (hfs.mem_iff.1 hf)).1
      have hnd : (fs.map (·.num)).Nodup := by
        rw [(hfs.map _).nodup_iff]
        exact hD.nodup.sublist (List.filter_sublist.map _)
      obtain ⟨rs, h1, h2, h3⟩ := chunks_back H hD hok hv hrf fs hsub hnd hcc (by omega)
      -- fields without bytes
      have hempty : ∀ f ∈ (E.S.msg t).fields, f ∉ fs → Held s f → zeroField f = backSlot E.S E.R (backN E.S E.R n) (E.S.msg t) s f.slot ∧ f.card ≠ .required := by
        intro f hff hfn hh
        have hce : chunkStrict E (encode E strict) s f = some [] := by
          by_contra h
          exact hfn (hfs.mem_iff.2 (List.mem_filter.2 ⟨hff, by simpa using h⟩))
        obtain ⟨rs', k1, k2, k3, _⟩ := chunk_back H hD hok hv hrf hff hce (by simp)
        have := records_nil k1.1
        subst this
        refine ⟨?_, fun h => ?_⟩
        · have hz := zeroMsg_slot hS hff
          have hsz : Sized (E.S.msg t) (zeroMsg E.S t) := ⟨_, _, _, rfl, by simp⟩
          have k4 := k3 hh _ hsz hz
          generalize hm : put (zeroMsg E.S t) f (backSlot E.S E.R (backN E.S E.R n) (E.S.msg t) s f.slot) = m' at k4
          cases k4
          have := congrArg (fun m => get m f) hm
          rw [hsz.get_put (hD.fields f hff).slot] at this
          rw [this]; exact hz.symm
        · obtain ⟨r, hr, _⟩ := k2 h; cases hr
      obtain ⟨s', h4, h5, h6, h7⟩ := h3 ((List.range (E.S.msg t).nslots).map (zeroSlot (E.S.msg t))) [] [] (by simp)
        (fun f hff _ => zeroMsg_slot hS (hsub f hff))
      have hs' : s' = (List.range (E.S.msg t).nslots).map (backSlot E.S E.R (backN E.S E.R n) (E.S.msg t) s) := by
        apply List.ext_getElem (by simp [h5])
        intro i hi1 hi2
        simp only [List.getElem_map, List.getElem_range]
        have hget : s'[i] = s'.getD i .nil := by rw [List.getD_eq_getElem?_getD, List.getElem?_eq_getElem hi1]; rfl
        have hdone : ∀ f ∈ (E.S.msg t).fields, f.slot = i → Held s f → (∀ g ∈ fs, Held s g → g.slot ≠ i) ∨ f ∈ fs := by
          intro f hff hsl hh
          by_cases hfm : f ∈ fs
          · exact .inr hfm
          · refine .inl fun g hg hhg hgs => ?_
            have hne : g.num ≠ f.num := fun h => hfm (hD.num_inj (hsub g hg) hff h ▸ hg)
            have := hD.share g (hsub g hg) f hff hne (hgs.trans hsl.symm)
            rcases hh with h | ⟨x, hx⟩
            · rw [this.2] at h; cases h
            rcases hhg with h | ⟨y, hy⟩
            · rw [this.1] at h; cases h
            unfold slotOf at hx hy
            rw [hsl] at hx; rw [hgs, hx] at hy
            injection hy with hy
            exact hne hy.symm
        have hzero : (∀ g ∈ fs, Held s g → g.slot ≠ i) → ∀ f ∈ (E.S.msg t).fields, f.slot = i → s'[i] = zeroField f := by
          intro h f hff hsl
          rw [hget, h7 i h]
          have := zeroMsg_slot hS hff
          unfold slotOf at this
          rw [hsl] at this
          exact this
        by_cases hex : ∃ f ∈ (E.S.msg t).fields, f.slot = i ∧ Held s f
        · obtain ⟨f, hff, hsl, hh⟩ := hex
          by_cases hfm : f ∈ fs
          · rw [hget, ← hsl]; exact h6 f hfm hh
          · rcases hdone f hff hsl hh with h | h
            · rw [hzero h f hff hsl, (hempty f hff hfm hh).1, hsl]
            · exact absurd h hfm
        · obtain ⟨g, hg, hgs⟩ := hD.cover i (by omega)
          have hno : ∀ g ∈ fs, Held s g → g.slot ≠ i := fun g hg hh hgs => hex ⟨g, hsub g hg, hgs, hh⟩
          rw [hzero hno g hg hgs, ← hgs, backSlot_eq hD s hg]
          have hgo : g.oneof = true := by
            by_contra h
            exact hex ⟨g, hg, hgs, .inl (by simpa using h)⟩
          rw [hgo, if_pos rfl]
          have : zeroField g = .nil := by simp [zeroField, hgo]
          rw [this]
          unfold backOneof
          cases hsv : slotOf s g <;> simp only
          rename_i n' x
          cases hm : (E.S.msg t).member g.slot n' with
          | none => rfl
          | some f =>
            obtain ⟨m1, m2, m3, m4⟩ := member_some hm
            refine absurd ⟨f, m1, m3.trans hgs, .inr ⟨x, ?_⟩⟩ hex
            unfold slotOf at hsv ⊢
            rw [m3, hsv, m4]
      have hcomplete : Complete (E.S.msg t) rs := by
        intro f hff hc
        have hh : Held s f := by
          left
          by_contra h
          have := ((hD.fields f hff).oneof (by simpa using h)).1
          rw [hc] at this; cases this
        by_cases hfm : f ∈ fs
        · obtain ⟨r, hr1, hr2⟩ := h2 f hfm hc
          exact ⟨r, hr1, hr2⟩
        · exact absurd hc (hempty f hff hfm hh).2
      subst hs'
      simp only [backN]
      refine hQ _ _ _ _ _ _ h1 h4 hcomplete (fun hk => ?_) (fun hk => by simp [hk])
      rw [if_pos hk]
      exact hr.1 hk

/-- A message that can be read back decodes to what is left of it. -/
theorem encode_back {E : Env} (hS : schemaOK E.S = true) (strict : Bool) (n t : Nat) (v : Val) (b : Bytes) (hd : v.depth ≤ n) (hf : (E.S.msg t).foreign = false)
    (he : encode E strict t v = some b) (hl : b.length < 2 ^ 64) (hw : wtM E.S .plain t v = true) (hr : RestorableN E.S E.R n t v) :
    DecodesN E.S E.R (n + 1) t b (zeroMsg E.S t) (backN E.S E.R n t v) := by
  refine encode_backG hS strict (U := UnknownTo) (Q := DecodesN E.S E.R) (fun d => ⟨[], .nil, by simp⟩) ?_ n t v b hd hf he hl hw hr
  intro n t rs c u s h1 h4 hc hu hu'
  cases hk : (E.S.msg t).keepUnknown with
  | false =>
    rw [hu' hk, List.append_nil]
    exact ⟨rs, h1, h4, hc⟩
  | true =>
    obtain ⟨ru, hu1, hu2⟩ := hu hk
    have := unknown_steps (S := E.S) (sub := subRel E.S E.R (DecodesN E.S E.R n)) hk (s := s) (e := []) hu1 hu2 []
    refine ⟨rs ++ ru, h1.append hu1, h4.trans this, fun f hf hr => ?_⟩
    obtain ⟨r, h5, h6⟩ := hc f hf hr
    exact ⟨r, List.mem_append_left _ h5, h6⟩

end Vtp
