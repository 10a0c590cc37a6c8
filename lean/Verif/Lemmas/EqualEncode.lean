import Verif.Lemmas.Shuffle
import Verif.Lemmas.Equal
/-!
# Messages with the same content have the same encoding
-/

namespace Vtp
open Spec

/-- Equal floats which are not NaN have equal bits or are zeros. -/
theorem sameScalar_bits {k : Kind} {v w : Val} (hk : numeric k = true) (hv : scalarOK k v = true) (hw : scalarOK k w = true) (h : SameScalar k v w) :
    v.bits = w.bits ∨ (isZeroVal k v = true ∧ isZeroVal k w = true ∧ (k = .double ∨ k = .float)) := by
  have hb : k ≠ .bytes := by rintro rfl; simp [numeric] at hk
  rw [← scalarEq_iff hb] at h
  by_cases h1 : k = .double
  · subst h1
    cases v <;> simp [scalarOK] at hv
    cases w <;> simp [scalarOK] at hw
    simp only [scalarEq, float64Eq, Bool.and_eq_true, Bool.or_eq_true, beq_iff_eq, Val.bits] at h
    rcases h.2 with h | h
    · exact .inl h
    · exact .inr ⟨by simpa [isZeroVal, isZeroNum, Val.bits] using h.1, by simpa [isZeroVal, isZeroNum, Val.bits] using h.2, .inl rfl⟩
  by_cases h2 : k = .float
  · subst h2
    cases v <;> simp [scalarOK, inRange] at hv
    cases w <;> simp [scalarOK, inRange] at hw
    rename_i a b
    simp only [scalarEq, float32Eq, Bool.and_eq_true, Bool.or_eq_true, beq_iff_eq, Val.bits] at h
    rcases h.2 with h | h
    · left
      simp only [Val.bits]
      apply BitVec.eq_of_toNat_eq
      have := congrArg BitVec.toNat h
      simp only [BitVec.toNat_setWidth] at this
      omega
    · exact .inr ⟨by simpa [isZeroVal, isZeroNum, Val.bits] using h.1, by simpa [isZeroVal, isZeroNum, Val.bits] using h.2, .inr rfl⟩
  left
  cases k <;> simp_all [scalarEq, numeric]

/-- Same scalars that are not negative zeros are equal. -/
theorem sameScalar_eq {k : Kind} {v w : Val} (hk : ¬ (k = .message ∨ k = .group)) (hv : scalarOK k v = true) (hw : scalarOK k w = true)
    (nv : ¬ negZero k v) (nw : ¬ negZero k w) (h : SameScalar k v w) : scalar k v = scalar k w := by
  by_cases hn : numeric k = true
  · have hbits : v.bits = w.bits := by
      rcases sameScalar_bits hn hv hw h with h | ⟨z1, z2, hd | hd⟩
      · exact h
      · subst hd
        cases v <;> simp [scalarOK] at hv
        cases w <;> simp [scalarOK] at hw
        rename_i a b
        simp only [isZeroVal, isZeroNum, beq_iff_eq] at z1 z2
        simp only [negZero, true_and, reduceCtorEq, false_and, or_false, Val.bits] at nv nw
        simp only [Val.bits]
        have key : ∀ x : BitVec 64, x <<< 1 = 0 → x ≠ 0x8000000000000000#64 → x = 0 := by
          intro x h1 h2
          apply BitVec.eq_of_toNat_eq
          have h1 := congrArg BitVec.toNat h1
          have h2 : x.toNat ≠ 0x8000000000000000 := fun h => h2 (BitVec.eq_of_toNat_eq h)
          simp [BitVec.toNat_shiftLeft, Nat.shiftLeft_eq] at h1 ⊢
          omega
        rw [key a z1 nv, key b z2 nw]
      · subst hd
        cases v <;> simp [scalarOK, inRange] at hv
        cases w <;> simp [scalarOK, inRange] at hw
        rename_i a b
        simp only [isZeroVal, isZeroNum, beq_iff_eq] at z1 z2
        simp only [negZero, true_and, reduceCtorEq, false_and, false_or, Val.bits] at nv nw
        simp only [Val.bits]
        have key : ∀ x : BitVec 64, x.toNat < 4294967296 → x.setWidth 32 <<< 1 = 0 → x.setWidth 32 ≠ 0x80000000#32 → x = 0 := by
          intro x h0 h1 h2
          apply BitVec.eq_of_toNat_eq
          have h1 := congrArg BitVec.toNat h1
          have h2 : (x.setWidth 32).toNat ≠ 0x80000000 := fun h => h2 (BitVec.eq_of_toNat_eq h)
          simp [BitVec.toNat_shiftLeft, Nat.shiftLeft_eq] at h1 h2 ⊢
          omega
        rw [key a hv z1 nv, key b hw z2 nw]
    have : v = w := by
      cases k <;> simp [numeric] at hn <;> cases v <;> simp [scalarOK] at hv <;> cases w <;> simp [scalarOK] at hw <;> simpa [Val.bits] using hbits
    rw [this]
  · have : k = .string ∨ k = .bytes := by cases k <;> simp_all [numeric]
    unfold SameScalar at h
    rw [if_pos this] at h
    rcases this with rfl | rfl <;> simp [scalar, wireType, h]

theorem sameScalar_zero {k : Kind} {v w : Val} (hk : ¬ (k = .message ∨ k = .group)) (hv : scalarOK k v = true) (hw : scalarOK k w = true)
    (h : SameScalar k v w) : isZeroVal k v = isZeroVal k w ∧ (isZeroVal k v = false → scalar k v = scalar k w) := by
  by_cases hn : numeric k = true
  · have hval : ∀ x, scalarOK k x = true → x = .num x.bits := by
      intro x hx
      cases k <;> simp [numeric] at hn <;> cases x <;> simp [scalarOK] at hx <;> rfl
    rcases sameScalar_bits hn hv hw h with h | ⟨z1, z2, _⟩
    · rw [hval v hv, hval w hw, h]; exact ⟨rfl, fun _ => rfl⟩
    · rw [z1, z2]; exact ⟨rfl, fun h => by cases h⟩
  · have hs : k = .string ∨ k = .bytes := by cases k <;> simp_all [numeric]
    unfold SameScalar at h
    rw [if_pos hs] at h
    refine ⟨?_, fun _ => by rcases hs with rfl | rfl <;> simp [scalar, wireType, h]⟩
    have : ∀ x, scalarOK k x = true → isZeroVal k x = x.bytes.isEmpty := by
      intro x hx
      rcases hs with rfl | rfl <;> cases x <;> simp [scalarOK] at hx <;> simp [isZeroVal, Val.bytes] <;> (rename_i b; cases b <;> rfl)
    rw [this v hv, this w hw, h]

section
variable {E : Env} {strict : Bool} (hS : schemaOK E.S = true) (hR : RuntimeSame E.S E.R) (hN : RuntimeEnc E.R)

/-- What is known of sub-messages: the same ones have the same encoding after a shuffle. -/
def SubEnc (E : Env) (strict : Bool) (n : Nat) : Prop := ∀ t v w, (E.S.msg t).foreign = false → v.depth ≤ n →
  wtM E.S .plain t v = true → wtM E.S .plain t w = true → Same E.S E.R t v w → Tidy E.S t v → Tidy E.S t w →
  ∃ w', Shuffle w w' ∧ encode E strict t v = encode E strict t w'

theorem encode_nil (E : Env) (s : Bool) (t : Nat) : encode E s t .nil = some [] := by simp [encode, Val.depth, encodeN]

include hS in
/-- The empty message of a type without required fields encodes to nothing. -/
theorem encode_zero (t : Nat) (h : ∀ f ∈ (E.S.msg t).fields, f.card ≠ .required) : encode E strict t (zeroMsg E.S t) = some [] := by
  unfold zeroMsg
  rw [encode_msg]
  have hd := schemaOK_msg hS t
  have hall : ∀ l : List (Option Bytes), (∀ x ∈ l, x = some []) → concat l = some [] := by
    intro l hl
    induction l with
    | nil => rfl
    | cons a l ih => rw [concat, hl a (by simp), ih fun x hx => hl x (by simp [hx])]; rfl
  have hfield : ∀ f ∈ (E.S.msg t).fields, f.oneof = false → field E (encode E strict) f (zeroField f) = some [] := by
    intro f hf ho
    have ff := hd.fields f hf
    unfold field
    cases hm : f.map with
    | some md => simp [zeroField, (ff.map md hm).1, Val.entries, concat]
    | none =>
      simp only
      split
      · rename_i hc
        have : zeroField f = .nil := by simp [zeroField, hc]
        simp [this, Val.elems, concat]
      · rename_i hc
        split
        · rename_i hp
          have : f.presence = true := by
            simp only [Bool.or_eq_true] at hp
            exact hp.elim id (ff.singMsg hc)
          have : zeroField f = .nil := by simp [zeroField, this]
          simp [this, h f hf]
        · rename_i hp
          simp only [Bool.or_eq_true, not_or] at hp
          have hz : zeroField f = zeroScalar f.kind := by simp [zeroField, hp.1, ho, hc]
          rw [hz, if_pos]
          have := hp.2
          cases hk : f.kind <;> simp [FieldDesc.hasMessage, hk] at this <;> simp [isZeroVal, zeroScalar, isZeroNum, Val.bits, Val.bytes]
  have hone : ∀ f ∈ (E.S.msg t).fields, f.oneof = true → zeroField f = .nil := by
    intro f _ ho; simp [zeroField, ho]
  cases strict
  · simp only [Bool.false_eq_true, if_false]
    unfold bodyDefault
    rw [hall]
    · simp
    · intro x hx
      rcases List.mem_append.1 hx with hx | hx
      · obtain ⟨f, hf, rfl⟩ := List.mem_map.1 hx
        rw [List.mem_filter] at hf
        have hmem := (ascending_perm _).mem_iff.1 hf.1
        rw [zeroMsg_slot hS hmem]
        exact hfield f hmem (by simpa using hf.2)
      · obtain ⟨f, hf, rfl⟩ := List.mem_map.1 hx
        unfold oneofLast at hf
        rw [List.mem_filter] at hf
        have hmem := (ascending_perm _).mem_iff.1 hf.1
        have ho : f.oneof = true := by have := hf.2; simp only [Bool.and_eq_true] at this; exact this.1
        rw [zeroMsg_slot hS hmem, hone f hmem ho]
        rfl
  · simp only [if_true]
    unfold bodyStrict
    rw [hall]
    · simp
    · intro x hx
      obtain ⟨f, hf, rfl⟩ := List.mem_map.1 hx
      have hmem := (ascending_perm _).mem_iff.1 hf
      rw [zeroMsg_slot hS hmem]
      cases ho : f.oneof with
      | true => simp [hone f hmem ho]
      | false => simp only [Bool.false_eq_true, if_false]; exact hfield f hmem ho

include hS in
theorem tidy_zero (t : Nat) : Tidy E.S t (zeroMsg E.S t) := by
  intro n
  cases n with
  | zero => trivial
  | succ n =>
    unfold zeroMsg TidyN
    intro _ f hf
    rw [zeroMsg_slot hS hf]
    have hz : zeroField f = .nil ∨ (zeroField f = zeroScalar f.kind ∧ f.presence = false) := by
      unfold zeroField
      split
      · exact .inl rfl
      · rename_i h
        simp only [Bool.or_eq_true, not_or, Bool.not_eq_true] at h
        exact .inr ⟨rfl, h.2⟩
    rcases hz with hz | ⟨hz, hp⟩ <;> rw [hz]
    · trivial
    · cases f.kind <;> simp [zeroScalar, hp]

include hS in
theorem zeroMsg_plain (t : Nat) : wtM E.S .plain t (zeroMsg E.S t) = true := members_weaken (by simp) (by simp) _ _ _ (zeroMsg_typed hS t)

theorem shuffle_zero {S : Schema} {t : Nat} {w : Val} (h : Shuffle (zeroMsg S t) w) : w = zeroMsg S t := by
  unfold zeroMsg at h ⊢
  obtain ⟨s', rfl, hl, ha⟩ := shuffle_msg h _ _ _ rfl
  congr 1
  apply List.ext_getElem hl
  intro i h1 h2
  have := ha i
  rw [List.getD_eq_getElem?_getD, List.getD_eq_getElem?_getD, List.getElem?_eq_getElem h1, List.getElem?_eq_getElem h2] at this
  simp only [Option.getD_some] at this
  have hz : ∀ i, zeroSlot (S.msg t) i = .nil ∨ (∃ n, zeroSlot (S.msg t) i = .num n) ∨ ∃ b, zeroSlot (S.msg t) i = .str b := by
    intro i
    unfold zeroSlot
    cases (S.msg t).fields.find? (fun f => f.slot == i) with
    | none => simp
    | some f =>
      simp only [zeroField]
      split
      · simp
      · cases f.kind <;> simp [zeroScalar]
  obtain ⟨a1, a2, a3, _⟩ := shuffle_atom this
  simp only [List.getElem_map, List.getElem_range] at a1 a2 a3 ⊢
  rcases hz i with hz | ⟨n, hz⟩ | ⟨b, hz⟩
  · rw [hz, a1 hz]
  · rw [hz, a2 n hz]
  · rw [hz, a3 b hz]

include hS hR hN in
/-- Same elements have the same record after a shuffle. -/
theorem enc_elem {n : Nat} (H : SubEnc E strict n) (num : Nat) {k : Kind} {t : Nat} {v w : Val} (dv : v.depth ≤ n) (dn : v = .nil → 1 ≤ n)
    (hv : elemOK (wtM E.S .plain) k t v = true) (hw : elemOK (wtM E.S .plain) k t w = true)
    (tv : TidyElem E.S (Tidy E.S) k t v) (tw : TidyElem E.S (Tidy E.S) k t w)
    (h : SameElem E.S (subSame E.S E.R (Same E.S E.R)) k t v w) :
    ∃ w', Shuffle w w' ∧ record E (encode E strict) num k t v = record E (encode E strict) num k t w' ∧
      (¬ (k = .message ∨ k = .group) → scalar k v = scalar k w') := by
  by_cases hk : k = .message ∨ k = .group
  · have hv := ptrOK_of hk hv
    have hw := ptrOK_of hk hw
    unfold TidyElem at tv tw
    unfold SameElem at h
    rw [if_pos hk] at tv tw h
    suffices ∃ w', Shuffle w w' ∧ sub E (encode E strict) t v = sub E (encode E strict) t w' by
      obtain ⟨w', h1, h2⟩ := this
      refine ⟨w', h1, ?_, fun h => absurd hk h⟩
      rcases hk with rfl | rfl <;> simp only [record, h2]
    unfold subSame at h
    cases hf : (E.S.msg t).foreign with
    | true =>
      rw [hf, if_pos rfl] at h
      have nn : ∀ x : Val, (if x = .nil then (E.S.msg t).foreign = false ∧ ∀ f ∈ (E.S.msg t).fields, f.card ≠ .required else Tidy E.S t x) → x ≠ .nil := by
        rintro x hx rfl
        rw [if_pos rfl, hf] at hx
        cases hx.1
      have n1 := nn v tv
      have n2 := nn w tw
      unfold orEmpty at h
      rw [if_neg n1, if_neg n2] at h
      obtain ⟨w', h1, h2⟩ := hR t v w hf h
      exact ⟨w', h1, by simp [Spec.sub, hf, h2]⟩
    | false =>
      rw [hf, if_neg (by simp)] at h
      simp only [Spec.sub, hf, Bool.false_eq_true, if_false]
      have key : ∀ x, (x = .nil ∨ wtM E.S .plain t x = true) → (if x = .nil then (E.S.msg t).foreign = false ∧ ∀ f ∈ (E.S.msg t).fields, f.card ≠ .required else Tidy E.S t x) →
          Tidy E.S t (orEmpty E.S t x) ∧ encode E strict t (orEmpty E.S t x) = encode E strict t x ∧ wtM E.S .plain t (orEmpty E.S t x) = true := by
        intro x hx tx
        unfold orEmpty
        by_cases hn : x = .nil
        · rw [if_pos hn] at tx ⊢
          refine ⟨tidy_zero hS t, ?_, zeroMsg_plain hS t⟩
          rw [hn, encode_nil, encode_zero hS t tx.2]
        · rw [if_neg hn] at tx ⊢
          exact ⟨tx, rfl, hx.resolve_left hn⟩
      obtain ⟨a1, a2, a3⟩ := key v hv tv
      obtain ⟨b1, b2, b3⟩ := key w hw tw
      have hdep : (orEmpty E.S t v).depth ≤ n := by
        unfold orEmpty
        split
        · rw [zeroMsg_depth]; exact dn (by assumption)
        · exact dv
      by_cases hn : w = .nil
      · obtain ⟨w', h1, h2⟩ := H t (orEmpty E.S t v) (orEmpty E.S t w) hf hdep a3 b3 h a1 b1
        refine ⟨w, .refl _, ?_⟩
        have hor : orEmpty E.S t w = zeroMsg E.S t := by simp [orEmpty, hn]
        rw [hor] at h1 b2
        rw [← a2, h2, ← b2, shuffle_zero h1]
      · have hor : orEmpty E.S t w = w := by simp [orEmpty, hn]
        obtain ⟨w', h1, h2⟩ := H t (orEmpty E.S t v) (orEmpty E.S t w) hf hdep a3 b3 h a1 b1
        rw [hor] at h1
        exact ⟨w', h1, by rw [← a2, h2]⟩
  · have hv : scalarOK k v = true := by cases k <;> simp_all [elemOK]
    have hw : scalarOK k w = true := by cases k <;> simp_all [elemOK]
    unfold TidyElem at tv tw
    unfold SameElem at h
    rw [if_neg hk] at tv tw h
    have he := sameScalar_eq hk hv hw tv tw h
    refine ⟨w, .refl _, ?_, fun _ => he⟩
    have : ∀ x, record E (encode E strict) num k t x = some (tag num (wireType k) ++ scalar k x) := by
      intro x; cases k <;> simp_all [record]
    rw [this, this, he]

include hS hR hN in
theorem enc_list {n : Nat} (H : SubEnc E strict n) (dn : 1 ≤ n) (num : Nat) {k : Kind} {t : Nat} {xs ys : List Val}
    (h : List.Forall₂ (SameElem E.S (subSame E.S E.R (Same E.S E.R)) k t) xs ys) : (∀ x ∈ xs, x.depth ≤ n) →
    (∀ x ∈ xs, elemOK (wtM E.S .plain) k t x = true) → (∀ x ∈ ys, elemOK (wtM E.S .plain) k t x = true) →
    (∀ x ∈ xs, TidyElem E.S (Tidy E.S) k t x) → (∀ x ∈ ys, TidyElem E.S (Tidy E.S) k t x) →
    ∃ zs, List.Forall₂ Shuffle ys zs ∧ xs.map (record E (encode E strict) num k t) = zs.map (record E (encode E strict) num k t) ∧
      (¬ (k = .message ∨ k = .group) → xs.map (scalar k) = zs.map (scalar k)) := by
  induction h with
  | nil => intros; exact ⟨[], .nil, rfl, fun _ => rfl⟩
  | cons h _ ih =>
    intro d1 v1 v2 t1 t2
    obtain ⟨z, a1, a2, a3⟩ := enc_elem hS hR hN H num (d1 _ (by simp)) (fun _ => dn) (v1 _ (by simp)) (v2 _ (by simp)) (t1 _ (by simp)) (t2 _ (by simp)) h
    obtain ⟨zs, b1, b2, b3⟩ := ih (fun x hx => d1 x (by simp [hx])) (fun x hx => v1 x (by simp [hx])) (fun x hx => v2 x (by simp [hx]))
      (fun x hx => t1 x (by simp [hx])) (fun x hx => t2 x (by simp [hx]))
    exact ⟨z :: zs, .cons a1 b1, by rw [List.map_cons, List.map_cons, a2, b2], fun hk => by rw [List.map_cons, List.map_cons, a3 hk, b3 hk]⟩

include hS hR hN in
theorem enc_entries {n : Nat} (H : SubEnc E strict n) (dn : 1 ≤ n) (num : Nat) (md : MapDesc) {fs : List (Key × Val)} :
    ∀ {es : List (Key × Val)}, (∀ e ∈ es, e.2.depth ≤ n) →
    (∀ e ∈ es, elemOK (wtM E.S .plain) md.val md.valMsg e.2 = true) → (∀ e ∈ fs, elemOK (wtM E.S .plain) md.val md.valMsg e.2 = true) →
    (∀ e ∈ es, TidyElem E.S (Tidy E.S) md.val md.valMsg e.2) → (∀ e ∈ fs, TidyElem E.S (Tidy E.S) md.val md.valMsg e.2) →
    (∀ e ∈ es, ∃ y, lookup fs e.1 = some y ∧ SameElem E.S (subSame E.S E.R (Same E.S E.R)) md.val md.valMsg e.2 y) →
    ∃ gs hs, gs.map (·.1) = es.map (·.1) ∧ gs ⊆ fs ∧ List.Forall₂ (fun a b => a.1 = b.1 ∧ Shuffle a.2 b.2) gs hs ∧
      es.map (entry E (encode E strict) num md) = hs.map (entry E (encode E strict) num md)
  | [], _, _, _, _, _, _ => ⟨[], [], rfl, by simp, .nil, rfl⟩
  | e :: es, d1, v1, v2, t1, t2, h => by
    obtain ⟨y, hy, hs⟩ := h e (by simp)
    have hmem := lookup_mem hy
    obtain ⟨z, a1, a2, _⟩ := enc_elem hS hR hN H 2 (d1 e (by simp)) (fun _ => dn) (v1 e (by simp)) (v2 _ hmem) (t1 e (by simp)) (t2 _ hmem) hs
    obtain ⟨gs, hs, b1, b2, b3, b4⟩ := enc_entries H dn num md (es := es) (fun x hx => d1 x (by simp [hx])) (fun x hx => v1 x (by simp [hx])) v2
      (fun x hx => t1 x (by simp [hx])) t2 (fun x hx => h x (by simp [hx]))
    refine ⟨(e.1, y) :: gs, (e.1, z) :: hs, by simp [b1], by simp [hmem, b2], .cons ⟨rfl, a1⟩ b3, ?_⟩
    rw [List.map_cons, List.map_cons, b4]
    congr 1
    simp only [entry, a2]

/-- The struct field of `f` is tidy. -/
def TidySlot (S : Schema) (f : FieldDesc) (v : Val) : Prop :=
  match v with
  | .nil => True
  | .wrap n' x => f.num = n' → TidyElem S (Tidy S) f.kind f.msg x
  | .list xs _ => ∀ x ∈ xs, TidyElem S (Tidy S) f.kind f.msg x
  | .map es => ∀ md, f.map = some md → ∀ e ∈ es, TidyElem S (Tidy S) md.val md.valMsg e.2
  | v => f.presence = true → TidyElem S (Tidy S) f.kind f.msg v

theorem tidyElem_all {S : Schema} {k : Kind} {t : Nat} {v : Val} (h : ∀ n, TidyElem S (TidyN S n) k t v) : TidyElem S (Tidy S) k t v := by
  unfold TidyElem at h ⊢
  by_cases hk : k = .message ∨ k = .group
  · by_cases hv : v = .nil
    · simpa only [hk, hv, if_true] using h 0
    · simp only [hk, hv, if_true, if_false] at h ⊢; exact h
  · simpa only [hk, if_false] using h 0

theorem tidy_slot {S : Schema} {t : Nat} (hf : (S.msg t).foreign = false) {s : List Val} {u e : Bytes} (h : Tidy S t (.msg s u e)) {f : FieldDesc}
    (hm : f ∈ (S.msg t).fields) : TidySlot S f (slotOf s f) := by
  have hn : ∀ n, TidyN S (n + 1) t (.msg s u e) := fun n => h (n + 1)
  unfold TidySlot
  cases hv : slotOf s f
  case nil => trivial
  case wrap m x => exact fun hn' => tidyElem_all fun n => by have := hn n hf f hm; rw [hv] at this; exact this hn'
  case list xs sp => exact fun x hx => tidyElem_all fun n => by have := hn n hf f hm; rw [hv] at this; exact this x hx
  case map es => exact fun md hmd e he => tidyElem_all fun n => by have := hn n hf f hm; rw [hv] at this; exact this md hmd e he
  all_goals exact fun hp => tidyElem_all fun n => by have := hn n hf f hm; rw [hv] at this; exact this hp

include hS hR hN in
theorem enc_field {n : Nat} (H : SubEnc E strict n) {d : MsgDesc} {f : FieldDesc} (ff : FieldFacts d f) (ho : f.oneof = false) {v w : Val}
    (dv : v.depth ≤ n) (hv : fieldOK (wtM E.S .plain) f v = true) (hw : fieldOK (wtM E.S .plain) f w = true)
    (tv : TidySlot E.S f v) (tw : TidySlot E.S f w) (h : SameField E.S (subSame E.S E.R (Same E.S E.R)) f v w) :
    ∃ w', Shuffle w w' ∧ field E (encode E strict) f v = field E (encode E strict) f w' := by
  unfold SameField at h
  unfold fieldOK at hv hw
  cases hm : f.map with
  | some md =>
    simp only [hm] at hv hw h
    have he : ∀ x : Val, (match x with
        | .nil => true
        | .map es => decide ((es.map (·.1)).Nodup) && es.all fun e => scalarOK md.key e.1.toVal && elemOK (wtM E.S .plain) md.val md.valMsg e.2
        | _ => false) = true → TidySlot E.S f x → (x.entries.map (·.1)).Nodup ∧ (∀ e ∈ x.entries, elemOK (wtM E.S .plain) md.val md.valMsg e.2 = true) ∧
          (∀ e ∈ x.entries, TidyElem E.S (Tidy E.S) md.val md.valMsg e.2) ∧ (x = .nil ∨ x = .map x.entries) := by
      intro x hx tx
      cases x <;> simp only at hx <;> try cases hx
      · simp [Val.entries]
      · simp only [Bool.and_eq_true, decide_eq_true_iff, List.all_eq_true] at hx
        exact ⟨hx.1, fun e hm => (hx.2 e hm).2, fun e he => tx md hm e he, .inr rfl⟩
    obtain ⟨n1, v1, t1, _⟩ := he v hv tv
    obtain ⟨n2, v2, t2, s2⟩ := he w hw tw
    rw [sameMap_iff n1 n2] at h
    by_cases hne : v.entries = []
    · refine ⟨w, .refl _, ?_⟩
      have : w.entries = [] := List.length_eq_zero_iff.1 (by rw [← h.1, hne]; rfl)
      simp only [field, hm]
      rw [this, hne]
    have dn : 1 ≤ n := by
      cases v <;> simp [Val.entries] at hne
      rw [Val.depth] at dv; omega
    obtain ⟨gs, hs, b1, b2, b3, b4⟩ := enc_entries hS hR hN H dn f.num md (fun e he => by have := depth_entries he; omega) v1 v2 t1 t2 h.2
    rcases s2 with s2 | s2
    · rw [s2] at h
      exact absurd (List.length_eq_zero_iff.1 h.1) hne
    · refine ⟨.map hs, ?_, ?_⟩
      · rw [s2]
        refine Shuffle.trans (.perm ?_) (shuffle_mapOf b3)
        have hnd : gs.Nodup := List.Nodup.of_map (·.1) (by rw [b1]; exact n1)
        refine ((List.subperm_of_subset hnd b2).perm_of_length_le ?_).symm
        have := congrArg List.length b1
        simp only [List.length_map] at this
        omega
      · simp only [field, hm]
        rw [List.map_reverse, List.map_reverse, b4]
        rfl
  | none =>
    simp only [hm] at hv hw h
    by_cases hc : f.card = .repeated
    · simp only [hc, beq_self_eq_true, if_true] at hv hw h
      have he : ∀ x : Val, (match x with
          | .nil => true
          | .list xs sp => xs.all (elemOK (wtM E.S .plain) f.kind f.msg) && (if f.hasMessage then sp.all (elemOK (wtM E.S .plain) f.kind f.msg) else sp.isEmpty)
          | _ => false) = true → TidySlot E.S f x → (∀ e ∈ x.elems, elemOK (wtM E.S .plain) f.kind f.msg e = true) ∧
            (∀ e ∈ x.elems, TidyElem E.S (Tidy E.S) f.kind f.msg e) ∧ (x = .nil ∨ ∃ sp, x = .list x.elems sp) := by
        intro x hx tx
        cases x <;> simp only at hx <;> try cases hx
        · simp [Val.elems]
        · simp only [Bool.and_eq_true, List.all_eq_true] at hx
          exact ⟨hx.1, fun e he => tx e he, .inr ⟨_, rfl⟩⟩
      obtain ⟨v1, t1, _⟩ := he v hv tv
      obtain ⟨v2, t2, s2⟩ := he w hw tw
      by_cases hne : v.elems = []
      · refine ⟨w, .refl _, ?_⟩
        have : w.elems = [] := List.length_eq_zero_iff.1 (by rw [← h.length_eq, hne]; rfl)
        simp only [field, hm, hc, if_true]
        rw [this, hne]
      have dn : 1 ≤ n := by
        cases v <;> simp [Val.elems] at hne
        rw [Val.depth] at dv; omega
      obtain ⟨zs, b1, b2, b3⟩ := enc_list hS hR hN H dn f.num h (fun e he => by have := depth_elems he; omega) v1 v2 t1 t2
      have hlen : zs.length = w.elems.length := b1.length_eq.symm
      have hlen' := h.length_eq
      have henc : ∀ w', w'.elems = zs → field E (encode E strict) f v = field E (encode E strict) f w' := by
        intro w' hw'
        simp only [field, hm, hc, if_true, hw']
        have hnil : v.elems = [] ↔ zs = [] := by
          rw [← List.length_eq_zero_iff, ← List.length_eq_zero_iff]; omega
        split
        · rename_i hp
          have hnk : ¬ (f.kind = .message ∨ f.kind = .group) := by
            have := (ff.packed hp).2.2
            rintro (hk | hk) <;> rw [hk] at this <;> simp [numeric] at this
          rw [b3 hnk, if_neg (mt hnil.2 hne)]
        · rw [b2]
      rcases s2 with s2 | ⟨sp, s2⟩
      · refine ⟨w, .refl _, henc w ?_⟩
        rw [s2] at hlen ⊢
        simp only [Val.elems, List.length_nil] at hlen ⊢
        exact (List.length_eq_zero_iff.1 hlen).symm
      · refine ⟨.list zs sp, ?_, henc _ rfl⟩
        rw [s2]
        exact shuffle_listOf b1 sp
    · have hc' : (f.card == .repeated) = false := by simpa using hc
      simp only [hc, hc', Bool.false_eq_true, if_false] at hv hw h
      cases hp : f.presence with
      | false =>
        simp only [hp, Bool.false_eq_true, if_false] at hv hw h
        have hk : ¬ (f.kind = .message ∨ f.kind = .group) := by
          intro hk
          have := ff.singMsg hc (by simpa [FieldDesc.hasMessage] using hk)
          simp [hp] at this
        have hk' : f.hasMessage = false := by simpa [FieldDesc.hasMessage] using hk
        refine ⟨w, .refl _, ?_⟩
        obtain ⟨z1, z2⟩ := sameScalar_zero hk hv hw h
        have hrec : ∀ x, record E (encode E strict) f.num f.kind f.msg x = some (tag f.num (wireType f.kind) ++ scalar f.kind x) := by
          intro x; revert hk; cases f.kind <;> simp [record]
        simp only [field, hm, hc, hp, hk', if_false, Bool.or_self, Bool.false_eq_true, ← z1, hrec]
        split
        · rfl
        · rename_i hz
          rw [z2 (by simpa using hz)]
      | true =>
        simp only [hp, if_true, Bool.or_eq_true, isNil_iff] at hv hw h
        by_cases hn : v = .nil
        · have hn' := h.1.1 hn
          exact ⟨w, .refl _, by rw [hn, hn']⟩
        · have hn' : w ≠ .nil := mt h.1.2 hn
          have hv := hv.resolve_left hn
          have hw := hw.resolve_left hn'
          have htidy : ∀ x, elemOK (wtM E.S .plain) f.kind f.msg x = true → x ≠ .nil → TidySlot E.S f x → TidyElem E.S (Tidy E.S) f.kind f.msg x := by
            intro x hx hnx tx
            rcases elemOK_shape hx with rfl | ⟨_, rfl⟩ | ⟨_, rfl⟩ | ⟨_, _, _, rfl⟩
            · exact absurd rfl hnx
            all_goals exact tx hp
          have hse : SameElem E.S (subSame E.S E.R (Same E.S E.R)) f.kind f.msg v w := by
            unfold SameElem orEmpty
            rw [if_neg hn, if_neg hn']
            exact h.2 hn
          obtain ⟨w', a1, a2, _⟩ := enc_elem hS hR hN H f.num dv (fun h => absurd h hn) hv hw (htidy v hv hn tv) (htidy w hw hn' tw) hse
          refine ⟨w', a1, ?_⟩
          have hn'' : w' ≠ .nil := by
            intro h0
            have := shuffle_isNil a1
            rw [h0] at this
            exact hn' (isNil_iff.1 (by rw [this]; rfl))
          simp only [field, hm, hc, hp, if_false, Bool.true_or, if_true, hn, hn'', a2]

include hS hR hN in
theorem enc_oneof {n : Nat} (H : SubEnc E strict n) {d : MsgDesc} {slot : Nat} {v w : Val}
    (dv : v.depth ≤ n) (hv : oneofOK .plain (wtM E.S .plain) d slot v = true) (hw : oneofOK .plain (wtM E.S .plain) d slot w = true)
    (tv : ∀ f ∈ d.fields, f.slot = slot → TidySlot E.S f v) (tw : ∀ f ∈ d.fields, f.slot = slot → TidySlot E.S f w)
    (h : SameOneof E.S (subSame E.S E.R (Same E.S E.R)) d slot v w) :
    ∃ w', Shuffle w w' ∧ ((v = .nil ∧ w' = .nil) ∨ ∃ m x x' f, v = .wrap m x ∧ w' = .wrap m x' ∧ d.member slot m = some f ∧
      record E (encode E strict) f.num f.kind f.msg x = record E (encode E strict) f.num f.kind f.msg x') := by
  cases v <;> cases w <;> simp only [SameOneof] at h <;> try (simp [oneofOK] at hv; done)
  · exact ⟨.nil, .refl _, .inl ⟨rfl, rfl⟩⟩
  · rename_i m x m' y
    obtain ⟨rfl, f, hmem, hs⟩ := h
    simp only [oneofOK, hmem, Bool.and_eq_true] at hv hw
    obtain ⟨g1, g2, g3, g4⟩ := member_some hmem
    rw [Val.depth] at dv
    obtain ⟨x', a1, a2, _⟩ := enc_elem hS hR hN H f.num (by omega) (fun _ => by omega) hv.1 hw.1 (tv f g1 g3 g4) (tw f g1 g3 g4) hs
    exact ⟨.wrap m x', .wrap a1, .inr ⟨m, x, x', f, rfl, rfl, hmem, a2⟩⟩

theorem exists_list {P : Nat → Val → Val → Prop} : ∀ (l : List Val) (i : Nat), (∀ j (h : j < l.length), ∃ y, Shuffle l[j] y ∧ P (i + j) l[j] y) →
    ∃ m : List Val, List.Forall₂ Shuffle l m ∧ ∀ j (h : j < l.length) (h' : j < m.length), P (i + j) l[j] m[j]
  | [], _, _ => ⟨[], .nil, by simp⟩
  | a :: l, i, h => by
    obtain ⟨y, h1, h2⟩ := h 0 (by simp)
    obtain ⟨m, a1, a2⟩ := exists_list (P := P) l (i + 1) fun j hj => by
      have := h (j + 1) (by simpa using hj)
      rwa [show i + (j + 1) = i + 1 + j by omega] at this
    refine ⟨y :: m, .cons h1 a1, fun j hj hj' => ?_⟩
    cases j with
    | zero => exact h2
    | succ j =>
      have := a2 j (by simpa using hj) (by simpa using hj')
      rwa [show i + (j + 1) = i + 1 + j by omega]

include hS hR hN in
theorem enc_same : ∀ n, SubEnc E strict n := by
  intro n
  induction n with
  | zero =>
    intro t v w _ dv hv
    obtain ⟨s, u, e, rfl⟩ := wtM_isMsg hv
    rw [Val.depth] at dv; omega
  | succ n ih =>
    intro t v w hf dv hv hw hs tv tw
    obtain ⟨s, u, e, rfl⟩ := wtM_isMsg hv
    obtain ⟨s', u', e', rfl⟩ := wtM_isMsg hw
    have hd := schemaOK_msg hS t
    have hv' := hv
    have hw' := hw
    rw [wtM_msg, hf] at hv' hw'
    simp only [Bool.false_or, Bool.and_eq_true, decide_eq_true_iff, List.all_eq_true] at hv' hw'
    rw [same_iff] at hs
    obtain ⟨hs1, hs2⟩ := hs
    have hslot : ∀ j (hj : j < s'.length), ∃ y, Shuffle s'[j] y ∧
        ((∀ f ∈ (E.S.msg t).fields, f.slot = j → f.oneof = false → field E (encode E strict) f (slotOf s f) = field E (encode E strict) f y) ∧
         (∀ f ∈ (E.S.msg t).fields, f.slot = j → f.oneof = true → ((slotOf s f = .nil ∧ y = .nil) ∨ ∃ m x x' g, slotOf s f = .wrap m x ∧ y = .wrap m x' ∧
            (E.S.msg t).member f.slot m = some g ∧
            record E (encode E strict) g.num g.kind g.msg x = record E (encode E strict) g.num g.kind g.msg x'))) := by
      intro j hj
      obtain ⟨f, hfm, hfs⟩ := hd.cover j (by rw [← hw'.1]; exact hj)
      have hsl : slotOf s' f = s'[j] := by simp [slotOf, hfs, List.getD_eq_getElem?_getD, hj]
      have h1 := hv'.2 f hfm
      have h2 := hw'.2 f hfm
      have h3 := hs1 f hfm
      cases ho : f.oneof with
      | false =>
        simp only [ho, Bool.false_eq_true, if_false] at h1 h2 h3
        obtain ⟨y, a1, a2⟩ := enc_field hS hR hN ih (hd.fields f hfm) ho (depth_slot f dv) h1 h2 (tidy_slot hf tv hfm) (tidy_slot hf tw hfm) h3
        rw [hsl] at a1
        refine ⟨y, a1, fun g hg hgs hgo => ?_, fun g hg hgs hgo => ?_⟩
        · by_cases hn : g.num = f.num
          · rw [hd.num_inj hg hfm hn]; exact a2
          · have := (hd.share g hg f hfm hn (hgs.trans hfs.symm)).2
            simp [ho] at this
        · by_cases hn : g.num = f.num
          · rw [hd.num_inj hg hfm hn, ho] at hgo; cases hgo
          · have := (hd.share g hg f hfm hn (hgs.trans hfs.symm)).2
            simp [ho] at this
      | true =>
        simp only [ho, if_true] at h1 h2 h3
        have hsame : ∀ g : FieldDesc, g.slot = f.slot → ∀ l, slotOf l g = slotOf l f := by intro g hg l; simp [slotOf, hg]
        obtain ⟨y, a1, a2⟩ := enc_oneof hS hR hN ih (depth_slot f dv) h1 h2
          (fun g hg hgs => by rw [← hsame g hgs]; exact tidy_slot hf tv hg) (fun g hg hgs => by rw [← hsame g hgs]; exact tidy_slot hf tw hg) h3
        rw [hsl] at a1
        refine ⟨y, a1, fun g hg hgs hgo => ?_, fun g hg hgs hgo => ?_⟩
        · by_cases hn : g.num = f.num
          · rw [hd.num_inj hg hfm hn, ho] at hgo; cases hgo
          · have := (hd.share g hg f hfm hn (hgs.trans hfs.symm)).1
            simp [hgo] at this
        · rw [hsame g (hgs.trans hfs.symm), hgs.trans hfs.symm]; exact a2
    obtain ⟨m, hm1, hm2⟩ := exists_list (P := fun j _ y =>
        ((∀ f ∈ (E.S.msg t).fields, f.slot = j → f.oneof = false → field E (encode E strict) f (slotOf s f) = field E (encode E strict) f y) ∧
         (∀ f ∈ (E.S.msg t).fields, f.slot = j → f.oneof = true → ((slotOf s f = .nil ∧ y = .nil) ∨ ∃ m x x' g, slotOf s f = .wrap m x ∧ y = .wrap m x' ∧
            (E.S.msg t).member f.slot m = some g ∧
            record E (encode E strict) g.num g.kind g.msg x = record E (encode E strict) g.num g.kind g.msg x')))) s' 0 (by simpa using hslot)
    refine ⟨.msg m u' e', shuffle_msgOf hm1 u' e', ?_⟩
    have hlen := hm1.length_eq
    have hget : ∀ f ∈ (E.S.msg t).fields, f.slot < s'.length ∧ ∃ h : f.slot < m.length, slotOf m f = m[f.slot] := by
      intro f hfm
      have := (hd.fields f hfm).slot
      rw [← hw'.1] at this
      exact ⟨this, by omega, by simp [slotOf, List.getD_eq_getElem?_getD, show f.slot < m.length by omega]⟩
    have hF : ∀ f ∈ (E.S.msg t).fields, f.oneof = false → field E (encode E strict) f (slotOf s f) = field E (encode E strict) f (slotOf m f) := by
      intro f hfm ho
      obtain ⟨h1, h2, h3⟩ := hget f hfm
      rw [h3]
      exact (hm2 f.slot h1 h2).1 f hfm (by omega) ho
    have hO : ∀ f ∈ (E.S.msg t).fields, f.oneof = true → ((slotOf s f = .nil ∧ slotOf m f = .nil) ∨ ∃ k x x' g, slotOf s f = .wrap k x ∧ slotOf m f = .wrap k x' ∧
            (E.S.msg t).member f.slot k = some g ∧
            record E (encode E strict) g.num g.kind g.msg x = record E (encode E strict) g.num g.kind g.msg x') := by
      intro f hfm ho
      obtain ⟨h1, h2, h3⟩ := hget f hfm
      rw [h3]
      exact (hm2 f.slot h1 h2).2 f hfm (by omega) ho
    rw [encode_msg, encode_msg]
    have hu : (if (E.S.msg t).keepUnknown = true then u else []) = (if (E.S.msg t).keepUnknown = true then u' else []) := by
      split
      · exact hs2 (by assumption)
      · rfl
    rw [hu]
    congr 1
    cases strict
    · simp only [Bool.false_eq_true, if_false]
      unfold bodyDefault
      congr 2
      · apply List.map_congr_left
        intro f hfm
        rw [List.mem_filter] at hfm
        exact hF f ((ascending_perm _).mem_iff.1 hfm.1) (by simpa using hfm.2)
      · apply List.map_congr_left
        intro f hfm
        unfold oneofLast at hfm
        rw [List.mem_filter] at hfm
        have ho : f.oneof = true := by have := hfm.2; simp only [Bool.and_eq_true] at this; exact this.1
        rcases hO f ((ascending_perm _).mem_iff.1 hfm.1) ho with ⟨h1, h2⟩ | ⟨k, x, x', g, h1, h2, h3, h4⟩
        · rw [h1, h2]
        · rw [h1, h2]; simp only [Spec.oneof, h3, h4]
    · simp only [if_true]
      unfold bodyStrict
      congr 1
      apply List.map_congr_left
      intro f hfm
      have hfm := (ascending_perm _).mem_iff.1 hfm
      cases ho : f.oneof with
      | false => simp only [Bool.false_eq_true, if_false]; exact hF f hfm ho
      | true =>
        simp only [if_true]
        rcases hO f hfm ho with ⟨h1, h2⟩ | ⟨k, x, x', g, h1, h2, h3, h4⟩
        · rw [h1, h2]
        · rw [h1, h2]
          simp only
          split
          · rename_i hk
            obtain ⟨g1, g2, g3, g4⟩ := member_some h3
            rw [hd.num_inj g1 hfm (g4.trans hk)] at h4
            exact h4
          · rfl
end

end Vtp
