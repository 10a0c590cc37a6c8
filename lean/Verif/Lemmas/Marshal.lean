import Verif.Lemmas.Runs
/-!
# The marshalling code runs as specified
-/

namespace Vtp
open Spec

theorem Runs.cast {w : Writer} {e e' : Option Bytes} {n n' : Nat} (h : Runs w e n) (he : e = e') (hn : n = n') :
    Runs w e' n' := he ▸ hn ▸ h

theorem wireType_eq (k : Kind) : wireType k = protoWireType k := by cases k <;> decide

theorem concat_some {α : Type} (l : List α) (f : α → Bytes) :
    concat (l.map fun a => some (f a)) = some (l.map f).flatten := by
  induction l with
  | nil => rfl
  | cons a as ih => rw [List.map_cons, concat_cons, ih]; rfl

/-- Facts about a coherent field descriptor. -/
theorem fieldDescOK_num {d : MsgDesc} {f : FieldDesc} (h : fieldDescOK d f = true) : f.num < 2 ^ 29 ∧ 1 ≤ f.num := by
  simp only [fieldDescOK, Bool.and_eq_true, decide_eq_true_eq] at h
  exact ⟨h.1.1.1.1.1.1.1.1.1.1.2, h.1.1.1.1.1.1.1.1.1.1.1⟩

theorem signExtend_range {n : BitVec 64} (h : ((n.setWidth 32).signExtend 64 == n) = true) :
    sizeOfZigzag n = sizeOfVarint ((zigzag32 (n.setWidth 32)).setWidth 64) := by
  rw [← sizeOfZigzag_signExtend, eq_of_beq h]

theorem zigzag32_wide (x : BitVec 32) : ((zigzag32 x).setWidth 64).toNat = zigzag x.toInt := by
  rw [BitVec.toNat_setWidth, Nat.mod_eq_of_lt (by have := (zigzag32 x).isLt; omega), zigzag32_toNat]

theorem scalarOK_num {k : Kind} {v : Val} (hk : numeric k = true) (h : scalarOK k v = true) :
    ∃ n, v = .num n ∧ inRange k n = true := by
  cases k <;> simp [numeric] at hk <;> (cases v <;> simp_all [scalarOK])

/-- The varint kinds. -/
def varintKind (k : Kind) : Bool := protoWireType k == 0 && k != .bool

theorem wireVarint_size {k : Kind} {v : Val} (hk : varintKind k = true) (h : scalarOK k v = true) :
    sizeOfVarint (wireVarint k v) = sizeScalar k v := by
  cases k <;> simp [varintKind, protoWireType] at hk <;> (try rfl)
  obtain ⟨n, rfl, hr⟩ := scalarOK_num (by rfl) h
  exact (signExtend_range hr).symm

theorem wireVarint_scalar {k : Kind} {v : Val} (hk : varintKind k = true) :
    Spec.varint (wireVarint k v).toNat = scalar k v := by
  cases k <;> simp [varintKind, protoWireType] at hk <;>
    simp only [scalar, wireType_eq, protoWireType, wireVarint, zigzag32_wide, zigzag64_toNat]

theorem Runs.str (b : Bytes) : Runs (Writer.seq (Writer.copy b) (Writer.varint (u64 b.length)))
    (some (delimited b)) (b.length + sizeOfVarint (u64 b.length)) := by
  refine ((Runs.copy b).seq (Runs.varint _)).cast ?_ rfl
  rw [optAppend_some, u64, BitVec.toNat_ofNat]; rfl

theorem runs_scalar {k : Kind} {v : Val} (h : scalarOK k v = true) :
    Runs (marshalScalar k v) (some (scalar k v)) (sizeScalar k v) := by
  by_cases hv : varintKind k = true
  · rw [← wireVarint_scalar hv, ← wireVarint_size hv h]
    cases k <;> simp [varintKind, protoWireType] at hv <;> exact Runs.varint _
  · cases k <;> simp [varintKind, protoWireType] at hv <;> simp [scalarOK] at h <;>
      simp only [marshalScalar, scalar, wireType_eq, protoWireType, sizeScalar]
    case bool =>
      refine (Runs.byte _).cast ?_ rfl
      by_cases hb : v.bits = 0
      · rw [hb]; rfl
      · rw [if_neg hb, if_pos (by simpa using hb)]; rfl
    case string => exact Runs.str _
    case bytes => exact Runs.str _
    all_goals exact Runs.fixed _ _

/-- What the induction hypothesis says about sub-messages. -/
structure SubRuns (E : Env) (okv : Nat → Val → Bool) (rM : Nat → Val → Bytes → Res (Bytes × Nat)) (rE : Nat → Val → Option Bytes)
    (rS : Nat → Val → Nat) : Prop where
  runs : ∀ t v, (v.isNil || okv t v) = true → (E.S.msg t).foreign = false → RunsSized (rM t v) (rE t v) (rS t v)
  nilSize : ∀ t, rS t .nil = 0

section
variable {E : Env} {okv : Nat → Val → Bool} {rM : Nat → Val → Bytes → Res (Bytes × Nat)}
  {rE : Nat → Val → Option Bytes} {rS : Nat → Val → Nat}

theorem runs_sub (hR : RuntimeEnc E.R) (H : SubRuns E okv rM rE rS) (t : Nat) (v : Val) (h : (v.isNil || okv t v) = true) :
    Runs (marshalSub E rM t v) (sub E rE t v) (messageSize E rS t v) := by
  unfold marshalSub sub messageSize
  by_cases hf : (E.S.msg t).foreign = true
  · simp only [hf, if_true]
    cases hm : E.R.marshal t v with
    | none => exact Runs.fail _ _
    | some b => rw [hR.size t v b hm]; exact Runs.copy b
  · simp only [hf]
    exact Runs.call (H.runs t v h (by simpa using hf))

theorem runs_record_msg (hR : RuntimeEnc E.R) (H : SubRuns E okv rM rE rS) (num : Nat) (hn : num < 2 ^ 29) (t : Nat) (v : Val)
    (h : (v.isNil || okv t v) = true) :
    Runs (Writer.seq (Writer.measured (marshalSub E rM t v)) (Writer.key num 2)) (record E rE num .message t v)
      (keySize num 2 + messageSize E rS t v + sizeOfVarint (u64 (messageSize E rS t v))) := by
  refine ((runs_sub hR H t v h).measured.seq (Runs.key num 2 hn (by omega))).cast ?_ (by omega)
  simp only [record, optDelimited]
  cases sub E rE t v <;> rfl

theorem runs_record_group (hR : RuntimeEnc E.R) (H : SubRuns E okv rM rE rS) (num : Nat) (hn : num < 2 ^ 29) (t : Nat) (v : Val)
    (h : (v.isNil || okv t v) = true) :
    Runs (Writer.seq (Writer.key num 4) (Writer.seq (marshalSub E rM t v) (Writer.key num 3))) (record E rE num .group t v)
      (messageSize E rS t v + (keySize num 3 + keySize num 4)) := by
  refine ((Runs.key num 4 hn (by omega)).seq ((runs_sub hR H t v h).seq (Runs.key num 3 hn (by omega)))).cast ?_ (by omega)
  simp only [record]
  cases sub E rE t v with
  | none => rfl
  | some b => simp

theorem record_scalar (E : Env) (rE : Nat → Val → Option Bytes) (num : Nat) {k : Kind} (t : Nat) (v : Val)
    (hk : scalarOK k v = true) : record E rE num k t v = some (tag num (wireType k) ++ scalar k v) := by
  cases k <;> simp [scalarOK] at hk <;> rfl

theorem runs_record_scalar (num : Nat) (hn : num < 2 ^ 29) {k : Kind} (t : Nat) {v : Val} (h : scalarOK k v = true) :
    Runs (Writer.seq (marshalScalar k v) (Writer.key num (protoWireType k))) (record E rE num k t v)
      (keySize num (protoWireType k) + sizeScalar k v) := by
  refine ((runs_scalar h).seq (Runs.key num _ hn (protoWireType_lt k))).cast ?_ (by omega)
  rw [record_scalar E rE num t v h, wireType_eq]; rfl

theorem runs_entry (hR : RuntimeEnc E.R) (H : SubRuns E okv rM rE rS) (num : Nat) (hn : num < 2 ^ 29) (md : MapDesc) (e : Key × Val)
    (hk : scalarOK md.key e.1.toVal = true) (hv : elemOK okv md.val md.valMsg e.2 = true) (hg : (md.val != .group) = true) :
    Runs (marshalEntry E rM num 2 md e) (entry E rE num md e)
      (mapEntrySize E rS md e + keySize num 2 + sizeOfVarint (u64 (mapEntrySize E rS md e))) := by
  have hkey : Runs (Writer.seq (marshalScalar md.key e.1.toVal) (Writer.key 1 (protoWireType md.key)))
      (record E rE 1 md.key 0 e.1.toVal) (keySize 1 (protoWireType md.key) + sizeScalar md.key e.1.toVal) :=
    runs_record_scalar 1 (by omega) 0 hk
  have comb : ∀ (w : Writer) (n : Nat), Runs w (record E rE 2 md.val md.valMsg e.2) n →
      n + (keySize 1 (protoWireType md.key) + sizeScalar md.key e.1.toVal) = mapEntrySize E rS md e →
      Runs (Writer.seq (Writer.measured (Writer.seq w (Writer.seq (marshalScalar md.key e.1.toVal)
        (Writer.key 1 (protoWireType md.key))))) (Writer.key num 2)) (entry E rE num md e)
        (mapEntrySize E rS md e + keySize num 2 + sizeOfVarint (u64 (mapEntrySize E rS md e))) := by
    intro w n hw hs
    have h1 := (hw.seq hkey).measured.seq (Runs.key num 2 hn (by omega))
    rw [hs] at h1
    refine h1.cast ?_ (by omega)
    simp only [entry, optDelimited]
    cases record E rE 1 md.key 0 e.1.toVal with
    | none => simp
    | some a => cases record E rE 2 md.val md.valMsg e.2 with
      | none => simp
      | some b => simp
  have assoc : ∀ a b c : Writer, Writer.seq a (Writer.seq b c) = Writer.seq (Writer.seq a b) c := by
    intro a b c
    funext s
    simp only [Writer.seq]
    cases a s <;> simp
  by_cases hm : md.val = .message
  · have hv' : (e.2.isNil || okv md.valMsg e.2) = true := by simpa [elemOK, hm] using hv
    have h := runs_record_msg hR H 2 (by omega) md.valMsg e.2 hv'
    unfold marshalEntry
    simp only [hm]
    rw [assoc]
    apply comb
    · rw [hm]; exact h
    · simp only [mapEntrySize, hm, protoWireType]
      by_cases hnil : e.2 = .nil
      · have : messageSize E rS md.valMsg e.2 = 0 := by
          unfold messageSize
          split
          · rw [hnil]; have := hR.size md.valMsg .nil [] (hR.nil _); simpa using this
          · rw [hnil]; exact H.nilSize _
        have hb : e.2.isNil = true := by rw [hnil]; rfl
        simp [hb, this]; omega
      · have : e.2.isNil = false := by cases hh : e.2 <;> simp_all [Val.isNil]
        simp [this]; omega
  · have hs : scalarOK md.val e.2 = true := by
      cases hq : md.val <;> simp_all [elemOK]
    have h := runs_record_scalar (E := E) (rE := rE) 2 (by omega) md.valMsg hs
    unfold marshalEntry
    have : (match md.val with
      | .message => Writer.measured (marshalSub E rM md.valMsg e.2)
      | k => marshalScalar k e.2) = marshalScalar md.val e.2 := by
      cases hq : md.val <;> simp_all
    simp only [this]
    rw [assoc]
    apply comb _ _ h
    cases hq : md.val <;> simp_all [mapEntrySize] <;> omega

end

end Vtp
