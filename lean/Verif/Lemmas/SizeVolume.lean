import Verif.Model.Size
import Verif.Lemmas.Volume
import Verif.Lemmas.Varint
import Verif.Lemmas.Schema
/-! What a message takes when written, against what it takes in memory. -/

namespace Vtp
open Spec

theorem sizeOfVarint_small (x : BitVec 64) : sizeOfVarint x ≤ 10 := by rw [sizeOfVarint_eq]; exact varint_length_le _

theorem keySizeLoop_small : ∀ (n : Nat) (x : BitVec 32), keySizeLoop n x ≤ max n 1
  | 0, _ => by simp [keySizeLoop]
  | n + 1, x => by
    rw [keySizeLoop]
    cases n with
    | zero => simp [keySizeLoop]
    | succ n =>
      have := keySizeLoop_small (n + 1) (x >>> 7)
      split <;> omega

theorem keySize_small (n w : Nat) : keySize n w ≤ 5 := by
  have := keySizeLoop_small 5 (keyBits n w)
  unfold keySize
  omega

theorem volume_pos {v : Val} (h : v ≠ .nil) : 1 ≤ volume v := by
  cases v <;> simp [volume] at * <;> omega

theorem bytes_volume (v : Val) : v.bytes.length ≤ volume v - 1 := by cases v <;> simp [Val.bytes, volume]

theorem sizeScalar_volume (k : Kind) (v : Val) : sizeScalar k v ≤ 10 + (volume v - 1) := by
  have h1 := sizeOfVarint_small v.bits
  have h2 := sizeOfVarint_small (u64 v.bytes.length)
  have h3 := bytes_volume v
  cases k <;> simp only [sizeScalar, sizeOfZigzag] <;> first | omega | exact Nat.le_trans (sizeOfVarint_small _) (by omega)

theorem elems_volume (v : Val) : v.elems.length + volumes v.elems ≤ volume v - 1 := by
  cases v <;> simp [Val.elems, volume, volumes]
  omega

theorem entries_volume (v : Val) : entriesVolume v.entries ≤ volume v - 1 := by cases v <;> simp [Val.entries, volume, entriesVolume]

theorem sum_volumes {g : Val → Nat} (h : ∀ e, g e ≤ 60 * (1 + volume e)) : ∀ xs : List Val, (xs.map g).sum ≤ 60 * (xs.length + volumes xs)
  | [] => by simp
  | x :: xs => by
    have := sum_volumes h xs
    have := h x
    simp only [List.map_cons, List.sum_cons, List.length_cons, volumes]
    omega

theorem sum_entriesVolume {g : Key × Val → Nat} (h : ∀ e, g e ≤ 60 * (keyVolume e.1 + volume e.2)) : ∀ es : List (Key × Val), (es.map g).sum ≤ 60 * entriesVolume es
  | [] => by simp
  | (k, v) :: es => by
    have := sum_entriesVolume h es
    have := h (k, v)
    simp only [List.map_cons, List.sum_cons, entriesVolume]
    simp only at this
    omega

section
variable {E : Env} (hR : ∀ t v, E.R.size t v ≤ 60 * (volume v - 1)) {rec : Nat → Val → Nat} (hr : ∀ t v, rec t v ≤ 60 * (volume v - 1))
include hR hr

theorem messageSize_volume (t : Nat) (v : Val) : messageSize E rec t v ≤ 60 * (volume v - 1) := by
  unfold messageSize
  split
  · exact hR t v
  · exact hr t v

theorem mapEntrySize_volume (md : MapDesc) (e : Key × Val) : mapEntrySize E rec md e + 15 ≤ 60 * (keyVolume e.1 + volume e.2) := by
  have h1 := sizeScalar_volume md.key e.1.toVal
  have h2 : volume e.1.toVal = keyVolume e.1 := by cases e.1 <;> rfl
  have h3 : 1 ≤ keyVolume e.1 := by cases e.1 <;> simp [keyVolume]
  have h4 := keySize_small 1 (protoWireType md.key)
  have h5 := keySize_small 2 (protoWireType md.val)
  unfold mapEntrySize
  simp only
  split
  · have h6 := messageSize_volume hR hr md.valMsg e.2
    have h7 := sizeOfVarint_small (u64 (if e.2.isNil then 0 else messageSize E rec md.valMsg e.2))
    have h8 : (if e.2.isNil then 0 else messageSize E rec md.valMsg e.2) ≤ messageSize E rec md.valMsg e.2 := by split <;> omega
    generalize (if e.2.isNil then 0 else messageSize E rec md.valMsg e.2) = l at *
    omega
  · have h6 := sizeScalar_volume md.val e.2
    omega

theorem sizeFieldBody_volume (o : Bool) (f : FieldDesc) (v : Val) : sizeFieldBody E rec o f v ≤ 30 + 60 * (volume v - 1) := by
  have hk := keySize_small f.num (if f.packed then 2 else protoWireType f.kind)
  have hk' := keySize_small f.num (protoWireType f.kind)
  have hs := sizeScalar_volume f.kind v
  have hm := messageSize_volume hR hr f.msg v
  have hvs := sizeOfVarint_small
  unfold sizeFieldBody
  simp only
  generalize keySize f.num (if f.packed = true then 2 else protoWireType f.kind) = key at *
  have he := elems_volume v
  have hlist : (v.elems.map fun e => key + sizeScalar f.kind e).sum ≤ 60 * (volume v - 1) := by
    refine Nat.le_trans (sum_volumes (fun e => ?_) v.elems) (Nat.mul_le_mul_left _ he)
    have := sizeScalar_volume f.kind e
    omega
  have hpack : (v.elems.map (sizeScalar f.kind)).sum ≤ 60 * (volume v - 1) := by
    refine Nat.le_trans (sum_volumes (fun e => ?_) v.elems) (Nat.mul_le_mul_left _ he)
    have := sizeScalar_volume f.kind e
    omega
  have hmsg : (v.elems.map fun e => key + messageSize E rec f.msg e + sizeOfVarint (u64 (messageSize E rec f.msg e))).sum ≤ 60 * (volume v - 1) := by
    refine Nat.le_trans (sum_volumes (fun e => ?_) v.elems) (Nat.mul_le_mul_left _ he)
    have := messageSize_volume hR hr f.msg e
    have := hvs (u64 (messageSize E rec f.msg e))
    omega
  have hmap : ∀ md, (v.entries.map fun e => mapEntrySize E rec md e + keySize f.num (protoWireType f.kind) + sizeOfVarint (u64 (mapEntrySize E rec md e))).sum ≤ 60 * (volume v - 1) := by
    intro md
    refine Nat.le_trans (sum_entriesVolume (fun e => ?_) v.entries) (Nat.mul_le_mul_left _ (entries_volume v))
    have := mapEntrySize_volume hR hr md e
    have := hvs (u64 (mapEntrySize E rec md e))
    omega
  have single : ∀ n, n ≤ 10 + (volume v - 1) → (if (!o && !(f.hasMessage || !o && f.presence) && isZeroVal f.kind v) = true then 0 else key + n) ≤ 30 + 60 * (volume v - 1) := by
    intro n hn
    split <;> omega
  have fixed : ∀ n, n ≤ 8 → (if f.packed = true then key + sizeOfVarint (u64 (v.elems.length * n)) + v.elems.length * n
      else if (f.card == .repeated) = true then (key + n) * v.elems.length
      else (if (!o && !(f.hasMessage || !o && f.presence) && isZeroVal f.kind v) = true then 0 else key + n)) ≤ 30 + 60 * (volume v - 1) := by
    intro n hn
    have := hvs (u64 (v.elems.length * n))
    have h1 : v.elems.length * n ≤ v.elems.length * 8 := Nat.mul_le_mul_left _ hn
    have h2 : (key + n) * v.elems.length ≤ 13 * v.elems.length := Nat.mul_le_mul_right _ (by omega)
    split
    · omega
    · split
      · omega
      · exact single n (by omega)
  have var : (if f.packed = true then key + sizeOfVarint (u64 (v.elems.map (sizeScalar f.kind)).sum) + (v.elems.map (sizeScalar f.kind)).sum
      else if (f.card == .repeated) = true then (v.elems.map fun e => key + sizeScalar f.kind e).sum
      else (if (!o && !(f.hasMessage || !o && f.presence) && isZeroVal f.kind v) = true then 0 else key + sizeScalar f.kind v)) ≤ 30 + 60 * (volume v - 1) := by
    have := hvs (u64 (v.elems.map (sizeScalar f.kind)).sum)
    split
    · omega
    · split
      · omega
      · exact single _ hs
  have str : (if (f.card == .repeated) = true then (v.elems.map fun e => key + sizeScalar f.kind e).sum
      else (if (!o && !(f.hasMessage || !o && f.presence) && isZeroVal f.kind v) = true then 0 else key + sizeScalar f.kind v)) ≤ 30 + 60 * (volume v - 1) := by
    split
    · omega
    · exact single _ hs
  have hv2 := hvs (u64 (messageSize E rec f.msg v))
  split
  case h_17 => omega
  case h_18 =>
    split
    · rename_i md _
      have := hmap md
      omega
    · split <;> omega
  case h_15 => exact str
  case h_16 => exact str
  all_goals first | exact var | exact fixed _ (by decide)

theorem sizeField_oneof (f : FieldDesc) (v : Val) : sizeField E rec true f v ≤ 60 * (1 + volume v) := by
  have h := sizeFieldBody_volume hR hr true f v
  have hk := keySize_small f.num (if f.packed then 2 else protoWireType f.kind)
  unfold sizeField
  simp only
  generalize keySize f.num (if f.packed = true then 2 else protoWireType f.kind) = key at *
  repeat' split
  all_goals omega

theorem sizeField_plain {d : MsgDesc} {f : FieldDesc} (hf : FieldFacts d f) (v : Val) : sizeField E rec false f v ≤ 60 * volume v := by
  have h := sizeFieldBody_volume hR hr false f v
  by_cases hv : v = .nil
  · subst hv
    unfold sizeField
    simp only [Val.isNil, Bool.false_and, Bool.not_true, Bool.false_eq_true, if_false]
    split
    · simp [FieldDesc.len, Val.elems, Val.entries]
    · rename_i hc
      have hp : f.packed = false := by
        by_contra hp
        have := (hf.packed (by simpa using hp)).1
        simp [this] at hc
      split
      · simp
      · rename_i hn
        simp only [Bool.not_eq_true] at hc hn
        unfold sizeFieldBody
        simp only [hn, hp, hc]
        simp only [FieldDesc.hasMessage, Bool.or_eq_false_iff, beq_eq_false_iff_ne, ne_eq] at hn
        cases hk : f.kind <;> simp [isZeroVal, isZeroNum, Val.bits, Val.bytes, hk] at * 
  · have := volume_pos hv
    unfold sizeField
    simp only [Bool.false_and, Bool.false_eq_true, if_false]
    repeat' split
    all_goals omega

theorem sizeOneof_volume (d : MsgDesc) (slot : Nat) (v : Val) : sizeOneof E rec d slot v ≤ 60 * volume v := by
  unfold sizeOneof
  split
  · split
    · rename_i f _
      have := sizeField_oneof hR hr f
      simp only [volume]
      exact this _
    · omega
  · omega

theorem sizeFields_volume {d : MsgDesc} (hd : MsgFacts d) (s : List Val) : ∀ (fs : List FieldDesc) (seen : List Nat) (s' : List Val), (∀ f ∈ fs, f ∈ d.fields) → (fs.map (·.num)).Nodup →
    (∀ f ∈ fs, (f.oneof = true ∧ f.slot ∈ seen) ∨ slotOf s' f = slotOf s f) → sizeFields E rec d s seen fs ≤ 60 * volumes s' := by
  intro fs
  induction fs with
  | nil => intro seen s' _ _ _; simp [sizeFields]
  | cons f fs ih =>
    intro seen s' hfs hn hs
    have hff := hfs f (by simp)
    simp only [List.map_cons, List.nodup_cons, List.mem_map, not_exists, not_and] at hn
    have hset := volumes_set s' f.slot .nil
    have keep : ∀ g ∈ fs, g.slot ≠ f.slot → slotOf (s'.set f.slot .nil) g = slotOf s' g := by
      intro g _ hg
      simp [slotOf, List.getElem?_set_ne (Ne.symm hg)]
    rw [sizeFields]
    split
    · rename_i ho
      split
      · exact ih _ _ (fun g hg => hfs g (by simp [hg])) hn.2 (fun g hg => hs g (by simp [hg]))
      · rename_i hc
        have h1 := sizeOneof_volume hR hr d f.slot (slotOf s f)
        have h2 := ih (f.slot :: seen) (s'.set f.slot .nil) (fun g hg => hfs g (by simp [hg])) hn.2 (fun g hg => by
          by_cases hg' : g.slot = f.slot
          · have := hd.share f hff g (hfs g (by simp [hg])) (fun h => hn.1 g hg h.symm) hg'.symm
            exact .inl ⟨this.2, by simp [hg']⟩
          · rw [keep g hg hg']
            rcases hs g (by simp [hg]) with h | h
            · exact .inl ⟨h.1, by simp [h.2]⟩
            · exact .inr h)
        have h3 : slotOf s' f = slotOf s f := by
          rcases hs f (by simp) with h | h
          · exact absurd (by simpa using h.2) hc
          · exact h
        rw [← h3] at h1 ⊢
        simp only [slotOf, volume] at *
        omega
    · rename_i ho
      have h1 := sizeField_plain hR hr (hd.fields f hff) (slotOf s f)
      have h2 := ih seen (s'.set f.slot .nil) (fun g hg => hfs g (by simp [hg])) hn.2 (fun g hg => by
        have hg' : g.slot ≠ f.slot := fun h => ho (hd.share f hff g (hfs g (by simp [hg])) (fun h => hn.1 g hg h.symm) h.symm).1
        rw [keep g hg hg']
        exact hs g (by simp [hg]))
      have h3 : slotOf s' f = slotOf s f := by
        rcases hs f (by simp) with h | h
        · exact absurd h.1 ho
        · exact h
      rw [← h3] at h1 ⊢
      simp only [slotOf, volume] at *
      omega

end

theorem sizeN_volume {E : Env} (hS : schemaOK E.S = true) (hR : ∀ t v, E.R.size t v ≤ 60 * (volume v - 1)) : ∀ n t v, sizeN E n t v ≤ 60 * (volume v - 1)
  | 0, _, _ => by rw [sizeN]; exact Nat.zero_le _
  | n + 1, t, v => by
    cases v with
    | msg s u e =>
      have h := sizeFields_volume hR (sizeN_volume hS hR n) (schemaOK_msg hS t) s (E.S.msg t).fields [] s (fun _ h => h) (schemaOK_msg hS t).nodup (fun _ _ => .inr rfl)
      have : (if (E.S.msg t).keepUnknown = true then u.length else 0) ≤ u.length := by split <;> omega
      simp only [sizeN, volume]
      omega
    | _ => exact Nat.zero_le _

end Vtp
