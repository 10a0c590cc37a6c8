import Verif.Lemmas.Bomb
/-! Inputs for a map of strings which take memory in proportion to the square of their length. -/

namespace Vtp
open Spec

/-- `message M { map<string, string> m = 1; }` -/
def labelSchema : Schema := [
  { fields := [{ num := 1, slot := 0, kind := .message, card := .repeated, map := some ⟨.string, .string, 0⟩ }], nslots := 1 }]

/-- `m`. -/
def labelField : FieldDesc := { num := 1, slot := 0, kind := .message, card := .repeated, map := some ⟨.string, .string, 0⟩ }

/-- The bytes of a map entry for the key `varint n` and a string of `l` bytes, without these. -/
def rungBody (n l : Nat) : Bytes := 0x0a :: (varint (varint n).length ++ varint n) ++ 0x12 :: varint l

/-- The entry as a field; the length of the entry ends where the string begins. -/
def rungHead (n l : Nat) : Bytes := 0x0a :: varint (rungBody n l).length ++ rungBody n l

/-- Each entry has all entries after it also as its string. -/
def ladder : Nat → Bytes
  | 0 => []
  | n + 1 => rungHead n (ladder n).length ++ ladder n

/-- The entries it decodes to. -/
def rungs : Nat → List (Key × Val)
  | 0 => []
  | n + 1 => (.str (varint n), .str (ladder n)) :: rungs n

/-- The message. -/
def rungsVal (n : Nat) : Val := .msg [if n = 0 then .nil else .map (rungs n)] [] []

theorem ladder_length (n : Nat) : (ladder n).length ≤ 50 * n := by
  induction n with
  | zero => simp [ladder]
  | succ n ih =>
    have h := varint_length_le
    have h1 := h n
    have h2 := h (varint n).length
    have h3 := h (ladder n).length
    have h5 := h (rungBody n (ladder n).length).length
    simp only [ladder, rungHead, rungBody, List.length_append, List.length_cons] at *
    omega

theorem three_ladder (n : Nat) : 3 * n ≤ (ladder n).length := by
  induction n with
  | zero => simp
  | succ n ih => simp only [ladder, List.length_append, rungHead, rungBody, List.length_cons]; omega

theorem le_ladder (n : Nat) : n ≤ (ladder n).length := by have := three_ladder n; omega

theorem rungs_volume (n : Nat) : n * n ≤ volume (rungsVal n) := by
  have key : ∀ n, n * n ≤ entriesVolume (rungs n) := by
    intro n
    induction n with
    | zero => simp [rungs]
    | succ n ih =>
      have := three_ladder n
      simp only [rungs, entriesVolume, keyVolume, volume]
      have : (n + 1) * (n + 1) = n * n + 2 * n + 1 := by ring
      omega
  have := key n
  cases n with
  | zero => simp
  | succ n => simp [rungsVal, volume, volumes] at *; omega

section
variable {E : UEnv} (hS : E.S = labelSchema) (hA : E.A.Valid) (hal : E.aliasing = false)
include hS hA hal

/-- One entry, with the string reaching to the end of the input. -/
theorem rung_decodes {rec : SubDec} {d b : Bytes} (hF : E.A.Fits d.length) {i : Nat} (hi : i ≤ d.length) (n : Nat) (hd : d.drop i = rungHead n b.length ++ b)
    (base : Nat) {s : Val} {es : List (Key × Val)}
    (hs : s = .map es ∨ s = .nil ∧ es = []) (hk : ∀ e ∈ es, e.1 ≠ .str (varint n)) :
    recordStep E rec 0 d base i [] (.msg [s] [] []) = (.msg [.map (es ++ [(.str (varint n), .str b)])] [] [], .ok (i + (rungHead n b.length).length, [])) := by
  have h64 : ∀ k, k ≤ d.length → k < 2 ^ 64 := by
    intro k hk
    unfold Arch.Fits at hF
    rcases hA with h | h <;> rw [h] at hF <;> omega
  have hbody : rungBody n b.length = 0x0a :: (varint (varint n).length ++ varint n) ++ 0x12 :: varint b.length := rfl
  have hhead : rungHead n b.length = 0x0a :: varint (rungBody n b.length).length ++ rungBody n b.length := rfl
  have hdl := congrArg List.length hd
  generalize rungBody n b.length = body at hbody hhead
  have hd0 : d.drop i = [0x0a] ++ ((varint body.length ++ body) ++ b) := by rw [hd, hhead]; simp
  have hle0 := le_of_drop hd0 hi
  have hd1 : d.drop (i + 1) = (varint body.length ++ body) ++ b := drop_add hd0
  have hle1 := le_of_drop hd1 (by simpa using hle0)
  have hend : d.length = i + 1 + (varint body.length ++ body).length + b.length := by
    rw [hhead] at hdl; simp at hdl ⊢; omega
  simp only [List.length_append] at hle1 hend
  have h1 : decodeVarint 64 d i = .ok (10#64, i + 1) := decodeVarint_isVarint (v := 10) ⟨.last _ (by decide), by decide, by decide, by decide⟩ 64 hd0
  have h2 := readSpan_len hA (w := E.A.bits) (.inr rfl) hF (by simpa using hle0) (varint_isVarint _ (h64 body.length (by omega))) hd1
  -- the key
  generalize hq : i + 1 + (varint body.length).length = q at *
  have hd2 : d.drop q = [0x0a] ++ ((varint (varint n).length ++ varint n) ++ (0x12 :: varint b.length ++ b)) := by
    rw [← hq, drop_add (by rw [hd1, List.append_assoc]), hbody]; simp
  have hq0 : q ≤ d.length := by omega
  have hle2 := le_of_drop hd2 hq0
  have h3 : decodeVarint 64 d q = .ok (10#64, q + 1) := decodeVarint_isVarint (v := 10) ⟨.last _ (by decide), by decide, by decide, by decide⟩ 64 hd2
  have hd3 : d.drop (q + 1) = (varint (varint n).length ++ varint n) ++ (0x12 :: varint b.length ++ b) := drop_add hd2
  have hle3 := le_of_drop hd3 (by simpa using hle2)
  simp only [List.length_append] at hle3
  have h4 := readSpan_len hA (w := 64) (.inl rfl) hF (by simpa using hle2) (varint_isVarint _ (h64 (varint n).length (by omega))) hd3
  have h5 := slice_len (by simpa using hle2) hd3
  -- the value
  generalize hr : q + 1 + (varint (varint n).length ++ varint n).length = r at *
  have hd4 : d.drop r = [0x12] ++ (varint b.length ++ b) := by rw [← hr, drop_add hd3]; simp
  have hr0 : r ≤ d.length := by rw [← hr]; simp; omega
  have hle4 := le_of_drop hd4 hr0
  have h6 : decodeVarint 64 d r = .ok (18#64, r + 1) := decodeVarint_isVarint (v := 18) ⟨.last _ (by decide), by decide, by decide, by decide⟩ 64 hd4
  have hd5 : d.drop (r + 1) = (varint b.length ++ b) ++ [] := by rw [List.append_nil]; exact drop_add hd4
  have hle5 := le_of_drop hd5 (by simpa using hle4)
  have h7 := readSpan_len hA (w := 64) (.inl rfl) hF (by simpa using hle4) (varint_isVarint _ (h64 b.length (by simp at hle5 ⊢; omega))) hd5
  have h8 := slice_len (by simpa using hle4) hd5
  have hfin : r + 1 + (varint b.length ++ b).length = d.length := by
    have := congrArg List.length hd5
    simp at this hle4 ⊢; omega
  rw [hfin] at h7 h8
  generalize hpost : i + 1 + (varint body.length ++ body).length = post at *
  have hpl : post = q + body.length := by rw [← hpost, ← hq]; simp; omega
  have hbl : body.length = 1 + (varint (varint n).length ++ varint n).length + (1 + (varint b.length).length) := by
    rw [hbody]; simp; omega
  have hqp : q < post := by omega
  have hrp : r < post := by omega
  have hpd : post ≤ d.length := by omega
  have hkey : ∀ old, mapItem { E with aliasing := false } rec .string 0 d base (q + 1) old = .ok (.str (varint n), r) := by
    intro old
    unfold mapItem
    simp only [h4, h5, Res.bind_ok]
    rfl
  have hstr : ∀ old, mapItem E rec .string 0 d base (r + 1) old = .ok (.str b, d.length) := by
    intro old
    unfold mapItem
    simp only [h7, h8, Res.bind_ok, UEnv.keep, hal]
    rfl
  have hloop : entryLoop E rec ⟨.string, .string, 0⟩ d base post (d.length + 1) q (.str []) (.str []) = .ok (.str (varint n), .str b) := by
    obtain ⟨k, hk⟩ : ∃ k, d.length = k + 2 := ⟨d.length - 2, by omega⟩
    rw [hk, entryLoop, if_pos hqp, h3]
    simp only [Res.bind_ok]
    rw [if_pos (by decide), hkey]
    simp only [Res.bind_ok]
    rw [entryLoop, if_pos hrp, h6]
    simp only [Res.bind_ok]
    rw [if_neg (by decide), if_pos (by decide), hstr]
    simp only [Res.bind_ok]
    rw [entryLoop, if_neg (by omega)]
  have hins : mapInsert es (.str (varint n)) (.str b) = es ++ [(.str (varint n), .str b)] :=
    mapInsert_fresh fun h => by obtain ⟨e, h1, h2⟩ := List.mem_map.1 h; exact hk e h1 h2
  have hentry : mapEntry E rec labelField ⟨.string, .string, 0⟩ d base q post (.msg [s] [] []) = (.msg [.map (es ++ [(.str (varint n), .str b)])] [] [], .ok ()) := by
    have hs' : (if s.isNil then .map [] else s) = .map es := by rcases hs with rfl | ⟨rfl, rfl⟩ <;> rfl
    have hg : getSlot labelField.slot (.msg [s] [] []) = (.msg [s] [] [], .ok s) := rfl
    unfold mapEntry
    rw [UM.bind_def, hg]
    simp only [hs']
    have hset : setSlot labelField.slot (.map es) (.msg [s] [] []) = (.msg [.map es] [] [], .ok ()) := rfl
    rw [UM.bind_def, hset]
    simp only [zeroScalar, hloop, UM.lift_ok_bind, toKey, mapPut, hins]
    rfl
  have hitem : fieldItem E rec (labelSchema.msg 0) labelField true 10#64 d base (i + 1) (.msg [s] [] []) =
      (.msg [.map (es ++ [(.str (varint n), .str b)])] [] [], .ok post) := by
    unfold fieldItem
    simp only [labelField] at hentry ⊢
    simp only [h2, UM.lift_ok_bind]
    rw [UM.bind_def, hentry]
    rfl
  have hc : fieldCase E rec (labelSchema.msg 0) labelField 10#64 d base (i + 1) (.msg [s] [] []) =
      (.msg [.map (es ++ [(.str (varint n), .str b)])] [] [], .ok post) := hitem
  unfold recordStep
  simp only [h1, UM.lift_ok_bind]
  rw [hS, if_neg (by decide), if_neg (by decide)]
  have hfind : (labelSchema.msg 0).fields.find? (fun f => f.num == ((10#64 >>> 3).setWidth 32 : BitVec 32).toNat) = some labelField := by decide
  rw [hfind]
  simp only
  rw [UM.bind_def, hc]
  have : post = i + (rungHead n b.length).length := by rw [hhead, ← hpost]; simp; omega
  rw [this]
  rfl

/-- The rest of the input. -/
theorem ladder_loop : ∀ (n N : Nat) (d : Bytes) (i : Nat), E.A.Fits d.length → i ≤ d.length → d.drop i = ladder n → ∀ (base fuel : Nat), n < fuel →
    ∀ (s : Val) (es : List (Key × Val)), (s = .map es ∨ s = .nil ∧ es = []) → (∀ e ∈ es, ∀ k < n, e.1 ≠ .str (varint k)) →
      recordLoop E (unmarshalN E N) 0 d base fuel i [] (.msg [s] [] []) = (.msg [if n = 0 then s else .map (es ++ rungs n)] [] [], .ok (d.length, [])) := by
  intro n
  induction n with
  | zero =>
    intro N d i hF hi hd base fuel hfuel s es hs hk
    obtain ⟨fuel, rfl⟩ : ∃ k, fuel = k + 1 := ⟨fuel - 1, by omega⟩
    have : i = d.length := by
      have := congrArg List.length hd
      simp [ladder] at this; omega
    subst this
    rw [recordLoop, if_neg (by omega)]
    rfl
  | succ n ih =>
    intro N d i hF hi hd base fuel hfuel s es hs hk
    obtain ⟨fuel, rfl⟩ : ∃ k, fuel = k + 1 := ⟨fuel - 1, by omega⟩
    have hlen := congrArg List.length hd
    simp only [ladder, List.length_append, List.length_drop] at hlen
    have hpos : 1 ≤ (rungHead n (ladder n).length).length := by simp only [rungHead, List.length_append, List.length_cons]; omega
    have hb : E.A.Fits (ladder n).length := by unfold Arch.Fits at *; omega
    have hlt : n < 2 ^ 64 := by
      have hl : ∀ k, k ≤ (ladder k).length := by
        intro k
        induction k with
        | zero => simp
        | succ k ih =>
          simp only [ladder, List.length_append, rungHead, List.length_cons]; omega
      have := hl n
      unfold Arch.Fits at hb
      rcases hA with h | h <;> rw [h] at hb <;> omega
    have h2 := rung_decodes hS hA hal (rec := unmarshalN E N) hF hi n hd base hs (fun e he => hk e he n (by omega))
    rw [recordLoop, if_pos (by omega), UM.bind_def, h2]
    simp only
    have hd' : d.drop (i + (rungHead n (ladder n).length).length) = ladder n := drop_add hd
    rw [ih N d _ hF (by omega) hd' base fuel (by omega) _ _ (.inl rfl) ?_]
    · have : ∀ l, (if n = 0 then Val.map (es ++ l) else .map (es ++ l ++ rungs n)) = .map (es ++ (l ++ rungs n)) := by
        intro l
        cases n <;> simp [rungs]
      rw [this, if_neg (Nat.succ_ne_zero n)]
      rfl
    · intro e he k hk'
      rcases List.mem_append.1 he with he | he
      · exact hk e he k (by omega)
      · cases List.mem_singleton.1 he
        intro h
        injection h with h
        have h1 := varint_value n hlt
        have h2 := varint_value k (by omega)
        rw [h] at h1
        omega

/-- The whole input. -/
theorem ladder_decodes (n : Nat) (hF : E.A.Fits (ladder n).length) : unmarshalVT E 0 (ladder n) (zeroMsg E.S 0) = (rungsVal n, .ok ()) := by
  have hn : noFields (E.S.msg 0) = [] := by rw [hS]; rfl
  have hcr : checkRequired (E.S.msg 0) [] (E.S.msg 0).fields = .ok () := by rw [hS]; rfl
  have hz : zeroMsg E.S 0 = .msg [.nil] [] [] := by rw [hS]; rfl
  have hb := le_ladder n
  have h1 := ladder_loop hS hA hal n (ladder n).length (ladder n) 0 hF (by omega) rfl 0 ((ladder n).length + 1) (by omega) .nil [] (.inr ⟨rfl, rfl⟩) (by simp)
  unfold unmarshalVT
  show unmarshalBody E (unmarshalN E (ladder n).length) 0 0 (ladder n) _ = _
  unfold unmarshalBody
  rw [UM.bind_def, hn, hz, h1]
  simp only
  rw [hcr, UM.lift_ok_bind, if_neg (by omega)]
  rfl

end

end Vtp
