import Verif.Spec.Volume
import Verif.Lemmas.Safe
/-! Decoding adds to the volume of the message what the bytes read pay for. -/

namespace Vtp
open Spec

theorem volumes_append (xs ys : List Val) : volumes (xs ++ ys) = volumes xs + volumes ys := by
  induction xs with
  | nil => simp [volumes]
  | cons x xs ih => simp only [List.cons_append, volumes, ih]; omega

theorem volumes_tail (xs : List Val) : volumes xs.tail ≤ volumes xs := by
  cases xs <;> simp [volumes]

theorem volumes_set (s : List Val) (i : Nat) (v : Val) : volumes (s.set i v) + volume (s.getD i .nil) ≤ volumes s + volume v := by
  induction s generalizing i with
  | nil => simp [volumes, volume]
  | cons x xs ih =>
    cases i with
    | zero => simp [volumes]; omega
    | succ i =>
      have := ih i
      simp only [List.set_cons_succ, volumes, List.getD_cons_succ]
      omega

theorem volume_set (s : List Val) (u e : Bytes) (i : Nat) (v : Val) :
    volume (.msg (s.set i v) u e) + volume (s.getD i .nil) ≤ volume (.msg s u e) + volume v := by
  have := volumes_set s i v
  simp only [volume]; omega

theorem volumes_le (l : List Val) (h : ∀ v ∈ l, volume v ≤ 1) : volumes l ≤ l.length := by
  induction l with
  | nil => simp [volumes]
  | cons x xs ih =>
    have := h x (by simp)
    have := ih fun v hv => h v (by simp [hv])
    simp only [volumes, List.length_cons]; omega

theorem zeroField_volume (f : FieldDesc) : volume (zeroField f) ≤ 1 := by
  unfold zeroField
  split
  · simp [volume]
  · cases f.kind <;> simp [zeroScalar, volume]

theorem zeroMsg_volume (S : Schema) (t : Nat) : volume (zeroMsg S t) ≤ 1 + (S.msg t).nslots := by
  unfold zeroMsg
  have := volumes_le ((List.range (S.msg t).nslots).map (zeroSlot (S.msg t))) (by
    intro v hv
    obtain ⟨i, -, rfl⟩ := List.mem_map.1 hv
    unfold zeroSlot
    split
    · exact zeroField_volume _
    · simp [volume])
  simp only [List.length_map, List.length_range] at this
  simp only [volume, List.length_nil]; omega

/-! ## Budgets -/

/-- With a budget of `p`, whatever the outcome; if it is a result `a`, then a budget `q` with `Q a q` is left. -/
def Pays {α : Type} (p : Nat) (x : UM α) (Q : α → Nat → Prop) : Prop := ∀ m, volume (x m).1 ≤ volume m + p ∧
  ∀ a, (x m).2 = .ok a → ∃ q, Q a q ∧ volume (x m).1 + q ≤ volume m + p

namespace Pays
variable {α β : Type} {p : Nat}

theorem bind {x : UM α} {f : α → UM β} {Q : α → Nat → Prop} {Q' : β → Nat → Prop} (h : Pays p x Q) (hf : ∀ a q, Q a q → Pays q (f a) Q') : Pays p (x >>= f) Q' := by
  intro m
  have h1 := h m
  rw [UM.bind_def]
  generalize x m = r at h1
  obtain ⟨m', r⟩ := r
  cases r with
  | ok a =>
    obtain ⟨h2, h3⟩ := h1
    obtain ⟨q, h4, h5⟩ := h3 a rfl
    obtain ⟨h6, h7⟩ := hf a q h4 m'
    simp only at h5 ⊢
    refine ⟨by omega, fun b hb => ?_⟩
    obtain ⟨q', h8, h9⟩ := h7 b hb
    exact ⟨q', h8, by omega⟩
  | err e => exact ⟨h1.1, fun _ h => (nomatch h)⟩
  | panic e => exact ⟨h1.1, fun _ h => (nomatch h)⟩
  | diverge => exact ⟨h1.1, fun _ h => (nomatch h)⟩

theorem lift {r : Res α} {Q : α → Nat → Prop} (h : ∀ a, r = .ok a → ∃ q, Q a q ∧ q ≤ p) : Pays p (UM.lift r) Q :=
  fun m => ⟨by simp, fun a ha => by obtain ⟨q, h1, h2⟩ := h a ha; exact ⟨q, h1, by simpa using h2⟩⟩

theorem lift_bind {r : Res α} {f : α → UM β} {Q : β → Nat → Prop} (h : ∀ a, r = .ok a → Pays p (f a) Q) : Pays p (UM.lift r >>= f) Q := by
  refine Pays.bind (Q := fun a q => r = .ok a ∧ q = p) (.lift fun a ha => ⟨p, ⟨ha, rfl⟩, Nat.le_refl _⟩) ?_
  rintro a q ⟨h1, rfl⟩
  exact h a h1

theorem pure {a : α} {Q : α → Nat → Prop} {q : Nat} (h : Q a q) (hq : q ≤ p) : Pays p (Pure.pure a : UM α) Q :=
  fun m => ⟨by simp, fun b hb => by simp at hb; cases hb; exact ⟨q, h, by simpa using hq⟩⟩

theorem mono {x : UM α} {Q Q' : α → Nat → Prop} (h : Pays p x Q) (hq : ∀ a q, Q a q → ∃ q', Q' a q' ∧ q' ≤ q) : Pays p x Q' := by
  intro m
  refine ⟨(h m).1, fun a ha => ?_⟩
  obtain ⟨q, h1, h2⟩ := (h m).2 a ha
  obtain ⟨q', h3, h4⟩ := hq a q h1
  exact ⟨q', h3, by omega⟩

theorem more {x : UM α} {Q : α → Nat → Prop} {p' : Nat} (h : Pays p x Q) (hp : p ≤ p') : Pays p' x Q := by
  intro m
  refine ⟨by have := (h m).1; omega, fun a ha => ?_⟩
  obtain ⟨q, h1, h2⟩ := (h m).2 a ha
  exact ⟨q, h1, by omega⟩

/-- A piece of code that spends at most `c` and says nothing. -/
theorem spend {x : UM Unit} {f : Unit → UM β} {Q : β → Nat → Prop} {c : Nat} (h : ∀ m, volume (x m).1 ≤ volume m + c) (hc : c ≤ p)
    (hf : Pays (p - c) (f ()) Q) : Pays p (x >>= f) Q := by
  refine Pays.bind (Q := fun _ q => q = p - c) (fun m => ⟨by have := h m; omega, fun a _ => ⟨_, rfl, by have := h m; omega⟩⟩) ?_
  rintro ⟨⟩ q rfl
  exact hf

end Pays

theorem setSlot_volume (slot : Nat) (v : Val) (m : Val) : volume (setSlot slot v m).1 ≤ volume m + volume v := by
  cases m <;> simp only [setSlot] <;> try omega
  rename_i s u e
  have := volume_set s u e slot v
  omega

/-- Code that replaces the value of a struct field. -/
theorem update_volume {α : Type} {slot c : Nat} {f : Val → UM α} (h : ∀ s m, volume (f s m).1 ≤ volume m ∨ ∃ v, (f s m).1 = (setSlot slot v m).1 ∧ volume v ≤ volume s + c)
    (m : Val) : volume ((getSlot slot >>= f) m).1 ≤ volume m + c := by
  rw [UM.bind_def]
  cases m <;> simp only [getSlot] <;> try omega
  rename_i s u e
  rcases h (s.getD slot .nil) (.msg s u e) with h1 | ⟨v, h1, h2⟩
  · omega
  · rw [h1]
    have := volume_set s u e slot v
    simp only [setSlot]
    omega

/-! ## The decoder -/

theorem spend_bytes {K L i j : Nat} (h1 : i < j) (h2 : j ≤ L) {c : Nat} (hc : c ≤ K) : K * (L - j) + c ≤ K * (L - i) := by
  have : K * (L - i) = K * (L - j) + K * (j - i) := by rw [← Nat.mul_add]; congr 1; omega
  have : K * 1 ≤ K * (j - i) := Nat.mul_le_mul_left _ (by omega)
  omega

theorem spend_span {K L i j k : Nat} (h1 : i < j) (h2 : j ≤ k) (h3 : k ≤ L) : K * (L - k) + K * (1 + (k - j)) ≤ K * (L - i) := by
  rw [← Nat.mul_add]; exact Nat.mul_le_mul_left _ (by omega)

theorem store_volume (f : FieldDesc) (v m : Val) : volume (store f v m).1 ≤ volume m + (2 + volume v) := by
  unfold store
  split
  · have := setSlot_volume f.slot (.wrap f.num v) m
    simp only [volume] at this
    omega
  · split
    · refine update_volume (c := 2 + volume v) (fun s m => ?_) m
      cases s <;> simp only [appendVal]
      case nil => exact .inr ⟨_, rfl, by simp [volume, volumes]; try omega⟩
      case list xs sp =>
        refine .inr ⟨_, rfl, ?_⟩
        have := volumes_tail sp
        simp only [volume, volumes_append, volumes, List.length_append, List.length_singleton]; omega
      all_goals exact .inl (Nat.le_refl _)
    · have := setSlot_volume f.slot v m
      omega

section
variable {E : UEnv} {K L : Nat}

/-- The price of a byte, in inputs of at most `L` bytes. -/
structure Price (E : UEnv) (K L : Nat) : Prop where
  arch : E.A.Valid
  pools : ∀ off t, (E.S.msg t).pooled = true → volume (E.alloc off t) + 3 ≤ K
  maps : SmallMaps E.S ∨ (NoMessageMaps E.S ∧ 2 * L + 4 ≤ K)
  fields : ∀ t, (E.S.msg t).nslots + 4 ≤ K
  runtime : ∀ t b v, E.R.unmarshal t b = some v → volume v + 2 ≤ K * (1 + b.length)
  ext : ∀ t b v, E.R.unmarshalPartial t b = some v → volume v ≤ K * b.length

def RecPays (K : Nat) (rec : SubDec) (L : Nat) : Prop := ∀ off t b m, b.length ≤ L → volume (rec off t b m).1 ≤ volume m + K * b.length

theorem keep_length (off : Nat) (b : Bytes) : (E.keep off b).length ≤ b.length := by
  unfold UEnv.keep
  split
  · simp
  · exact Nat.le_refl _

theorem newSub_volume (hP : Price E K L) (d : MsgDesc) (off t : Nat) : volume (newSub E d off t) + 3 ≤ K := by
  have := zeroMsg_volume E.S t
  have := hP.fields t
  unfold newSub
  split
  · rename_i h
    exact hP.pools off t (by simp at h; exact h.2)
  · omega

/-- A message decoded into one that was there, or into a new one. -/
theorem decodeMessage_volume (hP : Price E K L) {rec : SubDec} {M : Nat} (hr : RecPays K rec M) (off t : Nat) {b : Bytes} (hb : b.length ≤ M) (m : Val) : volume (decodeMessage E rec off t b m).1 ≤ volume m + K * b.length ∨
      volume (decodeMessage E rec off t b m).1 + 2 ≤ K * (1 + b.length) := by
  unfold decodeMessage
  split
  · split
    · left; simp
    · cases h : E.R.unmarshal t b with
      | none => left; simp
      | some v => right; exact hP.runtime t b v h
  · exact .inl (hr off t b m hb)

theorem messageItem_volume (hP : Price E K L) {rec : SubDec} {M : Nat} (hr : RecPays K rec M) (d : MsgDesc) (f : FieldDesc) (off : Nat) {b : Bytes}
    (hb : b.length ≤ M) (m : Val) : volume (messageItem E rec d f off b m).1 ≤ volume m + K * (1 + b.length) := by
  unfold messageItem
  refine update_volume (fun s m => ?_) m
  have hz := newSub_volume hP d off f.msg
  have hz' : volume (zeroMsg E.S f.msg) + 3 ≤ K := by
    have := zeroMsg_volume E.S f.msg
    have := hP.fields f.msg
    omega
  have hK : K * (1 + b.length) = K + K * b.length := by rw [Nat.mul_add, Nat.mul_one]
  -- what the struct field holds afterwards
  have key : ∀ x, subTarget E d f off s = .ok x → ∀ x', (volume x' ≤ volume x + K * b.length ∨ volume x' + 2 ≤ K * (1 + b.length)) →
      volume (subAssign f s x') ≤ volume s + K * (1 + b.length) := by
    intro x hx x' hx'
    unfold subTarget at hx
    unfold subAssign
    split at hx
    · rename_i ho
      rw [if_pos ho]
      cases s <;> simp only [Res.ok.injEq] at hx
      case wrap n y =>
        simp only [volume]
        split at hx <;> subst hx <;> omega
      case wrapNil n =>
        split at hx
        · cases hx
        · cases hx; simp only [volume]; omega
      all_goals subst hx; simp only [volume]; omega
    · rename_i ho
      rw [if_neg ho]
      split at hx
      · rename_i hc
        rw [if_pos hc]
        cases s <;> simp only [Res.ok.injEq, reduceCtorEq] at hx
        case nil => subst hx; simp only [volume, volumes, List.length_singleton]; omega
        case list xs sp =>
          have := volumes_tail sp
          split at hx
          · cases sp with
            | nil => cases hx; simp only [volume, volumes_append, volumes, List.tail_nil, List.length_append, List.length_singleton]; omega
            | cons y sp =>
              simp only [Res.ok.injEq] at hx
              simp only [volume, volumes_append, volumes, List.tail_cons, List.length_append, List.length_singleton]
              split at hx <;> subst hx <;> omega
          · cases hx
            simp only [volume, volumes_append, volumes, List.length_append, List.length_singleton]; omega
      · rename_i hc
        rw [if_neg hc]
        simp only [Res.ok.injEq] at hx
        split at hx
        · subst hx; omega
        · subst hx; omega
  cases hx : subTarget E d f off s with
  | ok x =>
    have hx' := decodeMessage_volume hP hr off f.msg hb x
    have hk := key x hx
    simp only [UM.lift_ok_bind]
    generalize decodeMessage E rec off f.msg b x = r at hx' hk
    obtain ⟨x', r⟩ := r
    have hk := hk x' hx'
    simp only
    split
    · cases r with
      | ok _ => exact .inr ⟨_, rfl, hk⟩
      | err e => exact .inl (Nat.le_refl _)
      | panic e => exact .inl (Nat.le_refl _)
      | diverge => exact .inl (Nat.le_refl _)
    · refine .inr ⟨_, ?_, hk⟩
      rw [UM.bind_def]
      cases m <;> rfl
  | err e => exact .inl (Nat.le_refl _)
  | panic e => exact .inl (Nat.le_refl _)
  | diverge => exact .inl (Nat.le_refl _)

/-! ### Maps -/

theorem mapItem_isNum {E : UEnv} {rec : SubDec} {k : Kind} (hk : numeric k = true) {t : Nat} {d : Bytes} {base i : Nat} {old v : Val} {j : Nat}
    (h : mapItem E rec k t d base i old = .ok (v, j)) : ∃ n, v = .num n := by
  have hv : ∀ (w : Nat) (acc : BitVec w) (conv : BitVec w → BitVec 64),
      (do let (v, j) ← decodeVarintLoop w d 11 0 i acc; Res.ok (Val.num (conv v), j)) = .ok (v, j) → ∃ n, v = .num n := by
    intro w acc conv h
    obtain ⟨⟨a, b⟩, -, h2⟩ := Res.bind_eq_ok.1 h
    cases h2; exact ⟨_, rfl⟩
  have hn : (do let (v, j) ← readNum E.A k d i; Res.ok (Val.num v, j)) = .ok (v, j) → ∃ n, v = .num n := by
    intro h
    obtain ⟨⟨a, b⟩, -, h2⟩ := Res.bind_eq_ok.1 h
    cases h2; exact ⟨_, rfl⟩
  unfold mapItem at h
  cases k <;> simp only [numeric, Bool.false_eq_true] at hk <;> simp only at h
  case int64 => exact hv 64 _ id h
  case uint64 => exact hv 64 _ id h
  case int32 => exact hv 32 _ _ h
  case enum => exact hv 32 _ _ h
  case uint32 => exact hv 32 _ _ h
  all_goals exact hn h

theorem entryLoop_num {rec : SubDec} {md : MapDesc} (hk : numeric md.key = true) (hv : numeric md.val = true) {d : Bytes} {base post : Nat} :
    ∀ (n i : Nat) (key val k v : Val), (∃ n, key = .num n) → (∃ n, val = .num n) →
      entryLoop E rec md d base post n i key val = .ok (k, v) → (∃ n, k = .num n) ∧ ∃ n, v = .num n := by
  intro n
  induction n with
  | zero => intro i key val k v _ _ h; cases h
  | succ n ih =>
    intro i key val k v h1 h2 h
    rw [entryLoop] at h
    split at h
    · obtain ⟨⟨wire, j⟩, -, h⟩ := Res.bind_eq_ok.1 h
      simp only at h
      split at h
      · obtain ⟨⟨key', j'⟩, h3, h⟩ := Res.bind_eq_ok.1 h
        exact ih _ _ _ _ _ (mapItem_isNum hk h3) h2 h
      · split at h
        · obtain ⟨⟨val', j'⟩, h3, h⟩ := Res.bind_eq_ok.1 h
          exact ih _ _ _ _ _ h1 (mapItem_isNum hv h3) h
        · obtain ⟨j', h3, h⟩ := Res.bind_eq_ok.1 h
          exact ih _ _ _ _ _ h1 h2 h
    · cases h; exact ⟨h1, h2⟩

theorem slice_volume {d b : Bytes} {i j : Nat} (h : slice d i j = .ok b) : b.length ≤ d.length := by
  unfold slice at h
  split at h
  · cases h; simp
  · cases h

theorem mapItem_volume {E : UEnv} {rec : SubDec} {k : Kind} (hk : k ≠ .message) {t : Nat} {d : Bytes} {base i : Nat} {old v : Val} {j : Nat}
    (h : mapItem E rec k t d base i old = .ok (v, j)) : volume v ≤ 1 + d.length := by
  by_cases hn : numeric k = true
  · obtain ⟨n, rfl⟩ := mapItem_isNum hn h
    simp [volume]
  · unfold mapItem at h
    cases k <;> simp only [numeric, not_true_eq_false] at hn <;> simp only [reduceCtorEq] at h
    case message => exact absurd rfl hk
    case string =>
      obtain ⟨⟨i', post⟩, -, h⟩ := Res.bind_eq_ok.1 h
      obtain ⟨b, h1, h⟩ := Res.bind_eq_ok.1 h
      cases h
      have := keep_length (E := E) (base + i') b
      have := slice_volume h1
      simp only [volume]; omega
    case bytes =>
      obtain ⟨⟨n, i'⟩, -, h⟩ := Res.bind_eq_ok.1 h
      obtain ⟨⟨i', post⟩, -, h⟩ := Res.bind_eq_ok.1 h
      simp only at h
      split at h
      · cases h
      · obtain ⟨b, h1, h⟩ := Res.bind_eq_ok.1 h
        cases h
        have := keep_length (E := E) (base + i') b
        have := slice_volume h1
        simp only [volume]; omega

theorem entryLoop_volume {rec : SubDec} {md : MapDesc} (hk : md.key ≠ .message) (hv : md.val ≠ .message) {d : Bytes} {base post : Nat} :
    ∀ (n i : Nat) (key val k v : Val), volume key ≤ 1 + d.length → volume val ≤ 1 + d.length →
      entryLoop E rec md d base post n i key val = .ok (k, v) → volume k ≤ 1 + d.length ∧ volume v ≤ 1 + d.length := by
  intro n
  induction n with
  | zero => intro i key val k v _ _ h; cases h
  | succ n ih =>
    intro i key val k v h1 h2 h
    rw [entryLoop] at h
    split at h
    · obtain ⟨⟨wire, j⟩, -, h⟩ := Res.bind_eq_ok.1 h
      simp only at h
      split at h
      · obtain ⟨⟨key', j'⟩, h3, h⟩ := Res.bind_eq_ok.1 h
        exact ih _ _ _ _ _ (mapItem_volume hk h3) h2 h
      · split at h
        · obtain ⟨⟨val', j'⟩, h3, h⟩ := Res.bind_eq_ok.1 h
          exact ih _ _ _ _ _ h1 (mapItem_volume hv h3) h
        · obtain ⟨j', h3, h⟩ := Res.bind_eq_ok.1 h
          exact ih _ _ _ _ _ h1 h2 h
    · cases h; exact ⟨h1, h2⟩

/-- Key and value of an entry. -/
theorem entry_volume (hP : Price E K L) {rec : SubDec} {t : Nat} {f : FieldDesc} (hf : f ∈ (E.S.msg t).fields) {md : MapDesc} (hm : f.map = some md) (hkey : md.key ≠ .message)
    {d : Bytes} (hd : d.length ≤ L) {base i post : Nat} {k v : Val}
    (h : entryLoop E rec md d base post (d.length + 1) i (zeroScalar md.key) (zeroScalar md.val) = .ok (k, v)) :
    keyVolume (toKey k) + volume v + 2 ≤ K := by
  have hK := hP.fields t
  rcases hP.maps with h0 | ⟨h0, h1⟩
  · obtain ⟨hk, hv⟩ := h0 t f hf md hm
    have hz : ∀ k, numeric k = true → ∃ n, zeroScalar k = .num n := by
      intro k hk; cases k <;> simp [numeric, zeroScalar] at hk ⊢
    obtain ⟨⟨n, rfl⟩, ⟨n2, rfl⟩⟩ := entryLoop_num hk hv _ _ _ _ _ _ (hz _ hk) (hz _ hv) h
    simp only [toKey, keyVolume, volume]; omega
  · have hz : ∀ k, volume (zeroScalar k) ≤ 1 + d.length := by
      intro k; cases k <;> simp [zeroScalar, volume]
    obtain ⟨h2, h3⟩ := entryLoop_volume hkey (h0 t f hf md hm) _ _ _ _ _ _ (hz _) (hz _) h
    have : keyVolume (toKey k) ≤ 1 + d.length := by
      cases k <;> simp only [toKey, keyVolume, volume] at h2 ⊢ <;> omega
    omega

theorem mapInsert_volume (es : List (Key × Val)) (k : Key) (v : Val) : entriesVolume (mapInsert es k v) ≤ entriesVolume es + (keyVolume k + volume v) := by
  induction es with
  | nil => simp [mapInsert, entriesVolume]
  | cons e es ih =>
    obtain ⟨k', v'⟩ := e
    rw [mapInsert]
    split
    · simp only [entriesVolume]; omega
    · simp only [entriesVolume]; omega

theorem mapEntry_volume (hP : Price E K L) {rec : SubDec} {t : Nat} {f : FieldDesc} (hf : f ∈ (E.S.msg t).fields) {md : MapDesc} (hm : f.map = some md) (hkey : md.key ≠ .message)
    {d : Bytes} (hd : d.length ≤ L) (base i post : Nat) (m : Val) : volume (mapEntry E rec f md d base i post m).1 ≤ volume m + (K - 1) := by
  have hK := hP.fields t
  unfold mapEntry
  refine update_volume (c := K - 1) (fun s m => ?_) m
  have hs : volume (if s.isNil then .map [] else s) ≤ volume s + 1 := by
    split
    · simp [volume, entriesVolume]
    · omega
  generalize (if s.isNil then Val.map [] else s) = s' at hs
  simp only
  cases m with
  | msg sl u e =>
    cases hl : entryLoop E rec md d base post (d.length + 1) i (zeroScalar md.key) (zeroScalar md.val) with
    | ok r =>
      obtain ⟨k, v⟩ := r
      have h1 := entry_volume hP hf hm hkey hd hl
      right
      rw [UM.bind_def]
      simp only [setSlot, UM.lift_ok_bind, mapPut]
      cases s' <;> simp only [UM.lift_def]
      case map es =>
        refine ⟨.map (mapInsert es (toKey k) v), ?_, ?_⟩
        · simp [setSlot]
        · have := mapInsert_volume es (toKey k) v
          simp only [volume] at hs this ⊢
          omega
      all_goals exact ⟨_, rfl, by omega⟩
    | err e => exact .inr ⟨_, rfl, by omega⟩
    | panic e => exact .inr ⟨_, rfl, by omega⟩
    | diverge => exact .inr ⟨_, rfl, by omega⟩
  | _ => left; rw [UM.bind_def]; exact Nat.le_refl _

/-! ### Fields and records -/

/-- What is left after reading up to `j`. -/
def Left (K L i : Nat) (j q : Nat) : Prop := i < j ∧ j ≤ L ∧ q = K * (L - j)

theorem groupLoop_pays {rec : SubDec} {f : FieldDesc} {wire : BitVec 64} (hw : (wire &&& 7).toNat ≠ 4) {d : Bytes} {base start : Nat} {p : Nat} {Q : Nat → Nat → Prop} :
    ∀ n i, Pays p (groupLoop E rec f wire d base start n i) Q := by
  intro n
  induction n with
  | zero => intro i; exact .lift fun _ h => (nomatch h)
  | succ n ih =>
    intro i
    rw [groupLoop]
    refine .lift_bind fun r _ => ?_
    obtain ⟨x, j⟩ := r
    simp only [hw, if_false]
    refine .lift_bind fun b _ => .lift_bind fun k _ => ?_
    split
    · exact .lift fun _ h => (nomatch h)
    · exact ih _

theorem fieldItem_pays (hP : Price E K L) (hS : schemaOK E.S = true) {rec : SubDec} {b : Bytes} (hL : b.length ≤ L) (hF : E.A.Fits b.length) (hr : RecPays K rec b.length) {t : Nat} {f : FieldDesc} (hf : f ∈ (E.S.msg t).fields)
    (p3 : Bool) {wire : BitVec 64} (hw : (wire &&& 7).toNat ≠ 4) (base : Nat) {i : Nat} (hi : i ≤ b.length)
    {p : Nat} (hp : K * (b.length - i) ≤ p) (hp3 : p3 = true → K * (b.length - i) + 1 ≤ p) :
    Pays p (fieldItem E rec (E.S.msg t) f p3 wire b base i) (Left K b.length i) := by
  have hK := hP.fields t
  have hstr : ∀ w, Pays p (do
      let (i, post) ← UM.lift (readSpan E.A w b i)
      let s ← UM.lift (slice b i post)
      store f (.str (E.keep (base + i) s))
      pure post : UM Nat) (Left K b.length i) := by
    intro w
    refine .lift_bind fun r hr => ?_
    obtain ⟨j, k⟩ := r
    have hs := readSpan_all hP.arch w hF i
    rw [hr] at hs
    simp only [Res.All] at hs
    obtain ⟨h1, h2, h3⟩ := hs
    simp only [slice_all h2 h3, UM.lift_ok_bind]
    have h4 := spend_span (K := K) h1 h2 h3
    have h5 : 3 + (k - j) ≤ K * (1 + (k - j)) := by
      have : 3 * (1 + (k - j)) ≤ K * (1 + (k - j)) := Nat.mul_le_mul_right _ (by omega)
      omega
    refine .spend (c := 3 + (k - j)) (fun m => ?_) (by omega) ?_
    · have h6 := store_volume f (.str (E.keep (base + j) ((b.drop j).take (k - j)))) m
      have h7 := keep_length (E := E) (base + j) ((b.drop j).take (k - j))
      simp only [volume, List.length_take, List.length_drop] at h6 h7
      omega
    · exact .pure (q := K * (b.length - k)) ⟨by omega, h3, rfl⟩ (by omega)
  have hnum : ∀ k, k = f.kind → numeric k = true → Pays p (do
      if !f.oneof && f.card != .repeated && p3 && !f.synthetic then
        match direct E.A k b i with
        | some v => setSlot f.slot (.num v)
        | none => pure ()
      let (v, i) ← UM.lift (readNum E.A k b i)
      store f (.num v)
      pure i : UM Nat) (Left K b.length i) := by
    intro k _ hk
    have hread : ∀ p, K * (b.length - i) ≤ p → Pays p (do
      let (v, i) ← UM.lift (readNum E.A k b i)
      store f (.num v)
      pure i : UM Nat) (Left K b.length i) := by
      intro p hp
      refine .lift_bind fun r hr => ?_
      obtain ⟨v, j⟩ := r
      have hs := readNum_all hP.arch hk hF hi
      rw [hr] at hs
      simp only [Res.All] at hs
      obtain ⟨h1, h2, -⟩ := hs
      have h4 := spend_bytes (K := K) h1 h2 (c := 3) (by omega)
      simp only
      refine .spend (c := 3) (fun m => by have := store_volume f (.num v) m; simp only [volume] at this; omega) (by omega) ?_
      exact .pure (q := K * (b.length - j)) ⟨h1, h2, rfl⟩ (by omega)
    split
    · rename_i hc
      simp only [Bool.and_eq_true] at hc
      have hp' := hp3 hc.1.2
      cases direct E.A k b i with
      | some v => exact .spend (c := 1) (fun m => by have := setSlot_volume f.slot (.num v) m; simpa [volume] using this) (by omega) (hread _ (by omega))
      | none => exact hread _ hp
    · exact hread _ hp
  unfold fieldItem
  cases hk : f.kind <;> simp only
  case string => exact hstr 64
  case bytes => exact hstr E.A.bits
  case group => exact groupLoop_pays hw _ _
  case message =>
    refine .lift_bind fun r hr' => ?_
    obtain ⟨j, k⟩ := r
    have hs := readSpan_all hP.arch E.A.bits hF i
    rw [hr'] at hs
    simp only [Res.All] at hs
    obtain ⟨h1, h2, h3⟩ := hs
    have h4 := spend_span (K := K) h1 h2 h3
    have h5 : K ≤ K * (1 + (k - j)) := Nat.le_mul_of_pos_right _ (by omega)
    have h6 : Pays (p - K * (1 + (k - j))) (pure k : UM Nat) (Left K b.length i) := .pure (q := K * (b.length - k)) ⟨by omega, h3, rfl⟩ (by omega)
    simp only
    cases hm : f.map with
    | some md => exact .spend (c := K - 1) (fun m => mapEntry_volume hP hf hm (mapKeyKind_scalar ((schemaOK_msg hS t).fields f hf |>.map md hm).2.2.1).1 hL base j k m) (by omega) (h6.more (by omega))
    | none =>
      simp only [slice_all h2 h3, UM.lift_ok_bind]
      refine .spend (c := K * (1 + (k - j))) (fun m => ?_) (by omega) h6
      have := messageItem_volume hP hr (E.S.msg t) f (base + j) (b := (b.drop j).take (k - j)) (by simp) m
      rwa [show ((b.drop j).take (k - j)).length = k - j by simp; omega] at this
  all_goals exact hnum _ hk.symm rfl

/-- What is left after reading to `j`, possibly nothing. -/
def LeftFrom (K L i : Nat) (j q : Nat) : Prop := i ≤ j ∧ j ≤ L ∧ q = K * (L - j)

theorem packedLoop_pays (hP : Price E K L) (hS : schemaOK E.S = true) {rec : SubDec} {b : Bytes} (hL : b.length ≤ L) (hF : E.A.Fits b.length) (hr : RecPays K rec b.length) {t : Nat} {f : FieldDesc} (hf : f ∈ (E.S.msg t).fields)
    {wire : BitVec 64} (hw : (wire &&& 7).toNat ≠ 4) (base post : Nat) : ∀ n i, i ≤ b.length →
    Pays (K * (b.length - i)) (packedLoop E rec (E.S.msg t) f wire b base post n i) (LeftFrom K b.length i) := by
  intro n
  induction n with
  | zero => intro i _; exact .lift fun _ h => (nomatch h)
  | succ n ih =>
    intro i hi
    rw [packedLoop]
    split
    · refine (fieldItem_pays hP hS hL hF hr hf false hw base hi (Nat.le_refl _) (by simp)).bind ?_
      rintro j q ⟨h1, h2, rfl⟩
      refine (ih j h2).mono ?_
      rintro k q ⟨h3, h4, rfl⟩
      exact ⟨_, ⟨by omega, h4, rfl⟩, Nat.le_refl _⟩
    · exact .pure (q := K * (b.length - i)) ⟨Nat.le_refl _, hi, rfl⟩ (Nat.le_refl _)

theorem prealloc_volume (f : FieldDesc) (count : Nat) (m : Val) : volume (prealloc f count m).1 ≤ volume m + 1 := by
  unfold prealloc
  split
  · refine update_volume (c := 1) (fun s m => ?_) m
    split
    · exact .inr ⟨_, rfl, by simp [volume, volumes]⟩
    · exact .inl (Nat.le_refl _)
  · simp

theorem fieldCase_pays (hP : Price E K L) (hS : schemaOK E.S = true) {rec : SubDec} {b : Bytes} (hL : b.length ≤ L) (hF : E.A.Fits b.length) (hr : RecPays K rec b.length) {t : Nat} {f : FieldDesc} (hf : f ∈ (E.S.msg t).fields)
    {wire : BitVec 64} (hw : (wire &&& 7).toNat ≠ 4) (base : Nat) {i : Nat} (hi : i ≤ b.length) :
    Pays (K * (b.length - i) + 1) (fieldCase E rec (E.S.msg t) f wire b base i) (Left K b.length i) := by
  have hK := hP.fields t
  unfold fieldCase
  simp only
  split
  · split
    · exact fieldItem_pays hP hS hL hF hr hf false hw base hi (by omega) (by simp)
    · split
      · refine .lift_bind fun r hr' => ?_
        obtain ⟨j, k⟩ := r
        have hs := readSpan_all hP.arch E.A.bits hF i
        rw [hr'] at hs
        simp only [Res.All] at hs
        obtain ⟨h1, h2, h3⟩ := hs
        simp only [slice_all h2 h3, UM.lift_ok_bind]
        have h4 := spend_bytes (K := K) h1 (Nat.le_trans h2 h3) (c := 1) (by omega)
        refine .spend (c := 1) (fun m => prealloc_volume _ _ m) (by omega) ?_
        refine ((packedLoop_pays hP hS hL hF hr hf hw base k (b.length + 1) j (by omega)).more (by omega)).mono ?_
        rintro l q ⟨h5, h6, rfl⟩
        exact ⟨_, ⟨by omega, h6, rfl⟩, Nat.le_refl _⟩
      · exact .lift fun _ h => (nomatch h)
  · split
    · exact .lift fun _ h => (nomatch h)
    · exact fieldItem_pays hP hS hL hF hr hf _ hw base hi (by omega) (fun _ => Nat.le_refl _)

theorem unknownCase_pays (hP : Price E K L) {b : Bytes} (hF : E.A.Fits b.length) (t num : Nat) {i : Nat} (hi : i ≤ b.length) :
    Pays (K * (b.length - i)) (unknownCase E t num b i) (Left K b.length i) := by
  have hK := hP.fields t
  unfold unknownCase
  refine .lift_bind fun j hj => ?_
  have hs := skipAt_all hP.arch hF (limit := b.length) hi
  rw [hj] at hs
  simp only [Res.All] at hs
  obtain ⟨h1, h2⟩ := hs
  have h3 : K * (b.length - i) = K * (b.length - j) + K * (j - i) := by rw [← Nat.mul_add]; congr 1; omega
  have hlen : ((b.drop i).take (j - i)).length = j - i := by simp; omega
  have hend : Pays (K * (b.length - i) - K * (j - i)) (pure j : UM Nat) (Left K b.length i) := .pure (q := K * (b.length - j)) ⟨h1, h2, rfl⟩ (by omega)
  simp only [slice_all (Nat.le_of_lt h1) h2, UM.lift_ok_bind]
  split
  · refine .spend (c := K * (j - i)) (fun m => ?_) (by omega) hend
    cases m <;> simp only [runtimePartial] <;> try omega
    split
    · rename_i v hv
      have := hP.ext _ _ _ hv
      rw [hlen] at this
      simp only; omega
    · simp only; omega
  · have h4 : j - i ≤ K * (j - i) := Nat.le_mul_of_pos_left _ (by omega)
    split
    · refine .spend (c := K * (j - i)) (fun m => ?_) (by omega) hend
      cases m <;> simp only [appendUnknown] <;> try omega
      simp only [volume, List.length_append, hlen]; omega
    · exact hend.more (by omega)

theorem recordStep_pays (hP : Price E K L) (hS : schemaOK E.S = true) {rec : SubDec} {b : Bytes} (hL : b.length ≤ L) (hF : E.A.Fits b.length) (hr : RecPays K rec b.length) (t base : Nat) {i : Nat} (hi : i ≤ b.length) (has : List (BitVec 64)) :
    Pays (K * (b.length - i)) (recordStep E rec t b base i has) (fun r q => Left K b.length i r.1 q) := by
  have hK := hP.fields t
  unfold recordStep
  refine .lift_bind fun r hr' => ?_
  obtain ⟨wire, j⟩ := r
  have hs := decodeVarint_all 64 b i
  rw [hr'] at hs
  simp only [Res.All] at hs
  obtain ⟨h1, h2⟩ := hs
  simp only
  split
  · exact .lift fun _ h => (nomatch h)
  · rename_i hw
    split
    · exact .lift fun _ h => (nomatch h)
    · split
      · rename_i f hfind
        have h4 := spend_bytes (K := K) h1 h2 (c := 1) (by omega)
        refine ((fieldCase_pays hP hS hL hF hr (List.mem_of_find?_eq_some hfind) hw base h2).more h4).bind ?_
        rintro k q ⟨h5, h6, rfl⟩
        refine .lift_bind fun has' _ => ?_
        exact .pure (q := K * (b.length - k)) ⟨by show i < k; omega, h6, rfl⟩ (Nat.le_refl _)
      · refine (unknownCase_pays hP hF t _ hi).bind ?_
        rintro k q h5
        exact .pure (q := q) h5 (Nat.le_refl _)

theorem recordLoop_pays (hP : Price E K L) (hS : schemaOK E.S = true) {rec : SubDec} {b : Bytes} (hL : b.length ≤ L) (hF : E.A.Fits b.length) (hr : RecPays K rec b.length) (t base : Nat) : ∀ n i has, i ≤ b.length →
    Pays (K * (b.length - i)) (recordLoop E rec t b base n i has) (fun _ _ => True) := by
  intro n
  induction n with
  | zero => intro i _ _; exact .lift fun _ h => (nomatch h)
  | succ n ih =>
    intro i has hi
    rw [recordLoop]
    split
    · refine (recordStep_pays hP hS hL hF hr t base hi has).bind ?_
      rintro ⟨j, has'⟩ q ⟨h1, h2, rfl⟩
      exact ih j has' h2
    · exact .pure (q := 0) trivial (by omega)

theorem unmarshalN_volume (hP : Price E K L) (hS : schemaOK E.S = true) (hF : E.A.Fits L) : ∀ n, RecPays K (unmarshalN E n) L
  | 0 => fun _ _ _ _ _ => by simp [unmarshalN]
  | n + 1 => by
    intro base t b m hb
    have hF' : E.A.Fits b.length := by unfold Arch.Fits at *; omega
    have hr : RecPays K (unmarshalN E n) b.length := fun off t c m hc => unmarshalN_volume hP hS hF n off t c m (by omega)
    have h1 := recordLoop_pays hP hS hb hF' hr t base (b.length + 1) 0 (noFields (E.S.msg t)) (Nat.zero_le _)
    have h2 : Pays (K * (b.length - 0)) (unmarshalBody E (unmarshalN E n) base t b) (fun _ _ => True) := by
      unfold unmarshalBody
      refine h1.bind ?_
      rintro ⟨i, has⟩ q -
      refine .lift_bind fun _ _ => ?_
      split
      · exact .lift fun _ h => (nomatch h)
      · exact .pure (q := 0) trivial (by omega)
    exact (h2 m).1

end

end Vtp
