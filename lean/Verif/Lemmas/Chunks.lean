import Verif.Spec.Chunks
import Verif.Lemmas.Has
import Verif.Lemmas.SimEq
import Verif.Lemmas.Steps
/-! What one record of any accepted input does. -/

namespace Vtp
open Spec

/-! ## Only one struct field changes -/

/-- The code changes no more than the struct field in `slot`, whatever the outcome. -/
def Only (slot : Nat) {α : Type} (x : UM α) : Prop := ∀ s u e, ∃ s' r, x (.msg s u e) = (.msg s' u e, r) ∧ s'.length = s.length ∧
  ∀ k, k ≠ slot → s'.getD k .nil = s.getD k .nil

namespace Only
variable {slot : Nat} {α β : Type}

theorem lift (r : Res α) : Only slot (UM.lift r) := fun s _ _ => ⟨s, r, rfl, rfl, fun _ _ => rfl⟩

theorem pure (a : α) : Only slot (Pure.pure a : UM α) := fun s _ _ => ⟨s, .ok a, rfl, rfl, fun _ _ => rfl⟩

theorem bind {x : UM α} {f : α → UM β} (h : Only slot x) (hf : ∀ a, Only slot (f a)) : Only slot (x >>= f) := by
  intro s u e
  obtain ⟨s1, r, h1, h2, h3⟩ := h s u e
  rw [UM.bind_def, h1]
  cases r with
  | ok a =>
    obtain ⟨s2, r, h4, h5, h6⟩ := hf a s1 u e
    exact ⟨s2, r, h4, by rw [h5, h2], fun k hk => by rw [h6 k hk, h3 k hk]⟩
  | err _ => exact ⟨s1, _, rfl, h2, h3⟩
  | panic _ => exact ⟨s1, _, rfl, h2, h3⟩
  | diverge => exact ⟨s1, _, rfl, h2, h3⟩

theorem get (k : Nat) : Only slot (getSlot k) := fun s u e => ⟨s, _, rfl, rfl, fun _ _ => rfl⟩

theorem set (v : Val) : Only slot (setSlot slot v) := fun s u e => ⟨_, _, rfl, by simp, fun k hk => by
  rw [List.getD_eq_getElem?_getD, List.getD_eq_getElem?_getD, List.getElem?_set_ne (fun h => hk h.symm)]⟩

end Only

theorem only_store (f : FieldDesc) (v : Val) : Only f.slot (store f v) := by
  unfold store
  split
  · exact .set _
  · split
    · exact (Only.get _).bind fun _ => (Only.lift _).bind fun _ => .set _
    · exact .set _

theorem only_prealloc (f : FieldDesc) (n : Nat) : Only f.slot (prealloc f n) := by
  unfold prealloc
  split
  · refine (Only.get _).bind fun _ => ?_
    split
    · exact .set _
    · exact .pure _
  · exact .pure _

section
variable {E : UEnv} {rec : SubDec}

theorem only_mapEntry (f : FieldDesc) (md : MapDesc) (d : Bytes) (base i post : Nat) : Only f.slot (mapEntry E rec f md d base i post) := by
  unfold mapEntry
  refine (Only.get _).bind fun s => (Only.set _).bind fun _ => (Only.lift _).bind fun q => ?_
  simp only
  unfold mapPut
  split
  · exact .set _
  · exact .lift _

theorem only_groupLoop (f : FieldDesc) (wire : BitVec 64) (d : Bytes) (base start : Nat) : ∀ n i, Only f.slot (groupLoop E rec f wire d base start n i)
  | 0, _ => .lift _
  | n + 1, i => by
    unfold groupLoop
    refine (Only.lift _).bind fun q => ?_
    simp only
    split
    · refine (Only.lift _).bind fun _ => (Only.get _).bind fun v => ?_
      exact (Only.set _).bind fun _ => (Only.lift _).bind fun _ => .pure _
    · refine (Only.lift _).bind fun _ => (Only.lift _).bind fun k => ?_
      split
      · exact .lift _
      · exact only_groupLoop f wire d base start n _

theorem only_messageItem (d : MsgDesc) (f : FieldDesc) (off : Nat) (b : Bytes) : Only f.slot (messageItem E rec d f off b) := by
  unfold messageItem
  refine (Only.get _).bind fun s => (Only.lift _).bind fun x => ?_
  simp only
  split
  · exact (Only.lift _).bind fun _ => .set _
  · exact (Only.set _).bind fun _ => .lift _

theorem only_fieldItem (d : MsgDesc) (f : FieldDesc) (p3 : Bool) (wire : BitVec 64) (b : Bytes) (base i : Nat) : Only f.slot (fieldItem E rec d f p3 wire b base i) := by
  unfold fieldItem
  split
  · exact (Only.lift _).bind fun q => (Only.lift _).bind fun _ => (only_store _ _).bind fun _ => .pure _
  · exact (Only.lift _).bind fun q => (Only.lift _).bind fun _ => (only_store _ _).bind fun _ => .pure _
  · exact only_groupLoop _ _ _ _ _ _ _
  · refine (Only.lift _).bind fun q => ?_
    simp only
    split
    · exact (only_mapEntry _ _ _ _ _ _).bind fun _ => .pure _
    · exact (Only.lift _).bind fun _ => (only_messageItem _ _ _ _).bind fun _ => .pure _
  · dsimp only
    split
    · split
      · exact (Only.set _).bind fun _ => (Only.lift _).bind fun q => (only_store _ _).bind fun _ => .pure _
      · exact (Only.lift _).bind fun q => (only_store _ _).bind fun _ => .pure _
    · exact (Only.lift _).bind fun q => (only_store _ _).bind fun _ => .pure _

theorem only_packedLoop (d : MsgDesc) (f : FieldDesc) (wire : BitVec 64) (b : Bytes) (base post : Nat) : ∀ n i, Only f.slot (packedLoop E rec d f wire b base post n i)
  | 0, _ => .lift _
  | n + 1, i => by
    unfold packedLoop
    split
    · exact (only_fieldItem _ _ _ _ _ _ _).bind fun j => only_packedLoop d f wire b base post n j
    · exact .pure _

theorem only_fieldCase (d : MsgDesc) (f : FieldDesc) (wire : BitVec 64) (b : Bytes) (base i : Nat) : Only f.slot (fieldCase E rec d f wire b base i) := by
  unfold fieldCase
  simp only
  split
  · split
    · exact only_fieldItem _ _ _ _ _ _ _
    · split
      · exact (Only.lift _).bind fun q => (Only.lift _).bind fun _ => (only_prealloc _ _).bind fun _ => only_packedLoop _ _ _ _ _ _ _ _
      · exact .lift _
  · split
    · exact .lift _
    · exact only_fieldItem _ _ _ _ _ _ _

/-! ## Members of oneofs -/

/-- If the code ends well the struct field holds the member `n` of the oneof. -/
def Sets (slot n : Nat) {α : Type} (x : UM α) : Prop := ∀ s u e m' a, slot < s.length → x (.msg s u e) = (m', .ok a) →
  ∃ s' v, m' = .msg s' u e ∧ s'.getD slot .nil = .wrap n v

theorem Sets.bind {slot n : Nat} {α β : Type} {x : UM α} {f : α → UM β} (hx : Only slot x) (h : ∀ a, Sets slot n (f a)) : Sets slot n (x >>= f) := by
  intro s u e m' b hs hb
  obtain ⟨s1, r, h1, h2, -⟩ := hx s u e
  obtain ⟨m1, a, h3, h4⟩ := UM.bind_eq hb
  rw [h1] at h3
  cases h3
  exact h a s1 u e m' b (by omega) h4

theorem Sets.pure_after {slot n : Nat} {α β : Type} {x : UM α} {f : α → β} (h : Sets slot n x) : Sets slot n (x >>= fun a => (Pure.pure (f a) : UM β)) := by
  intro s u e m' b hs hb
  obtain ⟨m1, a, h3, h4⟩ := UM.bind_eq hb
  cases h4
  exact h s u e m' a hs h3

theorem Sets.set {slot n : Nat} (v : Val) : Sets slot n (setSlot slot (.wrap n v)) := by
  intro s u e m' a hs h
  cases h
  exact ⟨_, v, rfl, by rw [List.getD_eq_getElem?_getD, List.getElem?_set_self hs]; rfl⟩

theorem sets_store {f : FieldDesc} (ho : f.oneof = true) (v : Val) : Sets f.slot f.num (store f v) := by
  unfold store
  rw [if_pos ho]
  exact .set v

theorem sets_messageItem {f : FieldDesc} (ho : f.oneof = true) (d : MsgDesc) (off : Nat) (b : Bytes) : Sets f.slot f.num (messageItem E rec d f off b) := by
  have hA : ∀ s x, subAssign f s x = .wrap f.num x := fun s x => by simp [subAssign, ho]
  unfold messageItem
  refine Sets.bind (Only.get _) fun s => Sets.bind (Only.lift _) fun x => ?_
  simp only [hA]
  split
  · exact Sets.bind (Only.lift _) fun _ => .set _
  · intro s u e m' a hs h
    obtain ⟨m1, q, hq, h2⟩ := UM.bind_eq h
    obtain ⟨rfl, -⟩ := UM.lift_eq h2
    exact Sets.set _ s u e _ _ hs hq

theorem sets_fieldItem {f : FieldDesc} (ho : f.oneof = true) (hg : f.kind ≠ .group) (hmap : f.map = none) (d : MsgDesc) (p3 : Bool) (wire : BitVec 64) (b : Bytes)
    (base i : Nat) : Sets f.slot f.num (fieldItem E rec d f p3 wire b base i) := by
  unfold fieldItem
  split
  · exact Sets.bind (Only.lift _) fun q => Sets.bind (Only.lift _) fun _ => (sets_store ho _).pure_after
  · exact Sets.bind (Only.lift _) fun q => Sets.bind (Only.lift _) fun _ => (sets_store ho _).pure_after
  · rename_i h; exact absurd h hg
  · refine Sets.bind (Only.lift _) fun q => ?_
    simp only [hmap]
    exact Sets.bind (Only.lift _) fun _ => (sets_messageItem ho _ _ _).pure_after
  · dsimp only
    rw [if_neg (by simp [ho])]
    exact Sets.bind (Only.lift _) fun q => (sets_store ho _).pure_after

theorem sets_fieldCase {d : MsgDesc} (hM : MsgFacts d) {f : FieldDesc} (hmem : f ∈ d.fields) (ho : f.oneof = true) (wire : BitVec 64) (b : Bytes)
    (base i : Nat) : Sets f.slot f.num (fieldCase E rec d f wire b base i) := by
  obtain ⟨h1, -, -, h2⟩ := (hM.fields f hmem).oneof ho
  have hmap : f.map = none := by
    cases hm : f.map with
    | none => rfl
    | some md => exact absurd (h1.symm.trans ((hM.fields f hmem).map md hm).1) (by simp)
  unfold fieldCase
  simp only
  rw [if_neg (by simp [FieldDesc.isList, h1])]
  split
  · intro s u e m' a _ h
    cases h
  · exact sets_fieldItem ho h2 hmap _ _ _ _ _ _

/-! ## The bytes a field takes -/

/-- What follows the tag in a record of wire type `wt`. -/
def LooseTail (w wt : Nat) (bs : Bytes) : Prop :=
  (wt = 0 ∧ AnyVarint bs) ∨ (wt = 1 ∧ bs.length = 8) ∨ (wt = 5 ∧ bs.length = 4) ∨
    (wt = 2 ∧ ∃ lb c, bs = lb ++ c ∧ AnyVarint lb ∧ seenInt w lb = c.length)

theorem LooseTail.record {w wt : Nat} {tag bs : Bytes} (h : LooseTail w wt bs) (ht : AnyVarint tag) (hw : varintValue tag % 8 = wt) : LooseRecord w (tag ++ bs) := by
  rcases h with ⟨rfl, h⟩ | ⟨rfl, h⟩ | ⟨rfl, h⟩ | ⟨rfl, lb, c, rfl, h1, h2⟩
  · exact .varint _ _ ht hw h
  · exact .i64 _ _ ht hw h
  · exact .i32 _ _ ht hw h
  · exact .len _ _ _ ht hw h1 h2

/-- From index `i` to index `j` there are the bytes `bs`. -/
def Spans (b : Bytes) (i j : Nat) (bs : Bytes) : Prop := b.drop i = bs ++ b.drop j ∧ j = i + bs.length

theorem Spans.trans {b : Bytes} {i j k : Nat} {x y : Bytes} (h1 : Spans b i j x) (h2 : Spans b j k y) : Spans b i k (x ++ y) :=
  ⟨by rw [h1.1, h2.1, List.append_assoc], by rw [h2.2, h1.2, List.length_append]; omega⟩

theorem between_of_le {b : Bytes} {i j : Nat} (h : i ≤ j) (hj : j ≤ b.length) : Spans b i j ((b.drop i).take (j - i)) := by
  refine ⟨?_, by simp; omega⟩
  conv => lhs; rw [← List.take_append_drop (j - i) (b.drop i)]
  rw [List.drop_drop, show i + (j - i) = j by omega]

theorem decodeVarint_between {w : Nat} {b : Bytes} {i j : Nat} {v : BitVec w} (hi : i ≤ b.length) (h : decodeVarint w b i = .ok (v, j)) :
    ∃ bs, AnyVarint bs ∧ Spans b i j bs ∧ j ≤ b.length ∧ v = BitVec.ofNat w (varintValue bs) := by
  rcases decodeVarint_cases w b i hi with ⟨bs, h1, h2, h3, h4, h5⟩ | ⟨_, _, h5⟩ | ⟨_, _, h5⟩ <;> rw [h5] at h <;> cases h
  exact ⟨bs, ⟨h1, h2⟩, ⟨h3, rfl⟩, h4, rfl⟩

theorem decodeFixed_between {A : Arch} {n : Nat} {b : Bytes} {i j v : Nat} (h : decodeFixed A n b i = .ok (v, j)) :
    ∃ bs, bs.length = n ∧ Spans b i j bs ∧ j ≤ b.length := by
  unfold decodeFixed at h
  split at h
  · cases h
  · split at h
    · rename_i hl
      cases h
      have := between_of_le (b := b) (i := i) (j := i + n) (by omega) hl
      rw [show i + n - i = n by omega] at this
      exact ⟨_, by simp; omega, this, hl⟩
    · cases h

theorem wrap_seen {A : Arch} (hA : A.Valid) (w : Nat) (hw : w = 64 ∨ w = A.bits) (n : Nat) : A.wrap (BitVec.ofNat w n).toInt = (BitVec.ofNat A.bits n).toInt := by
  have hdvd : ((2 ^ A.bits : Nat) : Int) ∣ ((2 ^ w : Nat) : Int) := by
    rw [Int.natCast_dvd_natCast]
    rcases hw with rfl | rfl
    · exact Nat.pow_dvd_pow 2 (by rcases hA with h | h <;> rw [h] <;> decide)
    · exact Nat.dvd_refl _
  unfold Arch.wrap
  rw [BitVec.toInt_eq_toNat_bmod, BitVec.toInt_eq_toNat_bmod, BitVec.toNat_ofNat, BitVec.toNat_ofNat]
  have h1 : (((n % 2 ^ w : Nat) : Int).bmod (2 ^ w)).bmod (2 ^ A.bits) = ((n % 2 ^ w : Nat) : Int).bmod (2 ^ A.bits) := Int.bmod_bmod_of_dvd (by exact_mod_cast hdvd)
  have h2 : ∀ q, q ∣ 2 ^ w → ((n % 2 ^ w : Nat) : Int).bmod q = (n : Int).bmod q := by
    intro q hq
    rw [Int.bmod_def, Int.bmod_def, ← Int.natCast_mod, ← Int.natCast_mod, Nat.mod_mod_of_dvd _ hq]
  have h3 : ((n % 2 ^ A.bits : Nat) : Int).bmod (2 ^ A.bits) = (n : Int).bmod (2 ^ A.bits) := by
    rw [Int.bmod_def, Int.bmod_def, ← Int.natCast_mod, ← Int.natCast_mod, Nat.mod_mod]
  rw [h1, h2 _ (by exact_mod_cast hdvd), h3]

theorem readSpan_between {A : Arch} (hA : A.Valid) {w : Nat} (hw : w = 64 ∨ w = A.bits) {b : Bytes} (hF : A.Fits b.length) {i j k : Nat} (hi : i ≤ b.length)
    (h : readSpan A w b i = .ok (j, k)) : ∃ lb c, AnyVarint lb ∧ Spans b i j lb ∧ Spans b j k c ∧ k ≤ b.length ∧ seenInt A.bits lb = c.length := by
  have hall := readSpan_all hA w hF i
  rw [h] at hall
  obtain ⟨h1, h2, h3⟩ := hall
  simp only at h1 h2 h3
  unfold readSpan at h
  rcases hv : decodeVarint w b i with ⟨n, i'⟩ | _ | _ | _ <;> rw [hv] at h <;> simp only [Res.bind_ok, Res.bind_err, Res.bind_panic, Res.bind_diverge, reduceCtorEq] at h
  obtain ⟨lb, h4, h5, h6, h7⟩ := decodeVarint_between hi hv
  rw [h7, wrap_seen hA w hw] at h
  split at h
  · cases h
  · rename_i hneg
    split at h
    · cases h
    · rename_i hneg2
      split at h
      · cases h
      · rename_i hlen
        cases h
        refine ⟨lb, _, h4, h5, between_of_le h2 h3, h3, ?_⟩
        unfold seenInt
        simp only [List.length_take, List.length_drop]
        have hlt := bv_toInt_lt (A := A) (BitVec.ofNat A.bits (varintValue lb))
        generalize (BitVec.ofNat A.bits (varintValue lb)).toInt = L at *
        unfold Arch.Fits at hF
        have hp := two_pow_pred (n := A.bits) (by have := hA.pos; omega)
        rcases Arch.wrap_cases hA ((j : Int) + L) (by omega) (by omega) with ⟨h6, _⟩ | ⟨h6, _⟩
        · rw [h6] at h3 h2 ⊢
          omega
        · exact absurd h6 hneg2

theorem readNum_between {A : Arch} {k : Kind} {b : Bytes} {i j : Nat} {v : BitVec 64} (hi : i ≤ b.length) (h : readNum A k b i = .ok (v, j)) :
    numeric k = true ∧ ∃ bs, ElementBytes k bs ∧ Spans b i j bs ∧ j ≤ b.length := by
  have hvar : ∀ {w : Nat} {conv : BitVec w → BitVec 64}, wireType k = 0 →
      (do let (v, i) ← decodeVarint w b i; .ok (conv v, i) : Res (BitVec 64 × Nat)) = .ok (v, j) → ∃ bs, ElementBytes k bs ∧ Spans b i j bs ∧ j ≤ b.length := by
    intro w conv hk h
    rcases hv : decodeVarint w b i with ⟨n, i'⟩ | _ | _ | _ <;> rw [hv] at h <;> cases h
    obtain ⟨bs, h1, h2, h3, -⟩ := decodeVarint_between hi hv
    exact ⟨bs, .inl ⟨hk, h1⟩, h2, h3⟩
  have hfix : ∀ {n : Nat} {conv : Nat → BitVec 64}, (∀ bs : Bytes, bs.length = n → ElementBytes k bs) →
      (do let (v, i) ← decodeFixed A n b i; .ok (conv v, i) : Res (BitVec 64 × Nat)) = .ok (v, j) → ∃ bs, ElementBytes k bs ∧ Spans b i j bs ∧ j ≤ b.length := by
    intro n conv hk h
    rcases hv : decodeFixed A n b i with ⟨n, i'⟩ | _ | _ | _ <;> rw [hv] at h <;> cases h
    obtain ⟨bs, h1, h2, h3⟩ := decodeFixed_between hv
    exact ⟨bs, hk bs h1, h2, h3⟩
  cases k
  case double => exact ⟨rfl, hfix (fun _ h => .inr (.inl ⟨rfl, h⟩)) h⟩
  case float => exact ⟨rfl, hfix (fun _ h => .inr (.inr ⟨rfl, h⟩)) h⟩
  case fixed64 => exact ⟨rfl, hfix (fun _ h => .inr (.inl ⟨rfl, h⟩)) h⟩
  case sfixed64 => exact ⟨rfl, hfix (fun _ h => .inr (.inl ⟨rfl, h⟩)) h⟩
  case fixed32 => exact ⟨rfl, hfix (fun _ h => .inr (.inr ⟨rfl, h⟩)) h⟩
  case sfixed32 => exact ⟨rfl, hfix (conv := fun v => (BitVec.ofNat 32 v).signExtend 64) (fun _ h => .inr (.inr ⟨rfl, h⟩)) h⟩
  case bool => exact ⟨rfl, hvar (w := A.bits) (conv := fun v => if v = 0 then 0 else 1) rfl h⟩
  case sint32 => exact ⟨rfl, hvar (w := 32) (conv := fun v => (unzigzag32 v).signExtend 64) rfl h⟩
  case string => cases h
  case bytes => cases h
  case message => cases h
  case group => cases h
  all_goals exact ⟨rfl, hvar rfl h⟩

/-- If the code ends well its result has the property. -/
def Lands {α : Type} (P : α → Prop) (x : UM α) : Prop := ∀ m m' a, x m = (m', .ok a) → P a

theorem Lands.bind {α β : Type} {P : β → Prop} {x : UM α} {f : α → UM β} (h : ∀ a, Lands P (f a)) : Lands P (x >>= f) := by
  intro m m' b hb
  obtain ⟨m1, a, -, h4⟩ := UM.bind_eq hb
  exact h a _ _ _ h4

theorem Lands.lift_bind {α β : Type} {P : β → Prop} {x : Res α} {f : α → UM β} (h : ∀ a, x = .ok a → Lands P (f a)) : Lands P (UM.lift x >>= f) := by
  intro m m' b hb
  obtain ⟨m1, a, h3, h4⟩ := UM.bind_eq hb
  exact h a (UM.lift_eq h3).2 _ _ _ h4

theorem Lands.pure {α : Type} {P : α → Prop} {a : α} (h : P a) : Lands P (Pure.pure a : UM α) := by
  intro m m' b hb
  obtain ⟨-, rfl⟩ := UM.pure_eq hb
  exact h

theorem lands_fieldItem (hE : DecodeEnv E) {d : MsgDesc} {f : FieldDesc} {p3 : Bool} {wire : BitVec 64} (hw : (wire &&& 7).toNat ≠ 4) {b : Bytes}
    (hF : E.A.Fits b.length) {base i : Nat} (hi : i ≤ b.length) {P : Nat → Prop}
    (hs : ∀ w i' post, (w = 64 ∨ w = E.A.bits) → protoWireType f.kind = 2 → numeric f.kind = false → readSpan E.A w b i = .ok (i', post) → P post)
    (hn : ∀ v j, readNum E.A f.kind b i = .ok (v, j) → P j) : Lands P (fieldItem E rec d f p3 wire b base i) := by
  unfold fieldItem
  split
  · rename_i hk
    exact .lift_bind fun q hq => .bind fun _ => .bind fun _ => .pure (hs _ q.1 q.2 (.inl rfl) (by rw [hk]; rfl) (by rw [hk]; rfl) hq)
  · rename_i hk
    exact .lift_bind fun q hq => .bind fun _ => .bind fun _ => .pure (hs _ q.1 q.2 (.inr rfl) (by rw [hk]; rfl) (by rw [hk]; rfl) hq)
  · intro m m' j h
    obtain ⟨e, he⟩ := groupLoop_err hE rec f hw hF base i (b.length + 1) i (by omega)
    rw [he] at h
    cases h
  · rename_i hk
    refine .lift_bind fun q hq => ?_
    have hP := hs _ q.1 q.2 (.inr rfl) (by rw [hk]; rfl) (by rw [hk]; rfl) hq
    simp only
    split
    · exact .bind fun _ => .pure hP
    · exact .bind fun _ => .bind fun _ => .pure hP
  · have hr : Lands P (do let (v, i) ← UM.lift (readNum E.A f.kind b i); store f (.num v); Pure.pure i : UM Nat) :=
      .lift_bind fun q hq => .bind fun _ => .pure (hn q.1 q.2 hq)
    dsimp only
    split
    · split
      · exact .bind fun _ => hr
      · exact hr
    · exact hr

theorem fieldItem_between (hE : DecodeEnv E) {d : MsgDesc} {f : FieldDesc} {p3 : Bool} {wire : BitVec 64} (hw : (wire &&& 7).toNat ≠ 4) {b : Bytes}
    (hF : E.A.Fits b.length) {base i j : Nat} {m m' : Val} (hi : i ≤ b.length) (h : fieldItem E rec d f p3 wire b base i m = (m', .ok j)) :
    ∃ bs, LooseTail E.A.bits (protoWireType f.kind) bs ∧ Spans b i j bs ∧ j ≤ b.length ∧ (numeric f.kind = true → ElementBytes f.kind bs) := by
  have hlen : ∀ {w i' post}, (w = 64 ∨ w = E.A.bits) → readSpan E.A w b i = .ok (i', post) →
      ∃ bs, LooseTail E.A.bits 2 bs ∧ Spans b i post bs ∧ post ≤ b.length := by
    intro w i' post hw h
    obtain ⟨lb, c, h1, h2, h3, h4, h5⟩ := readSpan_between hE.arch hw hF hi h
    exact ⟨lb ++ c, .inr (.inr (.inr ⟨rfl, lb, c, rfl, h1, h5⟩)), h2.trans h3, h4⟩
  refine (lands_fieldItem hE hw hF hi (P := fun j => ∃ bs, LooseTail E.A.bits (protoWireType f.kind) bs ∧ Spans b i j bs ∧ j ≤ b.length ∧
    (numeric f.kind = true → ElementBytes f.kind bs)) ?_ ?_) _ _ _ h
  · intro w i' post hw2 hk hk' h
    obtain ⟨bs, h2, h3, h4⟩ := hlen hw2 h
    exact ⟨bs, by rw [hk]; exact h2, h3, h4, fun h => by rw [hk'] at h; cases h⟩
  · intro v j h
    obtain ⟨h1, bs, h2, h3, h4⟩ := readNum_between hi h
    refine ⟨bs, ?_, h3, h4, fun _ => h2⟩
    have : protoWireType f.kind = wireType f.kind := by cases f.kind <;> rfl
    rw [this]
    rcases h2 with h2 | h2 | h2
    · exact .inl h2
    · exact .inr (.inl h2)
    · exact .inr (.inr (.inl h2))

theorem packedLoop_between (hE : DecodeEnv E) {d : MsgDesc} {f : FieldDesc} {wire : BitVec 64} (hw : (wire &&& 7).toNat ≠ 4) (hk : numeric f.kind = true) {b : Bytes}
    (hF : E.A.Fits b.length) {base post : Nat} : ∀ {n i j : Nat} {m m' : Val}, i ≤ b.length → packedLoop E rec d f wire b base post n i m = (m', .ok j) →
    ∃ es : List Bytes, Spans b i j es.flatten ∧ j ≤ b.length ∧ (∀ e ∈ es, ElementBytes f.kind e) ∧ (post : Int) - i ≤ es.flatten.length ∧
      (es ≠ [] → (es.dropLast.flatten.length : Int) < (post : Int) - i)
  | 0, _, _, _, _, _, h => by cases h
  | n + 1, i, j, m, m', hi, h => by
    unfold packedLoop at h
    split at h
    · rename_i hlt
      obtain ⟨m1, k, h1, h2⟩ := UM.bind_eq h
      obtain ⟨bs, -, h3, h4, h5⟩ := fieldItem_between hE hw hF hi h1
      obtain ⟨es, h6, h7, h8, h9, h10⟩ := packedLoop_between hE hw hk hF h4 h2
      have hkk := h3.2
      refine ⟨bs :: es, h3.trans h6, h7, ?_, ?_, fun _ => ?_⟩
      · intro e he
        rcases List.mem_cons.1 he with rfl | he
        · exact h5 hk
        · exact h8 e he
      · simp only [List.flatten_cons, List.length_append]
        omega
      · cases es with
        | nil => simp; omega
        | cons x xs =>
          have := h10 (by simp)
          simp only [List.dropLast_cons_cons, List.flatten_cons, List.length_append] at this ⊢
          omega
    · obtain ⟨rfl, rfl⟩ := UM.pure_eq h
      exact ⟨[], ⟨by simp, by simp⟩, hi, by simp, by simp; omega, fun h => absurd rfl h⟩

theorem fieldCase_between (hE : DecodeEnv E) {d : MsgDesc} {f : FieldDesc} (hg : f.card = .repeated → f.kind ≠ .group) {wire : BitVec 64} (hw : (wire &&& 7).toNat ≠ 4) {b : Bytes}
    (hF : E.A.Fits b.length) {base i j : Nat} {m m' : Val} (hi : i ≤ b.length) (h : fieldCase E rec d f wire b base i m = (m', .ok j)) :
    ∃ bs, Spans b i j bs ∧ j ≤ b.length ∧ (LooseTail E.A.bits (wire &&& 7).toNat bs ∨
      (f.card = .repeated ∧ numeric f.kind = true ∧ (wire &&& 7).toNat = 2 ∧ ∃ lb es, bs = lb ++ es.flatten ∧ AnyVarint lb ∧ (∀ e ∈ es, ElementBytes f.kind e) ∧
        0 ≤ seenInt E.A.bits lb ∧ seenInt E.A.bits lb ≤ es.flatten.length ∧ (es ≠ [] → es.dropLast.flatten.length < seenInt E.A.bits lb))) := by
  unfold fieldCase at h
  simp only at h
  split at h
  · rename_i hl
    split at h
    · rename_i hwt
      obtain ⟨bs, h1, h2, h3, -⟩ := fieldItem_between hE hw hF hi h
      exact ⟨bs, h2, h3, .inl (by rw [hwt]; exact h1)⟩
    · split at h
      · rename_i hwt
        simp only [Bool.and_eq_true, bne_iff_ne, FieldDesc.isList, beq_iff_eq] at hl
        obtain ⟨m1, ⟨i', post⟩, h1, h⟩ := UM.bind_eq h
        obtain ⟨-, h1⟩ := UM.lift_eq h1
        simp only at h
        obtain ⟨m2, s, -, h⟩ := UM.bind_eq h
        obtain ⟨m3, u, -, h⟩ := UM.bind_eq h
        obtain ⟨lb, c, h2, h3, h4, h5, h6⟩ := readSpan_between hE.arch (.inr rfl) hF hi h1
        have hk : numeric f.kind = true ∨ f.kind = .group := by
          have := hl.2
          cases hkk : f.kind <;> rw [hkk] at this <;> simp [numeric, protoWireType] at this ⊢
        have hp := h4.2
        rcases hk with hk | hk
        · obtain ⟨es, h7, h8, h9, h10, h11⟩ := packedLoop_between hE hw hk hF (by omega) h
          refine ⟨lb ++ es.flatten, h3.trans h7, h8, .inr ⟨hl.1.1, hk, hwt, lb, es, rfl, h2, h9, by omega, by omega, fun he => ?_⟩⟩
          have := h11 he
          omega
        · exact absurd hk (hg hl.1.1)
      · cases h
  · split at h
    · cases h
    · rename_i hwt
      obtain ⟨bs, h1, h2, h3, -⟩ := fieldItem_between hE hw hF hi h
      exact ⟨bs, h2, h3, .inl (by rw [not_not.1 hwt]; exact h1)⟩

end

/-! ## One record -/

/-- What a chunk does to the message. -/
def Does (d : MsgDesc) (m : Val) (p : Chunk) (m' : Val) : Prop :=
  unknownOf m' = unknownOf m ++ (if d.keepUnknown = true ∧ fieldOf d p.num = none then p.raw else []) ∧
    (∀ f, ¬ Hits d p f → get m' f = get m f) ∧
    ∀ f ∈ d.fields, f.num = p.num → f.oneof = true → ∃ x, get m' f = .wrap f.num x

/-- The chunk is well formed. -/
def ChunkOK (w : Nat) (d : MsgDesc) (p : Chunk) : Prop :=
  p.Headed ∧ (LooseRecord w p.raw ∨ ∃ f, fieldOf d p.num = some f ∧ f.card = .repeated ∧ numeric f.kind = true ∧ PackedBytes w f.kind p.raw)

theorem tag_num {tag : Bytes} {wire : BitVec 64} (h : wire = BitVec.ofNat 64 (varintValue tag)) :
    ((wire >>> 3).setWidth 32 : BitVec 32).toNat = varintValue tag / 8 % 2 ^ 32 ∧ (wire &&& 7).toNat = varintValue tag % 8 := by
  subst h
  refine ⟨?_, ?_⟩
  · rw [BitVec.toNat_setWidth, BitVec.toNat_ushiftRight, BitVec.toNat_ofNat, Nat.shiftRight_eq_div_pow]
    omega
  · rw [BitVec.toNat_and, show (7 : BitVec 64).toNat = 2 ^ 3 - 1 from rfl, Nat.and_two_pow_sub_one_eq_mod]
    exact ofNat64_mod8 _

theorem num_pos {n : BitVec 32} (h : ¬ n.toInt ≤ 0) : 0 < n.toNat ∧ n.toNat < 2 ^ 31 := by
  have := n.isLt
  rw [BitVec.toInt_eq_toNat_cond] at h
  split at h <;> omega

theorem loose_tagged {w : Nat} {raw : Bytes} (h : LooseRecord w raw) : ∃ tag rest, raw = tag ++ rest ∧ AnyVarint tag := by
  cases h
  all_goals exact ⟨_, _, rfl, by assumption⟩

theorem skipAt_sound {A : Arch} (hA : A.Valid) {d : Bytes} (hf : A.Fits d.length) {i k : Nat} (hi : i ≤ d.length) (h : skipAt A d i d.length = .ok k) :
    LooseRecord A.bits ((d.drop i).take (k - i)) := by
  unfold skipAt at h
  rw [slice_all hi (Nat.le_refl _)] at h
  simp only [Res.bind_ok] at h
  rw [List.take_of_length_le (by simp)] at h
  have hf' : A.Fits (d.drop i).length := by unfold Arch.Fits at hf ⊢; simp; omega
  have hs := skip_lt hA _ hf'
  rcases hn : skip A (d.drop i) with n | _ | _ | _ <;> rw [hn] at h hs <;> try cases h
  simp only [Res.bind_ok] at h
  obtain ⟨h1, h2⟩ := hs
  split at h
  · cases h
  split at h
  · cases h
  unfold Arch.Fits at hf
  have hpos := hA.pos
  have h2p := two_pow_pred (n := A.bits) (by omega)
  simp only [Res.ok.injEq] at h
  have hk : k = i + n := by
    rcases Arch.wrap_cases hA (i + n) (by omega) (by omega) with h | h <;> omega
  rw [hk, Nat.add_sub_cancel_left]
  exact skip_sound A hA _ hf' n hn (by simp; omega)

theorem recordStep_chunk {E : UEnv} {rec : SubDec} {t : Nat} (hE : DecodeEnv E) {b : Bytes} (hr : RecSafe E rec b.length) (hF : E.A.Fits b.length) (hf : (E.S.msg t).foreign = false)
    (hx : (E.S.msg t).extRanges = []) {base i j : Nat} (hi : i ≤ b.length) {has has' : List (BitVec 64)} {seen : List Nat} (hm : Marked (E.S.msg t) has seen)
    {m m' : Val} (ht : Typed E.S t m) (h : recordStep E rec t b base i has m = (m', .ok (j, has'))) :
    ∃ p, ChunkOK E.A.bits (E.S.msg t) p ∧ Spans b i j p.raw ∧ i < j ∧ j ≤ b.length ∧ Marked (E.S.msg t) has' (seen ++ [p.num]) ∧ Typed E.S t m' ∧ Does (E.S.msg t) m p m' := by
  have hM := schemaOK_msg hE.schema t
  obtain ⟨hT, hij, hjl, -⟩ : Typed E.S t m' ∧ i < j ∧ j ≤ b.length ∧ _ := by
    have := safe_recordStep hE hr hF hf base hi hm.len m ht
    rw [h] at this
    exact this
  obtain ⟨s, u, e, rfl⟩ := ht.nonnil
  unfold recordStep at h
  replace h := UM.bind_eq h
  obtain ⟨m1, ⟨wire, j1⟩, h1, h⟩ := h
  replace h1 := UM.lift_eq h1
  obtain ⟨hme, h1⟩ := h1
  subst hme
  simp only at h
  split at h
  · cases h
  rename_i hw
  split at h
  · cases h
  rename_i hpos
  obtain ⟨hp1, hp2⟩ := num_pos hpos
  obtain ⟨tag, htag, hb1, hj1, hv⟩ := decodeVarint_between hi h1
  obtain ⟨hnum, hwt⟩ := tag_num hv
  cases hfind : (E.S.msg t).fields.find? (fun f => f.num == ((wire >>> 3).setWidth 32 : BitVec 32).toNat) with
  | some f =>
    rw [hfind] at h
    simp only at h
    have hmem := List.mem_of_find?_eq_some hfind
    have hfn : f.num = ((wire >>> 3).setWidth 32 : BitVec 32).toNat := by simpa using List.find?_some hfind
    replace h := UM.bind_eq h
    obtain ⟨m2, k, h2, h⟩ := h
    replace h := UM.bind_eq h
    obtain ⟨m3, has1, h3, h⟩ := h
    replace h3 := UM.lift_eq h3
    obtain ⟨hme, h3⟩ := h3
    subst hme
    replace h := UM.pure_eq h
    obtain ⟨rfl, h4⟩ := h
    cases h4
    obtain ⟨bs, hb2, hk, hbs⟩ := fieldCase_between hE (fun hc => ((hM.fields f hmem).rep hc).2.1) hw hF hj1 h2
    obtain ⟨s', r, ho1, ho2, ho3⟩ := only_fieldCase (E := E) (rec := rec) (E.S.msg t) f wire b base j1 s u e
    rw [h2] at ho1
    cases ho1
    obtain ⟨has2, hmk, hmk2⟩ := markField_marked hM hmem hm
    rw [h3] at hmk
    cases hmk
    have hfo : fieldOf (E.S.msg t) f.num = some f := by rw [fieldOf, hfn]; exact hfind
    refine ⟨⟨f.num, tag ++ bs⟩, ⟨⟨tag, bs, rfl, htag, by rw [hfn]; exact hnum, by simp only; rw [hfn]; exact hp1, by simp only; rw [hfn]; exact hp2⟩, ?_⟩, hb1.trans hb2, hij, hjl, hmk2, hT, ?_, ?_, ?_⟩
    · rcases hbs with hbs | ⟨hc, hn, hw2, lb, es, rfl, h5, h6, h7, h8, h9⟩
      · exact .inl (hbs.record htag hwt.symm)
      · exact .inr ⟨f, hfo, hc, hn, tag, lb, es, rfl, htag, by rw [← hwt]; exact hw2, h5, h6, h7, h8, h9⟩
    · simp [hfo, unknownOf]
    · intro g hg
      exact ho3 g.slot fun hs => hg ⟨f, hmem, rfl, hs.symm⟩
    · intro g hg hgn hgo
      obtain rfl := hM.num_inj hg hmem hgn
      obtain ⟨s2, v, h5, h6⟩ := sets_fieldCase hM hmem hgo wire b base j1 s u e _ _ (by
        rw [((typed_iff hf s u e).1 ht).1]
        exact (hM.fields g hg).slot) h2
      cases h5
      exact ⟨v, h6⟩
  | none =>
    rw [hfind] at h
    simp only at h
    replace h := UM.bind_eq h
    obtain ⟨m2, k, h2, h⟩ := h
    replace h := UM.pure_eq h
    obtain ⟨rfl, h4⟩ := h
    cases h4
    unfold unknownCase at h2
    simp only [hx, List.any_nil] at h2
    replace h2 := UM.bind_eq h2
    obtain ⟨m3, k, h3, h2⟩ := h2
    replace h3 := UM.lift_eq h3
    obtain ⟨hme, h3⟩ := h3
    subst hme
    rw [if_neg (by simp)] at h2
    replace h2 := UM.bind_eq h2
    obtain ⟨m4, raw, h4, h2⟩ := h2
    replace h4 := UM.lift_eq h4
    obtain ⟨hme, h4⟩ := h4
    subst hme
    have hkj : k = j ∧ m' = .msg s (u ++ if (E.S.msg t).keepUnknown = true then raw else []) e := by
      split at h2
      · rename_i hk
        replace h2 := UM.bind_eq h2
        obtain ⟨m5, _, h5, h2⟩ := h2
        replace h2 := UM.pure_eq h2
        obtain ⟨rfl, rfl⟩ := h2
        cases h5
        exact ⟨rfl, by rw [if_pos hk]⟩
      · rename_i hk
        replace h2 := UM.pure_eq h2
        obtain ⟨rfl, rfl⟩ := h2
        exact ⟨rfl, by rw [if_neg hk, List.append_nil]⟩
    obtain ⟨rfl, rfl⟩ := hkj
    rw [slice_all (by omega) hjl] at h4
    cases h4
    have hbt := between_of_le (b := b) (Nat.le_of_lt hij) hjl
    generalize hraw : (b.drop i).take (k - i) = raw at *
    have hl : LooseRecord E.A.bits raw := hraw ▸ skipAt_sound hE.arch hF hi h3
    have hfo : fieldOf (E.S.msg t) ((wire >>> 3).setWidth 32 : BitVec 32).toNat = none := hfind
    have hmk : Marked (E.S.msg t) has (seen ++ [((wire >>> 3).setWidth 32 : BitVec 32).toNat]) := by
      refine ⟨hm.len, fun f hf hc => ?_⟩
      rw [hm.bit f hf hc]
      simp only [List.mem_append, List.mem_singleton]
      refine ⟨.inl, fun h => h.resolve_right fun hn => ?_⟩
      have := List.find?_eq_none.1 hfind f hf
      simp [hn] at this
    refine ⟨⟨((wire >>> 3).setWidth 32 : BitVec 32).toNat, raw⟩, ⟨?_, .inl hl⟩, hbt, hij, hjl, hmk, hT, ?_, ?_, ?_⟩
    · obtain ⟨tag', rest, rfl, htag'⟩ := loose_tagged hl
      have hv' : decodeVarint 64 b i = .ok (BitVec.ofNat 64 (varintValue tag'), i + tag'.length) := by
        refine decodeVarint_of_leb 64 _ tag' (rest ++ b.drop k) _ htag'.1 htag'.2 ?_
        rw [hbt.1, List.append_assoc]
      rw [h1] at hv'
      cases hv'
      exact ⟨tag', rest, rfl, htag', (tag_num rfl).1, hp1, hp2⟩
    · simp only [hfo, unknownOf, and_true]
    · intro f hf
      rfl
    · intro f hf hn
      have := List.find?_eq_none.1 hfind f hf
      simp [hn] at this

/-! ## All records -/

/-- What chunks do one after the other. -/
inductive DoesAll (d : MsgDesc) : Val → List Chunk → Val → Prop where
  | nil (m : Val) : DoesAll d m [] m
  | cons {m m1 m' : Val} {p : Chunk} {ps : List Chunk} : Does d m p m1 → DoesAll d m1 ps m' → DoesAll d m (p :: ps) m'

theorem recordLoop_chunks {E : UEnv} {rec : SubDec} {t : Nat} (hE : DecodeEnv E) {b : Bytes} (hr : RecSafe E rec b.length) (hF : E.A.Fits b.length) (hf : (E.S.msg t).foreign = false)
    (hx : (E.S.msg t).extRanges = []) {base : Nat} : ∀ {n i j : Nat} {has has' : List (BitVec 64)} {seen : List Nat} {m m' : Val}, i ≤ b.length → Marked (E.S.msg t) has seen →
    Typed E.S t m → recordLoop E rec t b base n i has m = (m', .ok (j, has')) →
    ∃ ps : List Chunk, (∀ p ∈ ps, ChunkOK E.A.bits (E.S.msg t) p) ∧ (ps.map (·.raw)).flatten = b.drop i ∧ Marked (E.S.msg t) has' (seen ++ ps.map (·.num)) ∧ DoesAll (E.S.msg t) m ps m'
  | 0, _, _, _, _, _, _, _, _, _, _, h => by cases h
  | n + 1, i, j, has, has', seen, m, m', hi, hm, ht, h => by
    rw [recordLoop] at h
    split at h
    · obtain ⟨m1, ⟨j1, has1⟩, h1, h⟩ := UM.bind_eq h
      simp only at h
      obtain ⟨p, h2, h3, h4, h5, h6, h7, h8⟩ := recordStep_chunk hE hr hF hf hx hi hm ht h1
      obtain ⟨ps, g1, g2, g3, g4⟩ := recordLoop_chunks hE hr hF hf hx h5 h6 h7 h
      refine ⟨p :: ps, by simpa using ⟨h2, g1⟩, ?_, by simpa using g3, .cons h8 g4⟩
      rw [List.map_cons, List.flatten_cons, g2, ← h3.1]
    · obtain ⟨rfl, h⟩ := UM.pure_eq h
      cases h
      exact ⟨[], by simp, by simp [List.drop_eq_nil_of_le (show b.length ≤ i by omega)], by simpa using hm, .nil _⟩

theorem DoesAll.unknown {d : MsgDesc} {m m' : Val} {ps : List Chunk} (h : DoesAll d m ps m') :
    unknownOf m' = unknownOf m ++ (if d.keepUnknown = true then ((ps.filter fun p => fieldOf d p.num == none).map (·.raw)).flatten else []) := by
  induction h with
  | nil m => simp
  | @cons m m1 m' p ps h1 h2 ih =>
    rw [ih, h1.1, List.append_assoc]
    congr 1
    by_cases hk : d.keepUnknown = true
    · by_cases hp : fieldOf d p.num = none
      · simp [hk, hp]
      · simp [hk, hp]
    · simp [hk]

theorem DoesAll.untouched {d : MsgDesc} {m m' : Val} {ps : List Chunk} (h : DoesAll d m ps m') (f : FieldDesc) (hf : ∀ p ∈ ps, ¬ Hits d p f) : get m' f = get m f := by
  induction h with
  | nil m => rfl
  | @cons m m1 m' p ps h1 h2 ih =>
    rw [ih fun q hq => hf q (List.mem_cons_of_mem _ hq), h1.2.1 f (hf p (by simp))]

theorem DoesAll.member {d : MsgDesc} {m m' : Val} {ps qs : List Chunk} {p : Chunk} (h : DoesAll d m (ps ++ p :: qs) m') {f : FieldDesc} (hf : f ∈ d.fields) (ho : f.oneof = true)
    (hp : p.num = f.num) (hq : ∀ q ∈ qs, ¬ Hits d q f) : ∃ x, get m' f = .wrap f.num x := by
  induction ps generalizing m with
  | nil =>
    cases h with
    | cons h1 h2 =>
      obtain ⟨x, hx⟩ := h1.2.2 f hf hp.symm ho
      exact ⟨x, by rw [h2.untouched f hq, hx]⟩
  | cons r ps ih =>
    cases h with
    | cons h1 h2 => exact ih h2

end Vtp
