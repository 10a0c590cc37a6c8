import Verif.Spec.Made
import Verif.Lemmas.Chunks
/-! What decoding makes. -/

namespace Vtp
open Spec

/-! ## Before and after, for one struct field -/

/-- If the code ends well and the struct field had the property `P`, it has the property `Q`; nothing else than struct fields changes. -/
def FP (slot : Nat) (P Q : Val → Prop) {α : Type} (x : UM α) : Prop := ∀ s u e m' a, slot < s.length → P (s.getD slot .nil) →
  x (.msg s u e) = (m', .ok a) → ∃ s', m' = .msg s' u e ∧ s'.length = s.length ∧ Q (s'.getD slot .nil)

namespace FP
variable {slot : Nat} {P Q T : Val → Prop} {α β : Type}

theorem bind {x : UM α} {f : α → UM β} (h : FP slot P T x) (hf : ∀ a, FP slot T Q (f a)) : FP slot P Q (x >>= f) := by
  intro s u e m' b hs hp hb
  obtain ⟨m1, a, h3, h4⟩ := UM.bind_eq hb
  obtain ⟨s1, rfl, h1, h2⟩ := h s u e _ _ hs hp h3
  obtain ⟨s2, h5, h6, h7⟩ := hf a s1 u e _ _ (by omega) h2 h4
  exact ⟨s2, h5, by omega, h7⟩

theorem lift_bind {x : Res α} {f : α → UM β} (hf : ∀ a, x = .ok a → FP slot P Q (f a)) : FP slot P Q (UM.lift x >>= f) := by
  intro s u e m' b hs hp hb
  obtain ⟨m1, a, h3, h4⟩ := UM.bind_eq hb
  obtain ⟨rfl, h5⟩ := UM.lift_eq h3
  exact hf a h5 s u e _ _ hs hp h4

theorem pure_after {x : UM α} {f : α → β} (h : FP slot P Q x) : FP slot P Q (x >>= fun a => (Pure.pure (f a) : UM β)) := by
  intro s u e m' b hs hp hb
  obtain ⟨m1, a, h3, h4⟩ := UM.bind_eq hb
  obtain ⟨rfl, -⟩ := UM.pure_eq h4
  exact h s u e _ _ hs hp h3

theorem pure {a : α} (h : ∀ v, P v → Q v) : FP slot P Q (Pure.pure a : UM α) := by
  intro s u e m' b hs hp hb
  obtain ⟨rfl, -⟩ := UM.pure_eq hb
  exact ⟨s, rfl, rfl, h _ hp⟩

theorem lift {r : Res α} (h : ∀ v a, r = .ok a → P v → Q v) : FP slot P Q (UM.lift r) := by
  intro s u e m' b hs hp hb
  obtain ⟨rfl, hc⟩ := UM.lift_eq hb
  exact ⟨s, rfl, rfl, h _ _ hc hp⟩

theorem get_bind {f : Val → UM β} (h : ∀ v, P v → FP slot (fun w => w = v) Q (f v)) : FP slot P Q (getSlot slot >>= f) := by
  intro s u e m' b hs hp hb
  obtain ⟨m1, a, h3, h4⟩ := UM.bind_eq hb
  cases h3
  exact h _ hp s u e _ _ hs rfl h4

theorem set {v : Val} (h : Q v) : FP slot P Q (setSlot slot v) := by
  intro s u e m' b hs hp hb
  cases hb
  refine ⟨_, rfl, by simp, ?_⟩
  rw [List.getD_eq_getElem?_getD, List.getElem?_set_self hs]
  exact h

theorem weaken {P' : Val → Prop} {x : UM α} (h : FP slot P Q x) (hp : ∀ v, P' v → P v) : FP slot P' Q x :=
  fun s u e m' a hs hv hx => h s u e m' a hs (hp _ hv) hx

end FP

/-! ## Made at any depth -/

section
variable {E : UEnv} {rec : SubDec} {w L : Nat}

/-- A message with its required fields, at any depth. -/
def Made (w : Nat) (S : Schema) (R : Runtime) (t : Nat) (v : Val) : Prop := ∀ n, MadeN w S R n t v

/-- A message, perhaps without its required fields, those in it with theirs. -/
def Part (w : Nat) (S : Schema) (R : Runtime) (t : Nat) (v : Val) : Prop := ∀ n, PartMade w S R (MadeN w S R n) t v

/-- What a field holds, at any depth. -/
def Slot (w : Nat) (S : Schema) (R : Runtime) (f : FieldDesc) (v : Val) : Prop := ∀ n, SlotMade S R (MadeN w S R n) f v

/-- What a field holds after a record of it. -/
def Post (w : Nat) (S : Schema) (R : Runtime) (f : FieldDesc) (v : Val) : Prop :=
  Slot w S R f v ∧ (f.card = .required → v ≠ .nil) ∧ (f.oneof = true → ∃ x, v = .wrap f.num x)

theorem Made.part {S : Schema} {R : Runtime} {t : Nat} {v : Val} (h : Made w S R t v) : Part w S R t v := fun n => (h (n + 1)).1

theorem part_iff {S : Schema} {R : Runtime} {t : Nat} {s : List Val} {u e : Bytes} :
    Part w S R t (.msg s u e) ↔ s.length = (S.msg t).nslots ∧ ((S.msg t).keepUnknown = true → LooseUnknown w (S.msg t) u) ∧ ∀ f ∈ (S.msg t).fields, Slot w S R f (slotOf s f) := by
  constructor
  · intro h
    obtain ⟨s', u', e', h1, h2, h3, -⟩ := h 0
    cases h1
    refine ⟨h2, h3, fun f hf n => ?_⟩
    obtain ⟨s', u', e', h1, -, -, h2⟩ := h n
    cases h1
    exact h2 f hf
  · rintro ⟨h1, h3, h2⟩ n
    exact ⟨s, u, e, rfl, h1, h3, fun f hf => h2 f hf n⟩

theorem made_of {S : Schema} {R : Runtime} {t : Nat} {s : List Val} {u e : Bytes} (h : Part w S R t (.msg s u e))
    (hr : ∀ f ∈ (S.msg t).fields, f.card = .required → slotOf s f ≠ .nil) : Made w S R t (.msg s u e)
  | 0 => trivial
  | n + 1 => ⟨h n, fun s' u' e' he => by cases he; exact hr⟩

/-- The element condition at any depth. -/
def Elem (w : Nat) (S : Schema) (R : Runtime) (k : Kind) (t : Nat) (v : Val) : Prop := ∀ n, MadeElem S R (MadeN w S R n) k t v

theorem elem_scalar {S : Schema} {R : Runtime} {k : Kind} (hk : k ≠ .message) (hg : k ≠ .group) (t : Nat) (v : Val) : Elem w S R k t v :=
  fun _ => ⟨hg, fun h => absurd h hk⟩

theorem elem_made {S : Schema} {R : Runtime} {t : Nat} {v : Val} (hf : (S.msg t).foreign = false) (h : Made w S R t v) : Elem w S R .message t v := by
  intro n
  refine ⟨by decide, fun _ => ⟨?_, fun h => (by rw [hf] at h; cases h), fun _ => h n⟩⟩
  obtain ⟨s, u, e, h1, -⟩ := (h 1).1
  exact ⟨s, u, e, h1⟩

theorem Elem.msg {S : Schema} {R : Runtime} {t : Nat} {v : Val} (h : Elem w S R .message t v) : ∃ s u e, v = .msg s u e := ((h 0).2 rfl).1

theorem Elem.made {S : Schema} {R : Runtime} {t : Nat} {v : Val} (h : Elem w S R .message t v) (hf : (S.msg t).foreign = false) : Made w S R t v :=
  fun n => ((h n).2 rfl).2.2 hf

theorem slot_nil (S : Schema) (R : Runtime) (f : FieldDesc) : Slot w S R f .nil := by
  intro n
  unfold SlotMade
  split
  · exact .inl rfl
  · split
    · exact .inl rfl
    · split <;> exact .inl rfl

theorem slot_oneof {S : Schema} {R : Runtime} {f : FieldDesc} (ho : f.oneof = true) {v : Val} :
    Slot w S R f v ↔ v = .nil ∨ ∃ n x, v = .wrap n x ∧ (n = f.num → Elem w S R f.kind f.msg x) := by
  constructor
  · intro h
    have h0 := h 0
    unfold SlotMade at h0
    rw [if_pos ho] at h0
    rcases h0 with h0 | ⟨n, x, rfl, -⟩
    · exact .inl h0
    · refine .inr ⟨n, x, rfl, fun hn k => ?_⟩
      have hk := h k
      unfold SlotMade at hk
      rw [if_pos ho] at hk
      rcases hk with hk | ⟨n', x', he, hk⟩
      · cases hk
      · cases he
        exact hk hn
  · intro h n
    unfold SlotMade
    rw [if_pos ho]
    rcases h with h | ⟨n', x, h1, h2⟩
    · exact .inl h
    · exact .inr ⟨n', x, h1, fun hn => h2 hn n⟩

theorem slot_map {S : Schema} {R : Runtime} {f : FieldDesc} (ho : f.oneof = false) {md : MapDesc} (hm : f.map = some md) {v : Val} :
    Slot w S R f v ↔ v = .nil ∨ ∃ es, v = .map es ∧ ∀ e ∈ es, ∀ n, MadeVal S R (MadeN w S R n) md e.2 := by
  constructor
  · intro h
    have h0 := h 0
    unfold SlotMade at h0
    rw [if_neg (by simp [ho]), hm] at h0
    rcases h0 with h0 | ⟨es, rfl, -⟩
    · exact .inl h0
    · refine .inr ⟨es, rfl, fun e he k => ?_⟩
      have hk := h k
      unfold SlotMade at hk
      rw [if_neg (by simp [ho]), hm] at hk
      rcases hk with hk | ⟨es', hh, hk⟩
      · cases hk
      · cases hh
        exact hk e he
  · intro h n
    unfold SlotMade
    rw [if_neg (by simp [ho]), hm]
    rcases h with h | ⟨es, h1, h2⟩
    · exact .inl h
    · exact .inr ⟨es, h1, fun e he => h2 e he n⟩

theorem slot_list {S : Schema} {R : Runtime} {f : FieldDesc} (ho : f.oneof = false) (hm : f.map = none) (hc : f.card = .repeated) {v : Val} :
    Slot w S R f v ↔ v = .nil ∨ ∃ xs sp, v = .list xs sp ∧ ∀ x ∈ xs, Elem w S R f.kind f.msg x := by
  constructor
  · intro h
    have h0 := h 0
    unfold SlotMade at h0
    rw [if_neg (by simp [ho]), hm] at h0
    simp only [hc, if_true] at h0
    rcases h0 with h0 | ⟨xs, sp, rfl, -⟩
    · exact .inl h0
    · refine .inr ⟨xs, sp, rfl, fun x hx k => ?_⟩
      have hk := h k
      unfold SlotMade at hk
      rw [if_neg (by simp [ho]), hm] at hk
      simp only [hc, if_true] at hk
      rcases hk with hk | ⟨xs', sp', hh, hk⟩
      · cases hk
      · cases hh
        exact hk x hx
  · intro h n
    unfold SlotMade
    rw [if_neg (by simp [ho]), hm]
    simp only [hc, if_true]
    rcases h with h | ⟨xs, sp, h1, h2⟩
    · exact .inl h
    · exact .inr ⟨xs, sp, h1, fun e he => h2 e he n⟩

theorem slot_single {S : Schema} {R : Runtime} {f : FieldDesc} (ho : f.oneof = false) (hm : f.map = none) (hc : f.card ≠ .repeated) {v : Val} :
    Slot w S R f v ↔ v = .nil ∨ Elem w S R f.kind f.msg v := by
  constructor
  · intro h
    by_cases hv : v = .nil
    · exact .inl hv
    · refine .inr fun n => ?_
      have hk := h n
      unfold SlotMade at hk
      rw [if_neg (by simp [ho]), hm] at hk
      simp only [hc, if_false] at hk
      exact hk.resolve_left hv
  · intro h n
    unfold SlotMade
    rw [if_neg (by simp [ho]), hm]
    simp only [hc, if_false]
    exact h.imp_right fun h => h n

theorem part_zero {S : Schema} {R : Runtime} (hS : schemaOK S = true) (t : Nat) : Part w S R t (zeroMsg S t) := by
  unfold zeroMsg
  rw [part_iff]
  refine ⟨by simp, fun _ => ⟨[], rfl, by simp⟩, fun f hf => ?_⟩
  rw [zeroMsg_slot hS hf]
  have hF := (schemaOK_msg hS t).fields f hf
  unfold zeroField
  split
  · exact slot_nil _ _ _
  · rename_i h
    simp only [Bool.or_eq_true, beq_iff_eq, not_or, Bool.not_eq_true] at h
    have hm : f.map = none := by
      cases hm : f.map with
      | none => rfl
      | some md => exact absurd (hF.map md hm).1 h.1.2
    rw [slot_single h.1.1 hm h.1.2]
    by_cases hk : f.kind = .message
    · rw [hk]; exact .inl rfl
    · by_cases hg : f.kind = .group
      · rw [hg]; exact .inl rfl
      · exact .inr (elem_scalar hk hg _ _)

/-! ## One field -/

/-- The decoder of the messages in fields makes messages. -/
def RecMade (E : UEnv) (rec : SubDec) (L : Nat) : Prop :=
  ∀ off t b m m', b.length ≤ L → (E.S.msg t).foreign = false → Part E.A.bits E.S E.R t m → rec off t b m = (m', .ok ()) → Made E.A.bits E.S E.R t m'

theorem fp_store {P : Val → Prop} {f : FieldDesc} (hm : f.map = none) (hk : f.kind ≠ .message) (hg : f.kind ≠ .group) {v : Val} (hv : v ≠ .nil) :
    FP f.slot P (Post E.A.bits E.S E.R f) (store f v) := by
  unfold store
  split
  · rename_i ho
    exact .set ⟨(slot_oneof ho).2 (.inr ⟨_, _, rfl, fun _ => elem_scalar hk hg _ _⟩), fun _ => by simp, fun _ => ⟨v, rfl⟩⟩
  · rename_i ho
    simp only [Bool.not_eq_true] at ho
    split
    · rename_i hr
      simp only [beq_iff_eq] at hr
      refine .get_bind fun s _ => .lift_bind fun s' hs' => .set ⟨?_, fun h => ?_, fun h => ?_⟩
      · rw [slot_list ho hm hr]
        unfold appendVal at hs'
        split at hs' <;> cases hs'
        all_goals exact .inr ⟨_, _, rfl, fun _ _ => elem_scalar hk hg _ _⟩
      · rw [hr] at h; cases h
      · rw [ho] at h; cases h
    · rename_i hr
      simp only [beq_iff_eq] at hr
      exact .set ⟨(slot_single ho hm hr).2 (.inr (elem_scalar hk hg _ _)), fun _ => hv, fun h => (by rw [ho] at h; cases h)⟩

theorem groupLoop_never (f : FieldDesc) {wire : BitVec 64} (hw : (wire &&& 7).toNat ≠ 4) (d : Bytes) (base start : Nat) :
    ∀ (n i : Nat) (m m' : Val) (j : Nat), groupLoop E rec f wire d base start n i m ≠ (m', .ok j)
  | 0, _, _, _, _ => by intro h; cases h
  | n + 1, i, m, m', j => by
    intro h
    unfold groupLoop at h
    replace h := UM.bind_eq h
    obtain ⟨m1, q, -, h⟩ := h
    simp only at h
    rw [if_neg hw] at h
    replace h := UM.bind_eq h
    obtain ⟨m2, b, -, h⟩ := h
    replace h := UM.bind_eq h
    obtain ⟨m3, k, -, h⟩ := h
    split at h
    · cases h
    · exact groupLoop_never f hw d base start n _ _ _ _ h

theorem slice_length {d b : Bytes} {i j : Nat} (h : slice d i j = .ok b) : b.length ≤ d.length := by
  unfold slice at h
  split at h
  · cases h; simp
  · cases h

theorem decode_made (hU : ∀ t b v, E.R.unmarshal t b = some v → ∃ s u e, v = .msg s u e) (hr : RecMade E rec L) {off t : Nat} {b : Bytes} (hL : b.length ≤ L) {x x' : Val}
    (hx : (E.S.msg t).foreign = false → Part E.A.bits E.S E.R t x) (h : decodeMessage E rec off t b x = (x', .ok ())) : Elem E.A.bits E.S E.R .message t x' := by
  unfold decodeMessage at h
  split at h
  · rename_i hf
    split at h
    · cases h
    · split at h
      · rename_i v hv
        cases h
        exact fun n => ⟨by decide, fun _ => ⟨hU _ _ _ hv, fun _ => ⟨b, hv⟩, fun h => (by rw [hf] at h; cases h)⟩⟩
      · cases h
  · rename_i hf
    simp only [Bool.not_eq_true] at hf
    exact elem_made hf (hr _ _ _ _ _ hL hf (hx hf) h)

theorem fp_messageItem (hS : schemaOK E.S = true) (hU : ∀ t b v, E.R.unmarshal t b = some v → ∃ s u e, v = .msg s u e) (hr : RecMade E rec L)
    {d : MsgDesc} (hd : d.pooled = false) {f : FieldDesc} (hk : f.kind = .message) (hm : f.map = none) (off : Nat) {b : Bytes} (hL : b.length ≤ L) :
    FP f.slot (Slot E.A.bits E.S E.R f) (Post E.A.bits E.S E.R f) (messageItem E rec d f off b) := by
  unfold messageItem
  refine .get_bind fun s hs => .lift_bind fun x hx => ?_
  have hnew : newSub E d off f.msg = zeroMsg E.S f.msg := by simp [newSub, hd]
  have hpart : (E.S.msg f.msg).foreign = false → Part E.A.bits E.S E.R f.msg x := by
    intro hf
    have hz := part_zero (w := E.A.bits) (R := E.R) hS f.msg
    unfold subTarget at hx
    rw [hnew] at hx
    split at hx
    · rename_i ho
      rw [slot_oneof ho] at hs
      rcases hs with rfl | ⟨n, y, rfl, hy⟩
      · cases hx; exact hz
      · simp only [Res.ok.injEq] at hx
        split at hx
        · rename_i hn
          subst hx
          have := hy hn
          rw [hk] at this
          exact (this.made hf).part
        · subst hx; exact hz
    · rename_i ho
      simp only [Bool.not_eq_true] at ho
      split at hx
      · rename_i hc
        simp only [beq_iff_eq] at hc
        rw [slot_list ho hm hc] at hs
        rcases hs with rfl | ⟨xs, sp, rfl, -⟩
        · cases hx; exact hz
        · simp only [hd] at hx
          cases hx; exact hz
      · rename_i hc
        simp only [beq_iff_eq] at hc
        rw [slot_single ho hm hc] at hs
        rcases hs with rfl | hs
        · cases hx; exact hz
        · rw [hk] at hs
          obtain ⟨s', u, e, rfl⟩ := hs.msg
          cases hx
          exact (hs.made hf).part
  generalize hdec : decodeMessage E rec off f.msg b x = q
  obtain ⟨x', r⟩ := q
  have hpost : r = .ok () → Post E.A.bits E.S E.R f (subAssign f s x') := by
    rintro rfl
    have he := decode_made hU hr hL hpart hdec
    have hne : x' ≠ .nil := by obtain ⟨a, b, c, rfl⟩ := he.msg; simp
    rw [← hk] at he
    unfold subAssign
    split
    · rename_i ho
      exact ⟨(slot_oneof ho).2 (.inr ⟨_, _, rfl, fun _ => he⟩), fun _ => by simp, fun _ => ⟨x', rfl⟩⟩
    · rename_i ho
      simp only [Bool.not_eq_true] at ho
      split
      · rename_i hc
        simp only [beq_iff_eq] at hc
        refine ⟨?_, fun h => (by rw [hc] at h; cases h), fun h => (by rw [ho] at h; cases h)⟩
        rw [slot_list ho hm hc] at hs ⊢
        rcases hs with rfl | ⟨xs, sp, rfl, hxs⟩
        · exact .inr ⟨[x'], [], rfl, by simpa using he⟩
        · refine .inr ⟨_, _, rfl, fun y hy => ?_⟩
          rcases List.mem_append.1 hy with hy | hy
          · exact hxs y hy
          · rw [List.mem_singleton.1 hy]; exact he
      · rename_i hc
        simp only [beq_iff_eq] at hc
        exact ⟨(slot_single ho hm hc).2 (.inr he), fun _ => hne, fun h => (by rw [ho] at h; cases h)⟩
  simp only
  split
  · exact .lift_bind fun _ hr' => .set (hpost hr')
  · exact FP.bind (T := fun v => r = .ok () → Post E.A.bits E.S E.R f v) (.set hpost) fun _ => .lift fun v a ha h => h ha

theorem mapItem_made (hS : schemaOK E.S = true) (hU : ∀ t b v, E.R.unmarshal t b = some v → ∃ s u e, v = .msg s u e) (hr : RecMade E rec L) {k : Kind} {t : Nat} {d : Bytes} (hL : d.length ≤ L) {base i j : Nat} {old v : Val}
    (h : mapItem E rec k t d base i old = .ok (v, j)) : Elem E.A.bits E.S E.R k t v := by
  by_cases hk : k = .message
  · subst hk
    simp only [mapItem] at h
    rcases hsp : readSpan E.A E.A.bits d i with ⟨i', post⟩ | _ | _ | _ <;> rw [hsp] at h <;> simp only [Res.bind_ok, Res.bind_err, Res.bind_panic, Res.bind_diverge, reduceCtorEq] at h
    rcases hsl : slice d i' post with b | _ | _ | _ <;> rw [hsl] at h <;> simp only [Res.bind_ok, Res.bind_err, Res.bind_panic, Res.bind_diverge, reduceCtorEq] at h
    split at h
    · rename_i v' hdec
      cases h
      exact decode_made hU hr (le_trans (slice_length hsl) hL) (fun _ => part_zero hS t) hdec
    all_goals cases h
  · by_cases hg : k = .group
    · subst hg
      cases h
    · exact elem_scalar hk hg _ _

theorem entryLoop_made (hS : schemaOK E.S = true) (hU : ∀ t b v, E.R.unmarshal t b = some v → ∃ s u e, v = .msg s u e) (hr : RecMade E rec L) {md : MapDesc} {d : Bytes} (hL : d.length ≤ L) {base post : Nat} :
    ∀ {n i : Nat} {key val k v : Val}, (∀ n, MadeVal E.S E.R (MadeN E.A.bits E.S E.R n) md val) → entryLoop E rec md d base post n i key val = .ok (k, v) → ∀ n, MadeVal E.S E.R (MadeN E.A.bits E.S E.R n) md v
  | 0, _, _, _, _, _, _, h => by cases h
  | n + 1, i, key, val, k, v, hv, h => by
    rw [entryLoop] at h
    split at h
    · rcases hw : decodeVarint 64 d i with ⟨w, j⟩ | _ | _ | _ <;> rw [hw] at h <;> simp only [Res.bind_ok, Res.bind_err, Res.bind_panic, Res.bind_diverge, reduceCtorEq] at h
      split at h
      · rcases hk : mapItem { E with aliasing := false } rec md.key 0 d base j key with ⟨key', j'⟩ | _ | _ | _ <;> rw [hk] at h <;> simp only [Res.bind_ok, Res.bind_err, Res.bind_panic, Res.bind_diverge, reduceCtorEq] at h
        exact entryLoop_made hS hU hr hL hv h
      · split at h
        · rcases hk : mapItem E rec md.val md.valMsg d base j val with ⟨val', j'⟩ | _ | _ | _ <;> rw [hk] at h <;> simp only [Res.bind_ok, Res.bind_err, Res.bind_panic, Res.bind_diverge, reduceCtorEq] at h
          exact entryLoop_made hS hU hr hL (fun n => .inr (mapItem_made hS hU hr hL hk n)) h
        · rcases hk : skipAt E.A d i post with j' | _ | _ | _ <;> rw [hk] at h <;> simp only [Res.bind_ok, Res.bind_err, Res.bind_panic, Res.bind_diverge, reduceCtorEq] at h
          exact entryLoop_made hS hU hr hL hv h
    · cases h
      exact hv

theorem fp_mapEntry (hS : schemaOK E.S = true) (hU : ∀ t b v, E.R.unmarshal t b = some v → ∃ s u e, v = .msg s u e) (hr : RecMade E rec L) {dd : MsgDesc} {f : FieldDesc} (hF : FieldFacts dd f)
    {md : MapDesc} (hm : f.map = some md) {d : Bytes} (hL : d.length ≤ L) (base i post : Nat) : FP f.slot (Slot E.A.bits E.S E.R f) (Post E.A.bits E.S E.R f) (mapEntry E rec f md d base i post) := by
  obtain ⟨hc, hk, -, hg⟩ := hF.map md hm
  have ho : f.oneof = false := by
    cases ho : f.oneof with
    | false => rfl
    | true => exact absurd ((hF.oneof ho).1.symm.trans hc) (by simp)
  unfold mapEntry
  refine .get_bind fun s hs => ?_
  rw [slot_map ho hm] at hs
  have hes : ∃ es, (if s.isNil then Val.map [] else s) = .map es ∧ ∀ e ∈ es, ∀ n, MadeVal E.S E.R (MadeN E.A.bits E.S E.R n) md e.2 := by
    rcases hs with rfl | ⟨es, rfl, hes⟩
    · exact ⟨[], rfl, by simp⟩
    · exact ⟨es, rfl, hes⟩
  obtain ⟨es, h1, h2⟩ := hes
  rw [h1]
  refine FP.bind (T := fun _ => True) (.set trivial) fun _ => .lift_bind fun q hq => ?_
  obtain ⟨k, v⟩ := q
  simp only [mapPut]
  have hv := entryLoop_made hS hU hr hL (fun n => by
    by_cases hkk : md.val = .message
    · exact .inl ⟨hkk, by rw [hkk]; rfl⟩
    · exact .inr (elem_scalar hkk hg _ _ n)) hq
  refine .set ⟨?_, fun h => (by rw [hc] at h; cases h), fun h => (by rw [ho] at h; cases h)⟩
  rw [slot_map ho hm]
  refine .inr ⟨_, rfl, ?_⟩
  clear h1 hs hq
  induction es with
  | nil => simpa [mapInsert] using hv
  | cons e es ih =>
    obtain ⟨k', v'⟩ := e
    simp only [mapInsert]
    split
    · intro e he
      rcases List.mem_cons.1 he with rfl | he
      · exact hv
      · exact h2 e (by simp [he])
    · intro e he
      rcases List.mem_cons.1 he with rfl | he
      · exact h2 _ (by simp)
      · exact ih (fun e he => h2 e (by simp [he])) e he

theorem fp_fieldItem (hS : schemaOK E.S = true) (hU : ∀ t b v, E.R.unmarshal t b = some v → ∃ s u e, v = .msg s u e) (hr : RecMade E rec L)
    {d : MsgDesc} (hd : d.pooled = false) {f : FieldDesc} (hF : FieldFacts d f) (p3 : Bool) {wire : BitVec 64} (hw : (wire &&& 7).toNat ≠ 4) {b : Bytes} (hL : b.length ≤ L) (base i : Nat) :
    FP f.slot (Slot E.A.bits E.S E.R f) (Post E.A.bits E.S E.R f) (fieldItem E rec d f p3 wire b base i) := by
  have hmap : f.kind ≠ .message → f.map = none := fun hk => by
    cases hm : f.map with
    | none => rfl
    | some md => exact absurd (hF.map md hm).2.1 hk
  unfold fieldItem
  split
  · rename_i hk
    exact .lift_bind fun q _ => .lift_bind fun _ _ => (fp_store (hmap (by rw [hk]; decide)) (by rw [hk]; decide) (by rw [hk]; decide) (by simp)).pure_after
  · rename_i hk
    exact .lift_bind fun q _ => .lift_bind fun _ _ => (fp_store (hmap (by rw [hk]; decide)) (by rw [hk]; decide) (by rw [hk]; decide) (by simp)).pure_after
  · intro s u e m' a _ _ h
    exact absurd h (groupLoop_never f hw _ _ _ _ _ _ _ _)
  · rename_i hk
    refine .lift_bind fun q _ => ?_
    simp only
    split
    · rename_i md hm
      exact (fp_mapEntry hS hU hr hF hm hL _ _ _).pure_after
    · rename_i hm
      exact .lift_bind fun s hs => (fp_messageItem hS hU hr hd hk hm _ (le_trans (slice_length hs) hL)).pure_after
  · rename_i k hk1 hk2 hk3 hk4
    have hst : ∀ P v, FP f.slot P (Post E.A.bits E.S E.R f) (store f (.num v)) := fun P v => fp_store (hmap hk4) hk4 hk3 (by simp)
    dsimp only
    split
    · split
      · exact FP.bind (T := fun _ => True) (.set trivial) fun _ => .lift_bind fun q _ => (hst _ _).pure_after
      · exact .lift_bind fun q _ => (hst _ _).pure_after
    · exact .lift_bind fun q _ => (hst _ _).pure_after

theorem fp_packedLoop (hS : schemaOK E.S = true) (hU : ∀ t b v, E.R.unmarshal t b = some v → ∃ s u e, v = .msg s u e) (hr : RecMade E rec L)
    {d : MsgDesc} (hd : d.pooled = false) {f : FieldDesc} (hF : FieldFacts d f) {wire : BitVec 64} (hw : (wire &&& 7).toNat ≠ 4) {b : Bytes} (hL : b.length ≤ L) (base post : Nat) :
    ∀ n i, FP f.slot (Slot E.A.bits E.S E.R f) (Slot E.A.bits E.S E.R f) (packedLoop E rec d f wire b base post n i)
  | 0, _ => .lift fun _ _ h => by cases h
  | n + 1, i => by
    unfold packedLoop
    split
    · exact (fp_fieldItem hS hU hr hd hF _ hw hL _ _).bind fun j => (fp_packedLoop hS hU hr hd hF hw hL base post n j).weaken fun _ h => h.1
    · exact .pure fun _ h => h

theorem fp_prealloc {f : FieldDesc} (ho : f.oneof = false) (hm : f.map = none) (hc : f.card = .repeated) (n : Nat) : FP f.slot (Slot E.A.bits E.S E.R f) (Slot E.A.bits E.S E.R f) (prealloc f n) := by
  unfold prealloc
  split
  · refine .get_bind fun s hs => ?_
    split
    · exact .set ((slot_list ho hm hc).2 (.inr ⟨[], [], rfl, by simp⟩))
    · exact .pure fun _ h => by rw [h]; exact hs
  · exact .pure fun _ h => h

theorem fp_fieldCase (hS : schemaOK E.S = true) (hU : ∀ t b v, E.R.unmarshal t b = some v → ∃ s u e, v = .msg s u e) (hr : RecMade E rec L)
    {d : MsgDesc} (hd : d.pooled = false) {f : FieldDesc} (hF : FieldFacts d f) {wire : BitVec 64} (hw : (wire &&& 7).toNat ≠ 4) {b : Bytes} (hL : b.length ≤ L) (base i : Nat) :
    FP f.slot (Slot E.A.bits E.S E.R f) (Post E.A.bits E.S E.R f) (fieldCase E rec d f wire b base i) := by
  unfold fieldCase
  simp only
  split
  · rename_i hl
    simp only [Bool.and_eq_true, bne_iff_ne, FieldDesc.isList, beq_iff_eq, Option.isNone_iff_eq_none] at hl
    have ho : f.oneof = false := by
      cases ho : f.oneof with
      | false => rfl
      | true => exact absurd ((hF.oneof ho).1.symm.trans hl.1.1) (by simp)
    split
    · exact fp_fieldItem hS hU hr hd hF _ hw hL _ _
    · split
      · refine .lift_bind fun q _ => .lift_bind fun _ _ => (fp_prealloc ho hl.1.2 hl.1.1 _).bind fun _ => ?_
        intro s u e m' a hs hpre hx
        obtain ⟨s', h1, h2, h3⟩ := fp_packedLoop hS hU hr hd hF hw hL base _ _ _ s u e m' a hs hpre hx
        exact ⟨s', h1, h2, h3, fun h => (by rw [hl.1.1] at h; cases h), fun h => (by rw [ho] at h; cases h)⟩
      · exact .lift fun _ _ h => by cases h
  · split
    · exact .lift fun _ _ h => by cases h
    · exact fp_fieldItem hS hU hr hd hF _ hw hL _ _

/-! ## One record, all records -/

/-- The required fields seen so far are there. -/
def SeenSet (d : MsgDesc) (seen : List Nat) (m : Val) : Prop := ∀ s u e, m = .msg s u e → ∀ f ∈ d.fields, f.card = .required → f.num ∈ seen → slotOf s f ≠ .nil

theorem recordStep_made (hS : schemaOK E.S = true) (hp : ∀ t, (E.S.msg t).pooled = false) (hU : ∀ t b v, E.R.unmarshal t b = some v → ∃ s u e, v = .msg s u e) (hr : RecMade E rec L)
    (hA : E.A.Valid) {t : Nat} (hx : (E.S.msg t).extRanges = []) {b : Bytes} (hL : b.length ≤ L) (hB : E.A.Fits b.length) {base i j : Nat} (hi : i ≤ b.length) {has has' : List (BitVec 64)} {seen : List Nat} (hm : Marked (E.S.msg t) has seen) {m m' : Val}
    (hP : Part E.A.bits E.S E.R t m) (hs : SeenSet (E.S.msg t) seen m) (h : recordStep E rec t b base i has m = (m', .ok (j, has'))) :
    ∃ seen', Marked (E.S.msg t) has' seen' ∧ Part E.A.bits E.S E.R t m' ∧ SeenSet (E.S.msg t) seen' m' := by
  have hM := schemaOK_msg hS t
  obtain ⟨s, u, e, rfl, hlen, -⟩ := hP 0
  have hP' := part_iff.1 hP
  unfold recordStep at h
  replace h := UM.bind_eq h
  obtain ⟨m1, ⟨wire, j1⟩, h1, h⟩ := h
  replace h1 := UM.lift_eq h1
  obtain ⟨hme, h1⟩ := h1
  subst hme
  simp only at h
  split at h
  · cases h
  rename_i hw
  split at h
  · cases h
  rename_i hpos
  cases hfind : (E.S.msg t).fields.find? (fun f => f.num == ((wire >>> 3).setWidth 32 : BitVec 32).toNat) with
  | some f =>
    rw [hfind] at h
    simp only at h
    have hmem := List.mem_of_find?_eq_some hfind
    replace h := UM.bind_eq h
    obtain ⟨m2, k, h2, h⟩ := h
    replace h := UM.bind_eq h
    obtain ⟨m3, has1, h3, h⟩ := h
    replace h3 := UM.lift_eq h3
    obtain ⟨hme, h3⟩ := h3
    subst hme
    replace h := UM.pure_eq h
    obtain ⟨rfl, h4⟩ := h
    cases h4
    obtain ⟨s', r, ho1, ho2, ho3⟩ := only_fieldCase (E := E) (rec := rec) (E.S.msg t) f wire b base j1 s u e
    rw [h2] at ho1
    cases ho1
    obtain ⟨has2, hmk, hmk2⟩ := markField_marked hM hmem hm
    rw [h3] at hmk
    cases hmk
    obtain ⟨s2, h5, -, hpost⟩ := fp_fieldCase hS hU hr (hp t) (hM.fields f hmem) hw hL base j1 s u e _ _ (by rw [hlen]; exact (hM.fields f hmem).slot) (hP'.2.2 f hmem) h2
    cases h5
    have hne : ∀ g ∈ (E.S.msg t).fields, g ≠ f → g.slot = f.slot → f.oneof = true ∧ g.oneof = true := fun g hg hgf hsl =>
      hM.share f hmem g hg (fun hn => hgf (hM.num_inj hmem hg hn).symm) hsl.symm
    refine ⟨_, hmk2, part_iff.2 ⟨by omega, hP'.2.1, fun g hg => ?_⟩, ?_⟩
    · by_cases hgf : g = f
      · subst hgf; exact hpost.1
      · by_cases hsl : g.slot = f.slot
        · obtain ⟨hof, hog⟩ := hne g hg hgf hsl
          obtain ⟨x, hxw⟩ := hpost.2.2 hof
          rw [slot_oneof hog]
          refine .inr ⟨f.num, x, by rw [slotOf, hsl]; exact hxw, fun hn => absurd (hM.num_inj hmem hg hn).symm hgf⟩
        · rw [slotOf, ho3 _ hsl]
          exact hP'.2.2 g hg
    · intro s3 u3 e3 he g hg hgc hgs
      cases he
      by_cases hgf : g = f
      · subst hgf; exact hpost.2.1 hgc
      · have hsl : g.slot ≠ f.slot := fun hsl => by
          have := (hne g hg hgf hsl).2
          exact absurd (((hM.fields g hg).oneof this).1.symm.trans hgc) (by simp)
        rw [slotOf, ho3 _ hsl]
        refine hs _ _ _ rfl g hg hgc ?_
        rcases List.mem_append.1 hgs with h | h
        · exact h
        · exact absurd (hM.num_inj hg hmem (List.mem_singleton.1 h)) hgf
  | none =>
    rw [hfind] at h
    simp only at h
    replace h := UM.bind_eq h
    obtain ⟨m2, k, h2, h⟩ := h
    replace h := UM.pure_eq h
    obtain ⟨rfl, h4⟩ := h
    cases h4
    unfold unknownCase at h2
    simp only [hx, List.any_nil] at h2
    replace h2 := UM.bind_eq h2
    obtain ⟨m3, k, h3, h2⟩ := h2
    replace h3 := UM.lift_eq h3
    obtain ⟨hme, h3⟩ := h3
    subst hme
    rw [if_neg (by simp)] at h2
    replace h2 := UM.bind_eq h2
    obtain ⟨m4, raw, h4, h2⟩ := h2
    replace h4 := UM.lift_eq h4
    obtain ⟨hme, h4⟩ := h4
    subst hme
    obtain ⟨rfl, rfl⟩ : j = k ∧ m' = .msg s (u ++ if (E.S.msg t).keepUnknown = true then raw else []) e := by
      split at h2
      · rename_i hk
        replace h2 := UM.bind_eq h2
        obtain ⟨m5, _, h5, h2⟩ := h2
        replace h2 := UM.pure_eq h2
        obtain ⟨rfl, rfl⟩ := h2
        cases h5
        exact ⟨rfl, by rw [if_pos hk]⟩
      · rename_i hk
        replace h2 := UM.pure_eq h2
        obtain ⟨rfl, rfl⟩ := h2
        exact ⟨rfl, by rw [if_neg hk, List.append_nil]⟩
    refine ⟨seen, hm, part_iff.2 ⟨hP'.1, fun hk => ?_, hP'.2.2⟩, fun s3 u3 e3 he => by cases he; exact hs _ _ _ rfl⟩
    rw [if_pos hk]
    have hl := skipAt_sound hA hB hi h3
    have hij : i ≤ j ∧ j ≤ b.length ∧ raw = (b.drop i).take (j - i) := by
      unfold slice at h4
      split at h4
      · rename_i hc
        cases h4
        exact ⟨by omega, by omega, rfl⟩
      · cases h4
    rw [← hij.2.2] at hl
    have hbt : Spans b i j raw := hij.2.2 ▸ between_of_le hij.1 hij.2.1
    obtain ⟨ps, hps, hall⟩ := hP'.2.1 hk
    refine ⟨ps ++ [⟨((wire >>> 3).setWidth 32 : BitVec 32).toNat, raw⟩], by simp [hps], ?_⟩
    intro p hp
    rcases List.mem_append.1 hp with hp | hp
    · exact hall p hp
    · rw [List.mem_singleton.1 hp]
      refine ⟨?_, hl, hfind⟩
      obtain ⟨hp1, hp2⟩ := num_pos hpos
      obtain ⟨tag', rest, rfl, htag'⟩ := loose_tagged hl
      have hv' : decodeVarint 64 b i = .ok (BitVec.ofNat 64 (varintValue tag'), i + tag'.length) := by
        refine decodeVarint_of_leb 64 _ tag' (rest ++ b.drop j) _ htag'.1 htag'.2 ?_
        rw [hbt.1, List.append_assoc]
      rw [h1] at hv'
      cases hv'
      exact ⟨tag', rest, rfl, htag', (tag_num rfl).1, hp1, hp2⟩

theorem recordLoop_made (hS : schemaOK E.S = true) (hp : ∀ t, (E.S.msg t).pooled = false) (hU : ∀ t b v, E.R.unmarshal t b = some v → ∃ s u e, v = .msg s u e) (hr : RecMade E rec L)
    (hA : E.A.Valid) {t : Nat} (hx : (E.S.msg t).extRanges = []) {b : Bytes} (hL : b.length ≤ L) (hB : E.A.Fits b.length) {base : Nat} : ∀ {n i j : Nat} {has has' : List (BitVec 64)} {seen : List Nat} {m m' : Val}, Marked (E.S.msg t) has seen →
    Part E.A.bits E.S E.R t m → SeenSet (E.S.msg t) seen m → recordLoop E rec t b base n i has m = (m', .ok (j, has')) →
    ∃ seen', Marked (E.S.msg t) has' seen' ∧ Part E.A.bits E.S E.R t m' ∧ SeenSet (E.S.msg t) seen' m'
  | 0, _, _, _, _, _, _, _, _, _, _, h => by cases h
  | n + 1, i, j, has, has', seen, m, m', hm, hP, hs, h => by
    rw [recordLoop] at h
    split at h
    · rename_i hi
      obtain ⟨m1, ⟨j1, has1⟩, h1, h⟩ := UM.bind_eq h
      simp only at h
      obtain ⟨seen', h2, h3, h4⟩ := recordStep_made hS hp hU hr hA hx hL hB (Nat.le_of_lt hi) hm hP hs h1
      exact recordLoop_made hS hp hU hr hA hx hL hB h2 h3 h4 h
    · obtain ⟨rfl, h⟩ := UM.pure_eq h
      cases h
      exact ⟨seen, hm, hP, hs⟩

theorem unmarshalN_made (hS : schemaOK E.S = true) (hp : ∀ t, (E.S.msg t).pooled = false) (hU : ∀ t b v, E.R.unmarshal t b = some v → ∃ s u e, v = .msg s u e)
    (hA : E.A.Valid) (hx : ∀ t, (E.S.msg t).extRanges = []) (hB : E.A.Fits L) : ∀ n, RecMade E (unmarshalN E n) L
  | 0 => by intro off t b m m' _ _ _ h; cases h
  | n + 1 => by
    intro off t b m m' hL hf hP h
    unfold unmarshalN unmarshalBody at h
    replace h := UM.bind_eq h
    obtain ⟨m1, ⟨i, has⟩, h1, h⟩ := h
    simp only at h
    replace h := UM.bind_eq h
    obtain ⟨m2, _, h2, h⟩ := h
    replace h2 := UM.lift_eq h2
    obtain ⟨hme, h2⟩ := h2
    subst hme
    have hme : m' = m2 := by
      split at h
      · cases h
      · exact (UM.pure_eq h).1
    subst hme
    obtain ⟨seen, h3, h4, h5⟩ := recordLoop_made hS hp hU (unmarshalN_made hS hp hU hA hx hB n) hA (hx t) hL (by unfold Arch.Fits at hB ⊢; omega) (marked_noFields _) hP
      (fun _ _ _ _ _ _ _ h => by cases h) h1
    obtain ⟨s, u, e, rfl, -⟩ := h4 0
    refine made_of h4 fun f hf hc => h5 s u e rfl f hf hc ?_
    rw [checkRequired_marked h3 _ fun _ h => h] at h2
    split at h2
    · rename_i hfm
      unfold firstMissing at hfm
      have := List.find?_eq_none.1 hfm f hf
      simpa [hc] using this
    · cases h2

end

end Vtp
