import Verif.Spec.Nesting
import Verif.Lemmas.Volume
/-! Decoding does not make messages deeper than its input is long. -/

namespace Vtp
open Spec

theorem mostLevels_le {l : List Val} {D : Nat} : mostLevels l ≤ D ↔ ∀ v ∈ l, levels v ≤ D := by
  induction l with
  | nil => simp [mostLevels]
  | cons x xs ih => simp only [mostLevels, List.mem_cons, forall_eq_or_imp, Nat.max_le, ih]

theorem entriesLevels_le {l : List (Key × Val)} {D : Nat} : entriesLevels l ≤ D ↔ ∀ e ∈ l, levels e.2 ≤ D := by
  induction l with
  | nil => simp [entriesLevels]
  | cons x xs ih => obtain ⟨k, v⟩ := x; simp only [entriesLevels, List.mem_cons, forall_eq_or_imp, Nat.max_le, ih]

theorem levels_msg {s : List Val} {u e : Bytes} {D : Nat} : levels (.msg s u e) ≤ D + 1 ↔ ∀ v ∈ s, levels v ≤ D := by
  rw [levels, ← mostLevels_le]; omega

theorem zeroScalar_levels (k : Kind) : levels (zeroScalar k) = 0 := by cases k <;> rfl

theorem zeroMsg_levels (S : Schema) (t : Nat) : levels (zeroMsg S t) = 1 := by
  unfold zeroMsg
  rw [levels]
  have : mostLevels ((List.range (S.msg t).nslots).map (zeroSlot (S.msg t))) ≤ 0 := by
    rw [mostLevels_le]
    intro v hv
    obtain ⟨i, -, rfl⟩ := List.mem_map.1 hv
    unfold zeroSlot
    split
    · unfold zeroField
      split
      · simp [levels]
      · rw [zeroScalar_levels]
    · simp [levels]
  omega

/-- The code leaves messages within `D` levels, whatever its outcome; results satisfy `Q`. -/
def Keeps {α : Type} (D : Nat) (x : UM α) (Q : α → Prop) : Prop := ∀ m, levels m ≤ D → levels (x m).1 ≤ D ∧ ∀ a, (x m).2 = .ok a → Q a

namespace Keeps
variable {α β : Type} {D : Nat}

theorem bind {x : UM α} {f : α → UM β} {Q : α → Prop} {Q' : β → Prop} (h : Keeps D x Q) (hf : ∀ a, Q a → Keeps D (f a) Q') : Keeps D (x >>= f) Q' := by
  intro m hm
  have h1 := h m hm
  rw [UM.bind_def]
  generalize x m = r at h1
  obtain ⟨m', r⟩ := r
  cases r with
  | ok a => exact hf a (h1.2 a rfl) m' h1.1
  | err e => exact ⟨h1.1, fun _ h => (nomatch h)⟩
  | panic e => exact ⟨h1.1, fun _ h => (nomatch h)⟩
  | diverge => exact ⟨h1.1, fun _ h => (nomatch h)⟩

theorem lift {r : Res α} {Q : α → Prop} (h : ∀ a, r = .ok a → Q a) : Keeps D (UM.lift r) Q := fun _ hm => ⟨hm, h⟩

theorem lift_bind {r : Res α} {f : α → UM β} {Q : β → Prop} (h : ∀ a, r = .ok a → Keeps D (f a) Q) : Keeps D (UM.lift r >>= f) Q :=
  Keeps.bind (Q := fun a => r = .ok a) (.lift fun _ h => h) h

theorem pure {a : α} {Q : α → Prop} (h : Q a) : Keeps D (Pure.pure a : UM α) Q :=
  fun _ hm => ⟨hm, fun b hb => by simp at hb; cases hb; exact h⟩

theorem any {x : UM α} {Q : α → Prop} (h : Keeps D x Q) : Keeps D x (fun _ => True) := fun m hm => ⟨(h m hm).1, fun _ _ => trivial⟩

end Keeps

theorem getSlot_keeps {D : Nat} (slot : Nat) : Keeps (D + 1) (getSlot slot) (fun v => levels v ≤ D) := by
  intro m hm
  cases m
  case msg s u e =>
   refine ⟨hm, fun a ha => ?_⟩
   simp only [getSlot, Res.ok.injEq] at ha
   subst ha
   rw [levels_msg] at hm
   rw [List.getD_eq_getElem?_getD]
   cases h : s[slot]? with
   | none => simp [levels]
   | some v => exact hm v (List.mem_of_getElem? h)
  all_goals exact ⟨hm, fun _ h => (nomatch h)⟩

theorem setSlot_keeps {D : Nat} (slot : Nat) {v : Val} (hv : levels v ≤ D) : Keeps (D + 1) (setSlot slot v) (fun _ => True) := by
  intro m hm
  refine ⟨?_, fun _ _ => trivial⟩
  cases m <;> simp only [setSlot] <;> try exact hm
  rename_i s u e
  rw [levels_msg] at hm ⊢
  intro x hx
  rcases List.mem_or_eq_of_mem_set hx with h | rfl
  · exact hm x h
  · exact hv

theorem levels_tail {sp : List Val} {D : Nat} (h : mostLevels sp ≤ D) : mostLevels sp.tail ≤ D := by
  rw [mostLevels_le] at *
  exact fun v hv => h v (List.mem_of_mem_tail hv)

theorem levels_append {xs : List Val} {x : Val} {D : Nat} (h : mostLevels xs ≤ D) (hx : levels x ≤ D) : mostLevels (xs ++ [x]) ≤ D := by
  rw [mostLevels_le] at *
  intro v hv
  rcases List.mem_append.1 hv with h1 | h1
  · exact h v h1
  · cases List.mem_singleton.1 h1; exact hx

theorem store_keeps {D : Nat} (f : FieldDesc) {v : Val} (hv : levels v ≤ D) : Keeps (D + 1) (store f v) (fun _ => True) := by
  unfold store
  split
  · exact setSlot_keeps _ (by rw [levels]; exact hv)
  · split
    · refine (getSlot_keeps f.slot).bind fun s hs => .lift_bind fun s' hs' => ?_
      refine setSlot_keeps _ ?_
      cases s <;> simp only [appendVal, Res.ok.injEq, reduceCtorEq] at hs'
      · subst hs'; simp [levels, mostLevels, hv]
      · subst hs'
        rw [levels, Nat.max_le] at hs ⊢
        exact ⟨levels_append hs.1 hv, levels_tail hs.2⟩
    · exact setSlot_keeps _ hv

/-- What is assumed of pools and of the runtime: messages from pools have at most `P` levels, and the runtime makes a level from no less than two bytes. -/
structure Shallow (E : UEnv) (P : Nat) : Prop where
  arch : E.A.Valid
  pos : 1 ≤ P
  pools : ∀ off t, (E.S.msg t).pooled = true → levels (E.alloc off t) ≤ P
  runtime : ∀ t b v, E.R.unmarshal t b = some v → levels v ≤ P + b.length / 2
  ext : ∀ t b v, E.R.unmarshalPartial t b = some v → levels v ≤ P + b.length / 2

/-- Nested calls on at most `L` bytes. -/
def RecKeeps (P : Nat) (rec : SubDec) (L : Nat) : Prop := ∀ off t b D, b.length ≤ L → P + b.length / 2 ≤ D → Keeps D (rec off t b) (fun _ => True)

section
variable {E : UEnv} {P : Nat} (hP : Shallow E P)
include hP

theorem decodeMessage_keeps {rec : SubDec} {L : Nat} (hr : RecKeeps P rec L) (off t : Nat) {b : Bytes} {D : Nat} (hb : b.length ≤ L) (hD : P + b.length / 2 ≤ D) :
    Keeps D (decodeMessage E rec off t b) (fun _ => True) := by
  intro m hm
  refine ⟨?_, fun _ _ => trivial⟩
  simp only [decodeMessage]
  split
  · split
    · exact hm
    · cases h : E.R.unmarshal t b with
      | none => exact hm
      | some v => have := hP.runtime t b v h; simp only; omega
  · exact (hr off t b D hb hD m hm).1

theorem newSub_levels (d : MsgDesc) (off t : Nat) : levels (newSub E d off t) ≤ P := by
  unfold newSub
  split
  · rename_i h
    simp only [Bool.and_eq_true] at h
    exact hP.pools _ _ h.2
  · rw [zeroMsg_levels]; exact hP.pos

theorem subTarget_levels {d : MsgDesc} {f : FieldDesc} {off : Nat} {s x : Val} {D : Nat} (hD : P ≤ D) (hs : levels s ≤ D) (h : subTarget E d f off s = .ok x) : levels x ≤ D := by
  have hn : ∀ t, levels (newSub E d off t) ≤ D := fun t => Nat.le_trans (newSub_levels hP d off t) hD
  have hz : ∀ t, levels (zeroMsg E.S t) ≤ D := fun t => by rw [zeroMsg_levels]; have := hP.pos; omega
  unfold subTarget at h
  split at h
  · cases s <;> simp only [Res.ok.injEq] at h
    case wrap n y =>
      rw [levels] at hs
      split at h <;> subst h
      · exact hs
      · exact hn _
    case wrapNil n =>
      split at h
      · cases h
      · cases h; exact hn _
    all_goals subst h; exact hn _
  · split at h
    · cases s <;> simp only [Res.ok.injEq, reduceCtorEq] at h
      case nil => subst h; exact hz _
      case list xs sp =>
        split at h
        · cases sp with
          | nil => cases h; exact hz _
          | cons y ys =>
            simp only [Res.ok.injEq] at h
            split at h <;> subst h
            · exact hz _
            · rw [levels, mostLevels] at hs; omega
        · cases h; exact hz _
    · simp only [Res.ok.injEq] at h
      split at h <;> subst h
      · exact hn _
      · exact hs

omit hP in
theorem subAssign_levels {f : FieldDesc} {s x : Val} {D : Nat} (hs : levels s ≤ D) (hx : levels x ≤ D) : levels (subAssign f s x) ≤ D := by
  unfold subAssign
  split
  · rw [levels]; exact hx
  · split
    · cases s <;> simp only
      case list xs sp =>
        rw [levels, Nat.max_le] at hs ⊢
        exact ⟨levels_append hs.1 hx, levels_tail hs.2⟩
      all_goals simp [levels, mostLevels, hx]
    · exact hx

theorem messageItem_keeps {rec : SubDec} {L : Nat} (hr : RecKeeps P rec L) (d : MsgDesc) (f : FieldDesc) (off : Nat) {b : Bytes} {D : Nat} (hb : b.length ≤ L)
    (hD : P + b.length / 2 ≤ D) : Keeps (D + 1) (messageItem E rec d f off b) (fun _ => True) := by
  unfold messageItem
  refine (getSlot_keeps f.slot).bind fun s hs => .lift_bind fun x hx => ?_
  have h1 := subTarget_levels hP (by omega) hs hx
  have h2 := (decodeMessage_keeps hP hr off f.msg hb hD x h1).1
  generalize decodeMessage E rec off f.msg b x = r at h2
  obtain ⟨x', r⟩ := r
  have h3 := subAssign_levels (f := f) hs h2
  simp only
  split
  · exact .lift_bind fun _ _ => setSlot_keeps _ h3
  · exact (setSlot_keeps _ h3).bind fun _ _ => .lift fun _ _ => trivial

/-! ## Maps -/

theorem mapItem_levels {rec : SubDec} {k : Kind} {t : Nat} {d : Bytes} (hr : RecKeeps P rec d.length) (hF : E.A.Fits d.length) {base i : Nat} (hi : 1 ≤ i) {old v : Val} {j D : Nat}
    (hD : P + d.length / 2 ≤ D + 1) (h : mapItem E rec k t d base i old = .ok (v, j)) : levels v ≤ D := by
  by_cases hn : numeric k = true
  · obtain ⟨n, rfl⟩ := mapItem_isNum hn h
    simp [levels]
  · unfold mapItem at h
    cases k <;> simp only [numeric, not_true_eq_false] at hn <;> simp only [reduceCtorEq] at h
    case string =>
      obtain ⟨⟨i', post⟩, -, h⟩ := Res.bind_eq_ok.1 h
      obtain ⟨b, h1, h⟩ := Res.bind_eq_ok.1 h
      cases h
      simp [levels]
    case bytes =>
      obtain ⟨⟨n, i'⟩, -, h⟩ := Res.bind_eq_ok.1 h
      obtain ⟨⟨i', post⟩, -, h⟩ := Res.bind_eq_ok.1 h
      simp only at h
      split at h
      · cases h
      · obtain ⟨b, h1, h⟩ := Res.bind_eq_ok.1 h
        cases h
        simp [levels]
    case message =>
      obtain ⟨⟨i', post⟩, h1, h⟩ := Res.bind_eq_ok.1 h
      have hs := readSpan_all hP.arch E.A.bits hF i
      rw [h1] at hs
      simp only [Res.All] at hs
      obtain ⟨h2, h3, h4⟩ := hs
      simp only [slice_all h3 h4, Res.bind_ok] at h
      have hl : ((d.drop i').take (post - i')).length = post - i' := by simp; omega
      have h5 := (decodeMessage_keeps hP hr (base + i') t (b := (d.drop i').take (post - i')) (D := D) (by omega) (by omega) (zeroMsg E.S t)
        (by rw [zeroMsg_levels]; have := hP.pos; omega)).1
      generalize decodeMessage E rec (base + i') t ((d.drop i').take (post - i')) (zeroMsg E.S t) = r at h h5
      obtain ⟨x, r⟩ := r
      cases r <;> simp only [Res.ok.injEq, Prod.mk.injEq, reduceCtorEq] at h
      rw [← h.1]; exact h5

theorem entryLoop_levels {rec : SubDec} {md : MapDesc} {d : Bytes} (hr : RecKeeps P rec d.length) (hF : E.A.Fits d.length) {base post D : Nat} (hD : P + d.length / 2 ≤ D + 1) :
    ∀ (n i : Nat) (key val k v : Val), levels val ≤ D → entryLoop E rec md d base post n i key val = .ok (k, v) → levels v ≤ D := by
  intro n
  induction n with
  | zero => intro i key val k v _ h; cases h
  | succ n ih =>
    intro i key val k v h1 h
    rw [entryLoop] at h
    split at h
    · obtain ⟨⟨wire, j⟩, h0, h⟩ := Res.bind_eq_ok.1 h
      have hs := decodeVarint_all 64 d i
      rw [h0] at hs
      simp only [Res.All] at hs
      simp only at h
      split at h
      · obtain ⟨⟨key', j'⟩, h3, h⟩ := Res.bind_eq_ok.1 h
        exact ih _ _ _ _ _ h1 h
      · split at h
        · obtain ⟨⟨val', j'⟩, h3, h⟩ := Res.bind_eq_ok.1 h
          exact ih _ _ _ _ _ (mapItem_levels hP hr hF (by omega) hD h3) h
        · obtain ⟨j', h3, h⟩ := Res.bind_eq_ok.1 h
          exact ih _ _ _ _ _ h1 h
    · cases h; exact h1

omit hP in
theorem mapInsert_levels {es : List (Key × Val)} {k : Key} {v : Val} {D : Nat} (h : entriesLevels es ≤ D) (hv : levels v ≤ D) : entriesLevels (mapInsert es k v) ≤ D := by
  induction es with
  | nil => simp [mapInsert, entriesLevels, hv]
  | cons e es ih =>
    obtain ⟨k', v'⟩ := e
    simp only [entriesLevels, Nat.max_le] at h
    rw [mapInsert]
    split
    · simp only [entriesLevels, Nat.max_le]; exact ⟨hv, h.2⟩
    · simp only [entriesLevels, Nat.max_le]; exact ⟨h.1, ih h.2⟩

theorem mapEntry_keeps {rec : SubDec} {f : FieldDesc} {md : MapDesc} {d : Bytes} (hr : RecKeeps P rec d.length) (hF : E.A.Fits d.length) (base i post : Nat) {D : Nat}
    (hD : P + d.length / 2 ≤ D + 1) : Keeps (D + 1) (mapEntry E rec f md d base i post) (fun _ => True) := by
  unfold mapEntry
  refine (getSlot_keeps f.slot).bind fun s hs => ?_
  have hs' : levels (if s.isNil then .map [] else s) ≤ D := by
    split
    · simp [levels, entriesLevels]
    · exact hs
  generalize (if s.isNil then Val.map [] else s) = s' at hs'
  refine (setSlot_keeps f.slot hs').bind fun _ _ => .lift_bind fun r hr' => ?_
  obtain ⟨k, v⟩ := r
  have hv := entryLoop_levels hP hr hF hD _ _ _ _ _ _ (by rw [zeroScalar_levels]; omega) hr'
  simp only [mapPut]
  cases s' <;> simp only
  case map es => exact setSlot_keeps _ (by rw [levels] at hs' ⊢; exact mapInsert_levels hs' hv)
  all_goals exact .lift fun _ h => (nomatch h)

/-! ## Fields and records -/

omit hP in
theorem groupLoop_keeps {rec : SubDec} {f : FieldDesc} {wire : BitVec 64} (hw : (wire &&& 7).toNat ≠ 4) {d : Bytes} {base start D : Nat} :
    ∀ n i, Keeps D (groupLoop E rec f wire d base start n i) (fun _ => True) := by
  intro n
  induction n with
  | zero => intro i; exact .lift fun _ h => (nomatch h)
  | succ n ih =>
    intro i
    rw [groupLoop]
    refine .lift_bind fun r _ => ?_
    obtain ⟨x, j⟩ := r
    simp only [hw, if_false]
    refine .lift_bind fun b _ => .lift_bind fun k _ => ?_
    split
    · exact .lift fun _ h => (nomatch h)
    · exact ih _

theorem fieldItem_keeps {rec : SubDec} {b : Bytes} (hF : E.A.Fits b.length) (hr : RecKeeps P rec b.length) (d : MsgDesc) (f : FieldDesc)
    (p3 : Bool) {wire : BitVec 64} (hw : (wire &&& 7).toNat ≠ 4) (base : Nat) {i : Nat} (hi : f.kind = .message → 1 ≤ i) {D : Nat} (hD : P + b.length / 2 ≤ D + 1) :
    Keeps (D + 1) (fieldItem E rec d f p3 wire b base i) (fun _ => True) := by
  have hstr : ∀ w, Keeps (D + 1) (do
      let (i, post) ← UM.lift (readSpan E.A w b i)
      let s ← UM.lift (slice b i post)
      store f (.str (E.keep (base + i) s))
      pure post : UM Nat) (fun _ => True) := by
    intro w
    refine .lift_bind fun r _ => .lift_bind fun s _ => (store_keeps f (by simp [levels])).bind fun _ _ => .pure trivial
  have hnum : ∀ k, Keeps (D + 1) (do
      if !f.oneof && f.card != .repeated && p3 && !f.synthetic then
        match direct E.A k b i with
        | some v => setSlot f.slot (.num v)
        | none => pure ()
      let (v, i) ← UM.lift (readNum E.A k b i)
      store f (.num v)
      pure i : UM Nat) (fun _ => True) := by
    intro k
    have hread : Keeps (D + 1) (do
      let (v, i) ← UM.lift (readNum E.A k b i)
      store f (.num v)
      pure i : UM Nat) (fun _ => True) :=
      .lift_bind fun r _ => (store_keeps f (by simp [levels])).bind fun _ _ => .pure trivial
    split
    · cases direct E.A k b i with
      | some v => exact (setSlot_keeps f.slot (by simp [levels])).bind fun _ _ => hread
      | none => exact hread
    · exact hread
  unfold fieldItem
  cases hk : f.kind <;> simp only
  case string => exact hstr 64
  case bytes => exact hstr E.A.bits
  case group => exact groupLoop_keeps hw _ _
  case message =>
    have hi := hi hk
    refine .lift_bind fun r hr' => ?_
    obtain ⟨j, k⟩ := r
    have hs := readSpan_all hP.arch E.A.bits hF i
    rw [hr'] at hs
    simp only [Res.All] at hs
    obtain ⟨h1, h2, h3⟩ := hs
    simp only
    cases hm : f.map with
    | some md => exact (mapEntry_keeps hP hr hF base j k hD).bind fun _ _ => .pure trivial
    | none =>
      simp only [slice_all h2 h3, UM.lift_ok_bind]
      have hl : ((b.drop j).take (k - j)).length = k - j := by simp; omega
      exact (messageItem_keeps hP hr d f (base + j) (by omega) (by omega)).bind fun _ _ => .pure trivial
  all_goals exact hnum _

theorem packedLoop_keeps {rec : SubDec} {b : Bytes} (hF : E.A.Fits b.length) (hr : RecKeeps P rec b.length) (d : MsgDesc) {f : FieldDesc} (hk : f.kind ≠ .message)
    {wire : BitVec 64} (hw : (wire &&& 7).toNat ≠ 4) (base post : Nat) {D : Nat} (hD : P + b.length / 2 ≤ D + 1) : ∀ n i,
    Keeps (D + 1) (packedLoop E rec d f wire b base post n i) (fun _ => True) := by
  intro n
  induction n with
  | zero => intro i; exact .lift fun _ h => (nomatch h)
  | succ n ih =>
    intro i
    rw [packedLoop]
    split
    · exact (fieldItem_keeps hP hF hr d f false hw base (fun h => absurd h hk) hD).bind fun _ _ => ih _
    · exact .pure trivial

omit hP in
theorem prealloc_keeps (f : FieldDesc) (count : Nat) {D : Nat} : Keeps (D + 1) (prealloc f count) (fun _ => True) := by
  unfold prealloc
  split
  · refine (getSlot_keeps f.slot).bind fun s _ => ?_
    split
    · exact setSlot_keeps _ (by simp [levels, mostLevels])
    · exact .pure trivial
  · exact .pure trivial

theorem fieldCase_keeps {rec : SubDec} {b : Bytes} (hF : E.A.Fits b.length) (hr : RecKeeps P rec b.length) (d : MsgDesc) (f : FieldDesc)
    {wire : BitVec 64} (hw : (wire &&& 7).toNat ≠ 4) (base : Nat) {i : Nat} (hi : 1 ≤ i) {D : Nat} (hD : P + b.length / 2 ≤ D + 1) :
    Keeps (D + 1) (fieldCase E rec d f wire b base i) (fun _ => True) := by
  unfold fieldCase
  simp only
  split
  · rename_i hl
    split
    · exact fieldItem_keeps hP hF hr d f false hw base (fun _ => hi) hD
    · split
      · refine .lift_bind fun r _ => ?_
        obtain ⟨j, k⟩ := r
        refine .lift_bind fun s _ => (prealloc_keeps f _).bind fun _ _ => ?_
        refine packedLoop_keeps hP hF hr d ?_ hw base k hD _ _
        intro hk
        rw [hk] at hl
        simp [protoWireType] at hl
      · exact .lift fun _ h => (nomatch h)
  · split
    · exact .lift fun _ h => (nomatch h)
    · exact fieldItem_keeps hP hF hr d f _ hw base (fun _ => hi) hD

theorem unknownCase_keeps {b : Bytes} (t num i : Nat) {D : Nat} (hD : P + b.length / 2 ≤ D) : Keeps D (unknownCase E t num b i) (fun _ => True) := by
  unfold unknownCase
  refine .lift_bind fun j hj => ?_
  simp only
  split
  · refine .lift_bind fun s hs => Keeps.bind (Q := fun _ => True) (fun m hm => ⟨?_, fun _ _ => trivial⟩) fun _ _ => .pure trivial
    have hl := slice_volume hs
    cases m <;> simp only [runtimePartial] <;> try exact hm
    split
    · rename_i v hv
      have := hP.ext _ _ _ hv
      simp only; omega
    · exact hm
  · refine .lift_bind fun s hs => ?_
    split
    · refine Keeps.bind (Q := fun _ => True) (fun m hm => ⟨?_, fun _ _ => trivial⟩) fun _ _ => .pure trivial
      cases m <;> simp only [appendUnknown] <;> try exact hm
    · exact .pure trivial

theorem recordStep_keeps {rec : SubDec} {b : Bytes} (hF : E.A.Fits b.length) (hr : RecKeeps P rec b.length) (t base i : Nat) (has : List (BitVec 64)) {D : Nat}
    (hD : P + b.length / 2 ≤ D + 1) : Keeps (D + 1) (recordStep E rec t b base i has) (fun _ => True) := by
  unfold recordStep
  refine .lift_bind fun r hr' => ?_
  obtain ⟨wire, j⟩ := r
  have hs := decodeVarint_all 64 b i
  rw [hr'] at hs
  simp only [Res.All] at hs
  simp only
  split
  · exact .lift fun _ h => (nomatch h)
  · rename_i hw
    split
    · exact .lift fun _ h => (nomatch h)
    · split
      · rename_i f hfind
        exact (fieldCase_keeps hP hF hr _ f hw base (by omega) hD).bind fun _ _ => .lift_bind fun _ _ => .pure trivial
      · exact (unknownCase_keeps hP t _ i hD).bind fun _ _ => .pure trivial

theorem recordLoop_keeps {rec : SubDec} {b : Bytes} (hF : E.A.Fits b.length) (hr : RecKeeps P rec b.length) (t base : Nat) {D : Nat} (hD : P + b.length / 2 ≤ D + 1) : ∀ n i has,
    Keeps (D + 1) (recordLoop E rec t b base n i has) (fun _ => True) := by
  intro n
  induction n with
  | zero => intro i _; exact .lift fun _ h => (nomatch h)
  | succ n ih =>
    intro i has
    rw [recordLoop]
    split
    · exact (recordStep_keeps hP hF hr t base i has hD).bind fun r _ => ih _ _
    · exact .pure trivial

theorem unmarshalN_keeps : ∀ n L, E.A.Fits L → RecKeeps P (unmarshalN E n) L
  | 0, _, _ => fun _ _ _ _ _ _ m hm => ⟨by simpa [unmarshalN] using hm, fun _ _ => trivial⟩
  | n + 1, L, hF => by
    intro base t b D hb hD
    have hF' : E.A.Fits b.length := by unfold Arch.Fits at *; omega
    obtain ⟨D, rfl⟩ : ∃ q, D = q + 1 := ⟨D - 1, by have := hP.pos; omega⟩
    have h1 := recordLoop_keeps hP hF' (unmarshalN_keeps n b.length hF') t base hD (b.length + 1) 0 (noFields (E.S.msg t))
    rw [unmarshalN]
    unfold unmarshalBody
    refine h1.bind fun r _ => .lift_bind fun _ _ => ?_
    split
    · exact .lift fun _ h => (nomatch h)
    · exact .pure trivial

end

end Vtp
