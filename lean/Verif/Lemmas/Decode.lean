import Verif.Lemmas.Payload
import Verif.Lemmas.SimEq
import Verif.Lemmas.Has
/-! The decoder on well-formed records. -/

namespace Vtp
open Spec

theorem UEnv.keep_copy {E : UEnv} (h : E.aliasing = false) (off : Nat) (b : Bytes) : E.keep off b = b := by
  simp [UEnv.keep, h]

/-- The struct field of `f` exists and holds a slice. -/
def ListSlot (f : FieldDesc) (m : Val) : Prop :=
  ∃ s u e, m = .msg s u e ∧ f.slot < s.length ∧ (slotOf s f = .nil ∨ ∃ xs sp, slotOf s f = .list xs sp)

theorem get_msg (s : List Val) (u e : Bytes) (f : FieldDesc) : get (.msg s u e) f = slotOf s f := rfl

theorem getSlot_run {m : Val} (h : ∃ s u e, m = .msg s u e) (f : FieldDesc) : getSlot f.slot m = (m, .ok (get m f)) := by
  obtain ⟨s, u, e, rfl⟩ := h; rfl

theorem setSlot_run {m : Val} (h : ∃ s u e, m = .msg s u e) (f : FieldDesc) (v : Val) : setSlot f.slot v m = (put m f v, .ok ()) := by
  obtain ⟨s, u, e, rfl⟩ := h; rfl

theorem put_msg {m : Val} (h : ∃ s u e, m = .msg s u e) (f : FieldDesc) (v : Val) : ∃ s u e, put m f v = .msg s u e := by
  obtain ⟨s, u, e, rfl⟩ := h; exact ⟨_, _, _, rfl⟩

theorem put_put (m : Val) (f : FieldDesc) (v w : Val) : put (put m f v) f w = put m f w := by
  cases m <;> simp [put]

theorem get_put {s : List Val} {u e : Bytes} {f : FieldDesc} (h : f.slot < s.length) (v : Val) : get (put (.msg s u e) f v) f = v :=
  slotOf_set_self s f v h

theorem extend_extend {s : Val} (hs : s = .nil ∨ ∃ xs sp, s = .list xs sp) (v : Val) (vs : List Val) :
    extend (extend s [v]) vs = extend s (v :: vs) := by
  rcases hs with rfl | ⟨xs, sp, rfl⟩
  · simp [extend]
  · simp [extend]

theorem appendVal_extend {s : Val} (hs : s = .nil ∨ ∃ xs sp, s = .list xs sp) (v : Val) : appendVal s v = .ok (extend s [v]) := by
  rcases hs with rfl | ⟨xs, sp, rfl⟩
  · rfl
  · simp [appendVal, extend]

theorem ListSlot.put {f : FieldDesc} {m : Val} (h : ListSlot f m) (xs sp : List Val) : ListSlot f (put m f (.list xs sp)) := by
  obtain ⟨s, u, e, rfl, h1, _⟩ := h
  exact ⟨_, _, _, rfl, by simpa using h1, .inr ⟨xs, sp, slotOf_set_self s f _ h1⟩⟩

theorem ListSlot.get {f : FieldDesc} {m : Val} (h : ListSlot f m) : get m f = .nil ∨ ∃ xs sp, get m f = .list xs sp := by
  obtain ⟨s, u, e, rfl, _, h⟩ := h; exact h

theorem ListSlot.msg {f : FieldDesc} {m : Val} (h : ListSlot f m) : ∃ s u e, m = .msg s u e := by
  obtain ⟨s, u, e, rfl, _⟩ := h; exact ⟨_, _, _, rfl⟩

theorem ListSlot.get_put {f : FieldDesc} {m : Val} (h : ListSlot f m) (v : Val) : Spec.get (Spec.put m f v) f = v := by
  obtain ⟨s, u, e, rfl, h, _⟩ := h; exact Vtp.get_put h v

theorem extend_one {s : Val} (hs : s = .nil ∨ ∃ xs sp, s = .list xs sp) (v : Val) : ∃ xs sp, extend s [v] = .list xs sp := by
  rcases hs with rfl | ⟨xs, sp, rfl⟩
  · exact ⟨_, _, rfl⟩
  · exact ⟨_, _, rfl⟩

theorem listSlot_of {S : Schema} (hS : schemaOK S = true) {t : Nat} (hf : (S.msg t).foreign = false) {f : FieldDesc} (h : f ∈ (S.msg t).fields)
    (hr : f.card = .repeated) (hmap : f.map = none) {m : Val} (hm : Typed S t m) : ListSlot f m := by
  obtain ⟨s, u, e, rfl⟩ := hm.nonnil
  have hF := (schemaOK_msg hS t).fields f h
  rw [typed_iff hf] at hm
  refine ⟨s, u, e, rfl, by rw [hm.1]; exact hF.slot, ?_⟩
  have := hm.2 f h
  have ho : f.oneof = false := by
    by_contra hc
    have := (hF.oneof (by simpa using hc)).1
    rw [hr] at this; simp at this
  simp only [slotOK, ho, Bool.false_eq_true, if_false, fieldOK, hmap, hr, beq_self_eq_true, if_true] at this
  cases hv : slotOf s f <;> simp_all

/-- The message after storing a scalar. -/
def stored (f : FieldDesc) (m v : Val) : Val :=
  put m f (if f.oneof then .wrap f.num v else if f.card = .repeated then extend (get m f) [v] else v)

theorem store_run {f : FieldDesc} {m : Val} (hm : ∃ s u e, m = .msg s u e) (hl : f.oneof = false → f.card = .repeated → ListSlot f m) (v : Val) :
    store f v m = (stored f m v, .ok ()) := by
  unfold store stored
  by_cases ho : f.oneof = true
  · rw [if_pos ho, if_pos ho, setSlot_run hm]
  · rw [if_neg ho, if_neg ho]
    by_cases hr : f.card = .repeated
    · rw [if_pos (by simpa using hr), if_pos hr]
      rw [UM.bind_run (getSlot_run hm f), appendVal_extend (hl (by simpa using ho) hr).get, UM.lift_ok_bind, setSlot_run hm]
    · rw [if_neg (by simpa using hr), if_neg hr, setSlot_run hm]

section
variable {E : UEnv} {t : Nat} {d : Bytes}

/-- One scalar value. -/
theorem fieldItem_scalar (hE : PlainEnv E) {f : FieldDesc} (h : f ∈ (E.S.msg t).fields) (hF : E.A.Fits d.length) (rec : SubDec) (D : MsgDesc)
    (p3 : Bool) (wire : BitVec 64) (base : Nat) {i : Nat} (hi : i ≤ d.length) {p : Payload} {bs rest : Bytes}
    (hp : PackedItem p bs ∨ ∃ lb b, p = .len b ∧ bs = lb ++ b ∧ IsVarint b.length lb)
    {v : Val} (hv : scalarValue f.kind p = some v) (hd : d.drop i = bs ++ rest) {m : Val} (hm : ∃ s u e, m = .msg s u e)
    (hl : f.oneof = false → f.card = .repeated → ListSlot f m) :
    fieldItem E rec D f p3 wire d base i m = (stored f m v, .ok (i + bs.length)) := by
  have hA := hE.env.arch
  rcases hp with hp | ⟨lb, b, rfl, rfl, hlb⟩
  · obtain ⟨n, rfl, hn⟩ := readNum_value hA (hE.bool.imp id fun hb => (hb t f h).1) hF hi hp hv hd
    have hkk : numeric f.kind = true := by
      cases hp <;> cases hk : f.kind <;> simp_all [scalarValue, wireType, numeric]
    have key : ∀ m1, (∃ s u e, m1 = .msg s u e) → (f.oneof = false → f.card = .repeated → ListSlot f m1) → stored f m1 (.num n) = stored f m (.num n) →
        (do let (v, i) ← UM.lift (readNum E.A f.kind d i); store f (.num v); pure i : UM Nat) m1 = (stored f m (.num n), .ok (i + bs.length)) := by
      intro m1 h2 h3 h4
      rw [hn, UM.lift_ok_bind]
      simp only
      rw [UM.bind_run (store_run h2 h3 _), h4]
      rfl
    have hnum : (do
        if !f.oneof && f.card != .repeated && p3 && !f.synthetic then
          match direct E.A f.kind d i with
          | some v => setSlot f.slot (.num v)
          | none => pure ()
        let (v, i) ← UM.lift (readNum E.A f.kind d i)
        store f (.num v)
        pure i : UM Nat) m = (stored f m (.num n), .ok (i + bs.length)) := by
      split
      · rename_i hc
        simp only [Bool.and_eq_true, Bool.not_eq_true', bne_iff_ne] at hc
        obtain ⟨⟨⟨c1, c2⟩, _⟩, _⟩ := hc
        cases hdir : direct E.A f.kind d i with
        | some v =>
          simp only
          refine (UM.bind_run (setSlot_run hm f _) _).trans (key _ (put_msg hm f _) (fun _ c => absurd c c2) ?_)
          simp only [stored, c1, Bool.false_eq_true, if_false, c2, put_put]
        | none => exact key m hm hl rfl
      · exact key m hm hl rfl
    unfold fieldItem
    cases hk : f.kind <;> simp only [hk] at hnum ⊢ <;> simp [hk, numeric] at hkk <;> exact hnum
  · simp only [scalarValue] at hv
    split at hv
    · rename_i hk
      simp only [Option.some.injEq] at hv
      subst hv
      have hs := slice_len hi hd
      unfold fieldItem
      rcases hk with hk | hk
      · simp only [hk]
        rw [readSpan_len hA (.inl rfl) hF hi hlb hd, UM.lift_ok_bind]
        simp only
        rw [hs, UM.lift_ok_bind, UEnv.keep_copy hE.copy, UM.bind_run (store_run hm hl _)]
        rfl
      · simp only [hk]
        rw [readSpan_len hA (.inr rfl) hF hi hlb hd, UM.lift_ok_bind]
        simp only
        rw [hs, UM.lift_ok_bind, UEnv.keep_copy hE.copy, UM.bind_run (store_run hm hl _)]
        rfl
    · simp at hv

/-! ## Packed fields -/

theorem Spec.PackedItem.pos {p : Payload} {bs : Bytes} (h : PackedItem p bs) : 1 ≤ bs.length := by
  cases h with
  | varint h => exact h.shape.length_pos
  | i64 h => omega
  | i32 h => omega

theorem packedLoop_run (hE : PlainEnv E) {f : FieldDesc} (h : f ∈ (E.S.msg t).fields) (hr : f.card = .repeated) (ho : f.oneof = false)
    (hF : E.A.Fits d.length) (rec : SubDec) (D : MsgDesc) (wire : BitVec 64) (base : Nat) {bs : Bytes} {vs : List Val} (hp : Packed f.kind bs vs) :
    ∀ (rest : Bytes) (n i : Nat) (m : Val), i ≤ d.length → d.length - i < n → d.drop i = bs ++ rest → ListSlot f m →
      packedLoop E rec D f wire d base (i + bs.length) n i m = (put m f (extend (get m f) vs), .ok (i + bs.length)) := by
  induction hp with
  | nil =>
    intro rest n i m hi hn hd hl
    obtain ⟨n, rfl⟩ : ∃ q, n = q + 1 := ⟨n - 1, by omega⟩
    rw [packedLoop, if_neg (by simp)]
    have : put m f (extend (get m f) []) = m := by
      obtain ⟨s, u, e, rfl, h1, h2⟩ := hl
      have h3 : extend (get (.msg s u e) f) [] = slotOf s f := by
        rw [get_msg]
        rcases h2 with h2 | ⟨xs, sp, h2⟩ <;> simp [h2, extend]
      rw [h3]
      simp only [put, Val.msg.injEq, and_true]
      apply List.ext_getElem?
      intro q
      rw [List.getElem?_set]
      split
      · rename_i hq
        subst hq
        simp [slotOf, List.getD_eq_getElem?_getD, h1]
      · rfl
    rw [this]
    rfl
  | @cons p bs1 rest1 v vs hp hv _ ih =>
    intro rest n i m hi hn hd hl
    obtain ⟨n, rfl⟩ : ∃ q, n = q + 1 := ⟨n - 1, by omega⟩
    have hpos := hp.pos
    rw [List.append_assoc] at hd
    have hle := le_of_drop hd hi
    rw [packedLoop, if_pos (by simp; omega)]
    rw [UM.bind_run (fieldItem_scalar hE h hF rec D false wire base hi (.inl hp) hv hd hl.msg (fun _ _ => hl))]
    obtain ⟨xs, sp, hx⟩ := extend_one hl.get v
    have hst : stored f m v = put m f (extend (get m f) [v]) := by simp [stored, ho, hr]
    rw [hst]
    have := ih rest n (i + bs1.length) (put m f (extend (get m f) [v])) hle (by omega) (drop_add hd) (by rw [hx]; exact hl.put xs sp)
    rw [hl.get_put, put_put, extend_extend hl.get] at this
    rw [List.length_append, ← Nat.add_assoc]
    exact this

theorem prealloc_run {f : FieldDesc} {c : Nat} {m : Val} (hl : ListSlot f m) :
    ∃ m1, prealloc f c m = (m1, .ok ()) ∧ ListSlot f m1 ∧ (c = 0 → m1 = m) ∧
      (m1 = m ∨ m1 = put m f (.list [] []) ∧ (get m f).elems = []) := by
  unfold prealloc
  split
  · rw [UM.bind_run (getSlot_run hl.msg f)]
    split
    · rename_i hne he
      rw [setSlot_run hl.msg]
      exact ⟨_, rfl, hl.put _ _, fun h => absurd h hne, .inr ⟨rfl, he⟩⟩
    · exact ⟨m, rfl, hl, fun _ => rfl, .inl rfl⟩
  · exact ⟨m, rfl, hl, fun _ => rfl, .inl rfl⟩

theorem elementCount_nil (k : Kind) : elementCount k [] = 0 := by cases k <;> rfl

/-- A packed record. -/
theorem packed_run (hE : PlainEnv E) (hf : (E.S.msg t).foreign = false) {f : FieldDesc} (h : f ∈ (E.S.msg t).fields) (hr : f.card = .repeated)
    (hmap : f.map = none) (hk : numeric f.kind = true) (hF : E.A.Fits d.length) (rec : SubDec) (wire : BitVec 64) (base : Nat) {i : Nat} (hi : i ≤ d.length)
    {lb b rest : Bytes} (hlb : IsVarint b.length lb) {vs : List Val} (hp : Packed f.kind b vs) (hd : d.drop i = (lb ++ b) ++ rest) {m : Val} (hm : Typed E.S t m) :
    (do let (i, post) ← UM.lift (readSpan E.A E.A.bits d i)
        let s ← UM.lift (slice d i post)
        prealloc f (elementCount f.kind s)
        packedLoop E rec (E.S.msg t) f wire d base post (d.length + 1) i : UM Nat) m
      = (put m f (extend (get m f) vs), .ok (i + (lb ++ b).length)) := by
  have hl := listSlot_of hE.env.schema hf h hr hmap hm
  have hFF := (schemaOK_msg hE.env.schema t).fields f h
  have ho : f.oneof = false := by
    by_contra hc
    have := (hFF.oneof (by simpa using hc)).1
    rw [hr] at this; simp at this
  have hle := le_of_drop hd hi
  rw [readSpan_len hE.env.arch (.inr rfl) hF hi hlb hd, UM.lift_ok_bind]
  simp only
  rw [slice_len hi hd, UM.lift_ok_bind]
  obtain ⟨m1, h1, h2, h3, h4⟩ := prealloc_run (c := elementCount f.kind b) hl
  rw [UM.bind_run h1]
  have hd2 : d.drop (i + lb.length) = b ++ rest := drop_add (by rw [hd, List.append_assoc])
  have hil : i + lb.length ≤ d.length := by simp at hle; omega
  have := packedLoop_run hE h hr ho hF rec (E.S.msg t) wire base hp rest (d.length + 1) (i + lb.length) m1 hil (by omega) hd2 h2
  rw [show i + (lb ++ b).length = i + lb.length + b.length by simp [Nat.add_assoc], this]
  congr 1
  rcases h4 with rfl | ⟨rfl, h5⟩
  · rfl
  · rw [hl.get_put, put_put]
    cases hp with
    | nil =>
      have := h3 (elementCount_nil _)
      -- nothing was allocated for an empty payload
      have hg : get m f = .list [] [] := by rw [← hl.get_put (.list [] []), this]
      rw [hg]
    | cons _ _ _ =>
      congr 1
      have hsp : ∀ xs sp, get m f = .list xs sp → sp = [] := by
        intro xs sp hx
        obtain ⟨s, u, e, rfl⟩ := hm.nonnil
        rw [typed_iff hf] at hm
        have := hm.2 f h
        rw [get_msg] at hx
        have hhm := hasMessage_of_numeric hk
        simp only [slotOK, ho, Bool.false_eq_true, if_false, fieldOK, hmap, hr, beq_self_eq_true, if_true, hx, hhm, Bool.and_eq_true] at this
        simpa using this.2
      rcases hl.get with hg | ⟨xs, sp, hg⟩
      · rw [hg]; simp [extend]
      · have := hsp xs sp hg
        subst this
        rw [hg] at h5
        simp only [Val.elems] at h5
        subst h5
        rw [hg]

end

end Vtp
