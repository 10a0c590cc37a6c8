import Verif.Spec.Nesting
import Verif.Lemmas.Reject
import Verif.Lemmas.RoundTrip
import Verif.Lemmas.SimEq
/-! How deep the calls of the decoder nest. -/

namespace Vtp
open Spec

theorem unmarshalN_half {E : UEnv} (hA : E.A.Valid) (hS : schemaOK E.S = true) {n n' off t : Nat} {b : Bytes}
    (hf : (E.S.msg t).foreign = false) (hn : b.length < 2 * n) (hn' : b.length < 2 * n') (hF : E.A.Fits b.length) :
    unmarshalN E n off t b = unmarshalN E n' off t b :=
  (sim_unmarshalN_half (lax := false) (simEnv_eq (SameCode.refl E) hA) hS n n' off off t b hf (by omega) hF
    ⟨fun _ _ _ => rfl, fun _ _ _ hp => by rw [UEnv.fresh_pooled (by exact hp)]; rfl⟩).eq_iff

theorem nested_length (fs : List FieldDesc) : (nested fs).length ≤ 20 * fs.length := by
  induction fs with
  | nil => simp [nested]
  | cons f fs ih =>
    have h1 := varint_length_le (f.num * 8 + 2)
    have h2 := varint_length_le ((nested fs).length % 2 ^ 64)
    simp only [nested, delimited, lenPrefix, tag, List.length_append, List.length_cons]
    omega

section
variable {E : UEnv} (hS : schemaOK E.S = true) (hA : E.A.Valid) (hp : ∀ t, (E.S.msg t).pooled = false)
include hS hA hp

/-- A record of a message field, in a new message. -/
theorem messageItem_new (rec : SubDec) {t : Nat} {f : FieldDesc} (hmem : f ∈ (E.S.msg t).fields) (hk : f.kind = .message)
    (hm : f.map = none) (hfo : (E.S.msg f.msg).foreign = false) (off : Nat) (b : Bytes) :
    ∃ m', messageItem E rec (E.S.msg t) f off b (zeroMsg E.S t) = (m', (rec off f.msg b (zeroMsg E.S f.msg)).2) ∨
      (f.oneof = true ∧ (rec off f.msg b (zeroMsg E.S f.msg)).2 ≠ .ok () ∧
        messageItem E rec (E.S.msg t) f off b (zeroMsg E.S t) = (zeroMsg E.S t, (rec off f.msg b (zeroMsg E.S f.msg)).2)) := by
  have hF := (schemaOK_msg hS t).fields f hmem
  have hz : zeroSlot (E.S.msg t) f.slot = .nil := by
    rw [zeroSlot_eq (schemaOK_msg hS t) hmem]
    unfold zeroField
    split
    · rfl
    · rw [hk]; rfl
  have hg : getSlot f.slot (zeroMsg E.S t) = (zeroMsg E.S t, .ok .nil) := by
    have : ((List.range (E.S.msg t).nslots).map (zeroSlot (E.S.msg t)))[f.slot]? = some .nil := by
      simp [List.getElem?_range hF.slot, hz]
    simp only [getSlot, zeroMsg, List.getD_eq_getElem?_getD, this, Option.getD_some]
  have hn : ∀ off u, newSub E (E.S.msg t) off u = zeroMsg E.S u := by
    intro off u; unfold newSub; rw [hp t]; rfl
  have ht : subTarget E (E.S.msg t) f off .nil = .ok (zeroMsg E.S f.msg) := by
    unfold subTarget
    simp only [hn]
    split
    · rfl
    · split <;> rfl
  have hset : ∀ x, ∃ m', setSlot f.slot x (zeroMsg E.S t) = (m', .ok ()) := by
    intro x
    simp only [setSlot, zeroMsg, List.length_map, List.length_range, hF.slot, if_true]
    exact ⟨_, rfl⟩
  have hdm : decodeMessage E rec off f.msg b (zeroMsg E.S f.msg) = rec off f.msg b (zeroMsg E.S f.msg) := by
    unfold decodeMessage; rw [hfo]; rfl
  generalize hr : rec off f.msg b (zeroMsg E.S f.msg) = r at *
  obtain ⟨x', r⟩ := r
  obtain ⟨m', hm'⟩ := hset (subAssign f .nil x')
  refine ⟨m', ?_⟩
  unfold messageItem
  rw [UM.bind_def, hg]
  simp only [ht, UM.lift_ok_bind, hdm]
  split
  · rename_i ho
    cases r with
    | ok u => left; rw [UM.lift_ok_bind, hm']
    | err e => right; simp at ho; exact ⟨ho.1, by simp, rfl⟩
    | panic e => right; simp at ho; exact ⟨ho.1, by simp, rfl⟩
    | diverge => right; simp at ho; exact ⟨ho.1, by simp, rfl⟩
  · left
    rw [UM.bind_def, hm']
    rfl

/-- One level: the method ends as the nested call does, if that ends well or not at all. -/
theorem nested_step (rec : SubDec) {t : Nat} {f : FieldDesc} (hmem : f ∈ (E.S.msg t).fields) (hk : f.kind = .message)
    (hm : f.map = none) (hfo : (E.S.msg f.msg).foreign = false) {b : Bytes} (hF : E.A.Fits (tag f.num 2 ++ delimited b).length) (base : Nat)
    {r : Res Unit} (hrec : ∀ off, (rec off f.msg b (zeroMsg E.S f.msg)).2 = r)
    (hr : r = .diverge ∨ r = .ok () ∧ ∀ g ∈ (E.S.msg t).fields, g.card ≠ .required) :
    (unmarshalBody E rec base t (tag f.num 2 ++ delimited b) (zeroMsg E.S t)).2 = r := by
  have hFf := (schemaOK_msg hS t).fields f hmem
  have hvn : ValidNum f.num := ⟨hFf.pos, hFf.small⟩
  have htag := tag_isVarint hvn (wt := 2) (by omega)
  generalize hd : tag f.num 2 ++ delimited b = d at *
  have hb64 : b.length < 2 ^ 64 := by
    have : b.length ≤ d.length := by rw [← hd]; simp [delimited]; omega
    unfold Arch.Fits at hF
    rcases hA with h | h <;> rw [h] at hF <;> omega
  have hv := varint_isVarint _ hb64
  have hd0 : d.drop 0 = tag f.num 2 ++ delimited b := by rw [← hd]; simp
  generalize hi : (tag f.num 2).length = i at *
  have hdl : delimited b = varint b.length ++ b := by simp only [delimited, lenPrefix, Nat.mod_eq_of_lt hb64]
  have hd1 : d.drop i = (varint b.length ++ b) ++ [] := by rw [← hd, ← hi, hdl]; simp
  have hl : d.length = i + (varint b.length ++ b).length := by rw [← hd, ← hi, hdl]; simp
  have h2 := readSpan_len hA (w := E.A.bits) (.inr rfl) hF (by omega) hv hd1
  have h3 := slice_len (d := d) (i := i) (by omega) hd1
  have hpos : 0 < d.length := by rw [hl, List.length_append]; have hlp : ∀ bs, Leb bs → 0 < bs.length := (fun bs h => by cases h <;> simp); have := hlp _ hv.shape; omega
  have hfind := find_num (E := E) (t := t) (schemaOK_msg hS t) hmem
  obtain ⟨b1, -, -, -⟩ := tag_bits hvn (wt := 2) (by omega)
  have hcase : ∃ m', fieldCase E rec (E.S.msg t) f (BitVec.ofNat 64 (f.num * 8 + 2)) d base i (zeroMsg E.S t) =
      (m', r >>= fun _ => .ok d.length) := by
    have hmi := messageItem_new hS hA hp rec hmem hk hm hfo (base + (i + (varint b.length).length)) b
    rw [hrec] at hmi
    have hmi : ∃ m', messageItem E rec (E.S.msg t) f (base + (i + (varint b.length).length)) b (zeroMsg E.S t) = (m', r) := by
      obtain ⟨m', h | h⟩ := hmi
      · exact ⟨_, h⟩
      · exact ⟨_, h.2.2⟩
    obtain ⟨m', hmi⟩ := hmi
    refine ⟨m', ?_⟩
    unfold fieldCase
    simp only [b1, hk]
    rw [if_neg (by simp [protoWireType]), if_neg (by simp [protoWireType])]
    unfold fieldItem
    rw [hk]
    simp only [h2, UM.lift_ok_bind, hm, h3]
    rw [UM.bind_def, hmi, hl]
    rcases hr with rfl | ⟨rfl, _⟩ <;> rfl
  obtain ⟨m', hcase⟩ := hcase
  have hstep : ∀ has, recordStep E rec t d base 0 has (zeroMsg E.S t) = (m', r >>= fun _ => markField (E.S.msg t) f has >>= fun has => .ok (d.length, has)) := by
    intro has
    rw [recordStep_tag rec base has hvn (by omega) htag hd0, if_neg (by omega), hfind]
    simp only [Nat.zero_add, hi]
    rw [UM.bind_def, hcase]
    rcases hr with rfl | ⟨rfl, _⟩
    · rfl
    · simp only [Res.bind_ok]
      rw [UM.bind_def]
      cases markField (E.S.msg t) f has <;> rfl
  unfold unmarshalBody
  rw [UM.bind_def, recordLoop, if_pos hpos, UM.bind_def, hstep]
  rcases hr with rfl | ⟨rfl, hreq⟩
  · rfl
  · have hmk : ∀ has, markField (E.S.msg t) f has = .ok has := by
      intro has; unfold markField; rw [if_neg (by simpa using hreq f hmem)]
    simp only [Res.bind_ok, hmk]
    obtain ⟨k, hk⟩ : ∃ k, d.length = k + 1 := ⟨d.length - 1, by omega⟩
    rw [hk, recordLoop, if_neg (by omega)]
    simp only [UM.pure_def]
    have hcr : ∀ has gs, (∀ g ∈ gs, g.card ≠ .required) → checkRequired (E.S.msg t) has gs = .ok () := by
      intro has gs
      induction gs with
      | nil => intro _; rfl
      | cons g gs ih =>
        intro h
        unfold checkRequired
        rw [if_neg (by simpa using h g (by simp))]
        exact ih fun x hx => h x (by simp [hx])
    rw [hcr _ _ hreq, UM.lift_ok_bind, if_neg (by omega)]
    rfl

theorem nested_diverges : ∀ (fs : List FieldDesc) (t : Nat), Chain E.S t fs → E.A.Fits (nested fs).length → ∀ k ≤ fs.length, ∀ off,
    (unmarshalN E k off t (nested fs) (zeroMsg E.S t)).2 = .diverge := by
  intro fs
  induction fs with
  | nil => intro t _ _ k hk off; obtain rfl : k = 0 := (by simpa using hk); rfl
  | cons f fs ih =>
    intro t hc hF k hk off
    cases k with
    | zero => rfl
    | succ k =>
      cases hc with
      | cons h1 h2 h3 h4 h5 =>
        rw [unmarshalN]
        refine nested_step hS hA hp _ h1 h2 h3 h4 hF off (fun off => ih _ h5 ?_ k (by simpa using hk) off) (.inl rfl)
        unfold Arch.Fits at hF ⊢
        simp only [nested, delimited, List.length_append] at hF
        omega

theorem nested_accepted : ∀ (fs : List FieldDesc) (t : Nat), Chain E.S t fs → (∀ t, ∀ g ∈ (E.S.msg t).fields, g.card ≠ .required) →
    E.A.Fits (nested fs).length → ∀ k, fs.length < k → ∀ off, (unmarshalN E k off t (nested fs) (zeroMsg E.S t)).2 = .ok () := by
  intro fs
  induction fs with
  | nil =>
    intro t _ hreq _ k hk off
    obtain ⟨k, rfl⟩ : ∃ q, k = q + 1 := ⟨k - 1, by omega⟩
    have hcr : ∀ has gs, (∀ g ∈ gs, g.card ≠ .required) → checkRequired (E.S.msg t) has gs = .ok () := by
      intro has gs
      induction gs with
      | nil => intro _; rfl
      | cons g gs ih =>
        intro h
        unfold checkRequired
        rw [if_neg (by simpa using h g (by simp))]
        exact ih fun x hx => h x (by simp [hx])
    rw [unmarshalN]
    unfold unmarshalBody
    rw [UM.bind_def, recordLoop, if_neg (by simp [nested])]
    simp only [UM.pure_def]
    rw [hcr _ _ (hreq t), UM.lift_ok_bind, if_neg (by omega)]
    rfl
  | cons f fs ih =>
    intro t hc hreq hF k hk off
    obtain ⟨k, rfl⟩ : ∃ q, k = q + 1 := ⟨k - 1, by simp at hk; omega⟩
    cases hc with
    | cons h1 h2 h3 h4 h5 =>
      rw [unmarshalN]
      refine nested_step hS hA hp _ h1 h2 h3 h4 hF off (fun off => ih _ h5 hreq ?_ k (by simpa using hk) off) (.inr ⟨rfl, hreq t⟩)
      unfold Arch.Fits at hF ⊢
      simp only [nested, delimited, List.length_append] at hF
      omega

end

end Vtp
