import Verif.Lemmas.Reject
/-! Packed records: where their elements end, and how many there are. -/

namespace Vtp
open Spec

section
variable {E : UEnv} {t : Nat} {d : Bytes} {i : Nat}

theorem Spec.Leb.countP {bs : Bytes} (h : Leb bs) : bs.countP (· < 128) = 1 := by
  induction h with
  | last b hb => simp [hb]
  | more b bs hb _ ih =>
    rw [List.countP_cons, ih]
    have : ¬ b < 128 := by
      intro h
      have h1 : b.toNat < 128 := h
      have h2 : 128 ≤ b.toNat := hb
      omega
    simp [this]

theorem readNum_piece {A : Arch} (hA : A.Valid) {k : Kind} (hk : numeric k = true) (hF : A.Fits d.length) (hi : i ≤ d.length) {v : BitVec 64} {j : Nat}
    (h : readNum A k d i = .ok (v, j)) : ∃ bs, Piece k bs ∧ d.drop i = bs ++ d.drop j ∧ i < j ∧ j ≤ d.length := by
  have hfix : ∀ n, 0 < n → n ≤ 8 → (wireType k = 1 ∧ n = 8 ∨ wireType k = 5 ∧ n = 4) → ∀ {x j}, decodeFixed A n d i = .ok (x, j) →
      ∃ bs, Piece k bs ∧ d.drop i = bs ++ d.drop j ∧ i < j ∧ j ≤ d.length := by
    intro n hn hn8 hw x j h
    unfold decodeFixed at h
    unfold Arch.Fits at hF
    rw [Arch.wrap_small hA _ (by omega) (by omega)] at h
    split at h
    · cases h
    · rename_i h1
      split at h
      · simp only [Res.ok.injEq, Prod.mk.injEq] at h
        obtain ⟨_, rfl⟩ := h
        refine ⟨(d.drop i).take n, ?_, ?_, by omega, by omega⟩
        · have : ((d.drop i).take n).length = n := by simp; omega
          rcases hw with ⟨hw, rfl⟩ | ⟨hw, rfl⟩
          · exact .i64 hw this
          · exact .i32 hw this
        · rw [← List.drop_drop, List.take_append_drop]
      · cases h
  have hvar : ∀ w, wireType k = 0 → ∀ {x : BitVec w} {j}, decodeVarint w d i = .ok (x, j) →
      ∃ bs, Piece k bs ∧ d.drop i = bs ++ d.drop j ∧ i < j ∧ j ≤ d.length := by
    intro w hw x j h
    obtain ⟨bs, h1, h2, h3, h4, h5, _⟩ := decodeVarint_ok w d i hi h
    have := h1.length_pos
    exact ⟨bs, .varint hw h1 h2, h3, by omega, h5⟩
  cases k <;> simp [numeric] at hk <;> simp only [readNum] at h <;> (
    obtain ⟨⟨x, j'⟩, h1, h2⟩ := Res.bind_eq_ok.1 h
    simp only [Res.ok.injEq, Prod.mk.injEq] at h2
    obtain ⟨_, rfl⟩ := h2
    first
    | exact hvar _ rfl h1
    | exact hfix _ (by decide) (by decide) (by decide) h1)

/-- The elements of a packed record that is read to the end of the input make up the record. -/
theorem packedLoop_pieces (hA : E.A.Valid) (hF : E.A.Fits d.length) {rec : SubDec} {D : MsgDesc} {f : FieldDesc} (hk : numeric f.kind = true)
    (ho : f.oneof = false) (hr : f.card = .repeated) {wire : BitVec 64} {base : Nat} :
    ∀ (n i : Nat) {m m' : Val} {j : Nat}, i ≤ d.length → packedLoop E rec D f wire d base d.length n i m = (m', .ok j) → Pieces f.kind (d.drop i) := by
  intro n
  induction n with
  | zero => intro i m m' j hi h; simp [packedLoop] at h
  | succ n ih =>
    intro i m m' j hi h
    rw [packedLoop] at h
    split at h
    · obtain ⟨m1, k, h1, h2⟩ := UM.bind_eq h
      have : ∃ v, readNum E.A f.kind d i = .ok (v, k) := by
        unfold fieldItem at h1
        cases hkk : f.kind <;> simp only [hkk, numeric, Bool.false_eq_true] at h1 hk <;> (
          simp only [ho, hr, Bool.not_false, bne_self_eq_false, Bool.and_false, Bool.false_and, Bool.false_eq_true, if_false] at h1
          obtain ⟨_, ⟨v, k⟩, h3, h4⟩ := UM.bind_eq h1
          obtain ⟨_, h3⟩ := UM.lift_eq h3
          obtain ⟨_, _, _, h5⟩ := UM.bind_eq h4
          obtain ⟨_, rfl⟩ := UM.pure_eq h5
          exact ⟨v, h3⟩)
      obtain ⟨v, h3⟩ := this
      obtain ⟨bs, p1, p2, p3, p4⟩ := readNum_piece hA hk hF hi h3
      rw [p2]
      exact .cons p1 (ih k p4 h2)
    · rw [List.drop_of_length_le (by omega)]
      exact .nil

theorem elementCount_le (k : Kind) (b : Bytes) : elementCount k b ≤ b.length := by
  cases k <;> simp only [elementCount] <;> first | omega | exact List.countP_le_length | exact Nat.div_le_self _ _

theorem elementCount_packed {k : Kind} {b : Bytes} {vs : List Val} (h : Packed k b vs) :
    (k ≠ .bool → k ≠ .enum → numeric k = true → elementCount k b = vs.length) ∧ (k = .bool → vs.length ≤ elementCount k b) := by
  induction h with
  | nil => cases k <;> simp [elementCount]
  | @cons p bs rest v vs hp hv _ ih =>
    cases hp with
    | varint hx =>
      have h1 := hx.shape.countP
      have h2 := hx.shape.length_pos
      refine ⟨fun a b c => ?_, fun a => ?_⟩
      · have := ih.1 a b c
        cases k <;> simp [scalarValue, wireType, numeric] at a b c hv <;> simp only [elementCount, List.countP_append, List.length_cons] at this ⊢ <;> omega
      · subst a
        have := ih.2 rfl
        simp only [elementCount, List.length_append, List.length_cons] at this ⊢
        omega
    | i64 hl =>
      refine ⟨fun a b c => ?_, fun a => ?_⟩
      · have := ih.1 a b c
        cases k <;> simp [scalarValue, wireType, numeric] at a b c hv <;> simp only [elementCount, List.length_append, List.length_cons] at this ⊢ <;> omega
      · subst a
        simp [scalarValue, wireType] at hv
    | i32 hl =>
      refine ⟨fun a b c => ?_, fun a => ?_⟩
      · have := ih.1 a b c
        cases k <;> simp [scalarValue, wireType, numeric] at a b c hv <;> simp only [elementCount, List.length_append, List.length_cons] at this ⊢ <;> omega
      · subst a
        simp [scalarValue, wireType] at hv

/-- A packed record at the end of the input is read only if it is a whole number of elements. -/
theorem recordStep_pieces (hE : DecodeEnv E) {f : FieldDesc} (hmem : f ∈ (E.S.msg t).fields) (hr : f.card = .repeated) (hk : numeric f.kind = true)
    {rec : SubDec} {base : Nat} {tag lb bs : Bytes} (htag : IsVarint (f.num * 8 + 2) tag) (hlb : IsVarint bs.length lb) (hF : E.A.Fits d.length) (hi : i ≤ d.length)
    (hd : d.drop i = tag ++ (lb ++ bs)) {has has' : List (BitVec 64)} {m m' : Val} {j : Nat}
    (h : recordStep E rec t d base i has m = (m', .ok (j, has'))) : Pieces f.kind bs := by
  have hM := schemaOK_msg hE.schema t
  have hff := hM.fields f hmem
  have hmap : f.map = none := by
    cases hc : f.map with
    | none => rfl
    | some md =>
      have := (hff.map md hc).2.1
      rw [this] at hk
      cases hk
  have ho : f.oneof = false := by
    cases hc : f.oneof with
    | false => rfl
    | true => have := (hff.oneof hc).1; rw [hr] at this; cases this
  have hv : ValidNum f.num := ⟨hff.pos, hff.small⟩
  obtain ⟨b1, _⟩ := tag_bits hv (show 2 < 8 by omega)
  have hi2 := le_of_drop hd hi
  have hd2 := drop_add hd
  rw [recordStep_tag rec base has hv (by decide) htag hd, if_neg (by decide), find_num hM hmem] at h
  simp only at h
  obtain ⟨m1, k, h1, _⟩ := UM.bind_eq h
  unfold fieldCase at h1
  simp only [b1] at h1
  have hc : (f.isList && protoWireType f.kind != 2) = true := by
    simp only [FieldDesc.isList, hr, hmap]
    cases hkk : f.kind <;> simp [hkk, numeric] at hk <;> rfl
  rw [if_pos hc, if_neg (by intro c; simp [← c] at hc)] at h1
  simp only [if_true] at h1
  have hlen : i + tag.length + (lb ++ bs).length = d.length := by
    have := congrArg List.length hd
    simp at this ⊢; omega
  rw [readSpan_len hE.arch (.inr rfl) hF hi2 hlb (rest := []) (by rw [hd2]; simp), UM.lift_ok_bind] at h1
  simp only at h1
  rw [hlen] at h1
  obtain ⟨_, _, _, h1⟩ := UM.bind_eq h1
  obtain ⟨_, _, _, h1⟩ := UM.bind_eq h1
  have := packedLoop_pieces hE.arch hF hk ho hr _ _ (by simp at hlen; omega) h1
  rw [← List.drop_drop, hd2] at this
  simpa using this

end

end Vtp
