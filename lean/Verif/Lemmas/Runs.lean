import Verif.Model.Marshal
import Verif.Spec.Encode
import Verif.Lemmas.Key
import Verif.Lemmas.Zigzag
/-!
# What a piece of backwards-writing code does

`Runs w e n`: from any buffer and index, `w` writes the bytes `e` just below the index and moves
the index down by `n`; panics if there is no room; returns an error if there is no encoding.
-/

namespace Vtp
open Spec

/-- See the module comment. -/
def Runs (w : Writer) (e : Option Bytes) (n : Nat) : Prop :=
  match e with
  | some b => b.length = n ∧ ∀ (buf : Bytes) (i : Nat), i ≤ buf.length →
      (n ≤ i → w ⟨buf, i⟩ = .ok ⟨splice buf (i - n) b, ((i - n : Nat) : Int)⟩) ∧ (i < n → (w ⟨buf, i⟩).Panics)
  | none => ∀ (buf : Bytes) (i : Nat), i ≤ buf.length →
      (n ≤ i → ∃ er, w ⟨buf, i⟩ = .err er) ∧ ((∃ er, w ⟨buf, i⟩ = .err er) ∨ (w ⟨buf, i⟩).Panics)

/-- The same for a method with its own buffer: the bytes go to the end of it. -/
def RunsSized (f : Bytes → Res (Bytes × Nat)) (e : Option Bytes) (n : Nat) : Prop :=
  match e with
  | some b => b.length = n ∧ ∀ (buf : Bytes),
      (n ≤ buf.length → f buf = .ok (buf.take (buf.length - n) ++ b, n)) ∧ (buf.length < n → (f buf).Panics)
  | none => ∀ (buf : Bytes),
      (n ≤ buf.length → ∃ er, f buf = .err er) ∧ ((∃ er, f buf = .err er) ∨ (f buf).Panics)

theorem Runs.length {w : Writer} {b : Bytes} {n : Nat} (h : Runs w (some b) n) : b.length = n := h.1

theorem splice_take {buf : Bytes} {i : Nat} {b : Bytes} (h : i ≤ buf.length) :
    (splice buf i b).take i = buf.take i := by
  rw [splice, List.append_assoc, List.take_append_of_le_length (by simp; omega), List.take_take, Nat.min_self]

theorem splice_drop {buf : Bytes} {i : Nat} {b : Bytes} (h : i ≤ buf.length) :
    (splice buf i b).drop (i + b.length) = buf.drop (i + b.length) := by
  rw [splice]
  have : (buf.take i ++ b).length = i + b.length := by simp; omega
  rw [← this, List.drop_left]

/-- Writing `b` below `a`. -/
theorem splice_below (buf : Bytes) (i : Nat) (a b : Bytes) (h : i + b.length + a.length ≤ buf.length) :
    splice (splice buf (i + b.length) a) i b = splice buf i (b ++ a) := by
  have h1 : (buf.take (i + b.length)).length = i + b.length := by simp; omega
  have e1 : (splice buf (i + b.length) a).take i = buf.take i := by
    rw [splice, List.append_assoc, List.take_append_of_le_length (by omega), List.take_take]
    congr 1; omega
  have e2 : (splice buf (i + b.length) a).drop (i + b.length) = a ++ buf.drop (i + b.length + a.length) := by
    rw [splice, List.append_assoc, List.drop_append_of_le_length (by omega), List.drop_eq_nil_of_le (by omega),
      List.nil_append]
  conv_lhs => rw [splice]
  rw [e1, e2]
  simp [splice, Nat.add_assoc]

theorem Runs.skip : Runs Writer.skip (some []) 0 :=
  ⟨rfl, fun buf i _ => ⟨fun _ => by simp [Writer.skip, splice_nil], fun h => by omega⟩⟩

theorem Runs.fail (e : Err) (n : Nat) : Runs (Writer.fail e) none n :=
  fun _ _ _ => ⟨fun _ => ⟨e, rfl⟩, .inl ⟨e, rfl⟩⟩

theorem Res.Panics.bind {α β : Type} {r : Res α} (h : r.Panics) (f : α → Res β) : (r >>= f).Panics := by
  cases r <;> simp_all [Res.Panics]

/-- Concatenation of two optional encodings. -/
def optAppend (a b : Option Bytes) : Option Bytes := do
  let x ← a
  let y ← b
  some (x ++ y)

@[simp] theorem optAppend_some (a b : Bytes) : optAppend (some a) (some b) = some (a ++ b) := rfl
@[simp] theorem optAppend_none_left (b : Option Bytes) : optAppend none b = none := rfl
@[simp] theorem optAppend_none_right (a : Option Bytes) : optAppend a none = none := by cases a <;> rfl
@[simp] theorem optAppend_nil (a : Option Bytes) : optAppend a (some []) = a := by
  cases a <;> simp
@[simp] theorem nil_optAppend (a : Option Bytes) : optAppend (some []) a = a := by
  cases a <;> simp

theorem optAppend_assoc (a b c : Option Bytes) : optAppend (optAppend a b) c = optAppend a (optAppend b c) := by
  cases a <;> cases b <;> cases c <;> simp

theorem concat_cons (a : Option Bytes) (l : List (Option Bytes)) : concat (a :: l) = optAppend a (concat l) := rfl

theorem concat_append (a b : List (Option Bytes)) : concat (a ++ b) = optAppend (concat a) (concat b) := by
  induction a with
  | nil => simp [concat]
  | cons x xs ih => rw [List.cons_append, concat_cons, ih, concat_cons, optAppend_assoc]

theorem Runs.seq {w u : Writer} {a b : Option Bytes} {n m : Nat} (hw : Runs w a n) (hu : Runs u b m) :
    Runs (Writer.seq w u) (optAppend b a) (n + m) := by
  cases a with
  | none =>
    rw [optAppend_none_right]
    intro buf i hi
    have h := hw buf i hi
    constructor
    · intro hn
      obtain ⟨er, he⟩ := h.1 (by omega)
      exact ⟨er, by simp [Writer.seq, he]⟩
    · rcases h.2 with ⟨er, he⟩ | hp
      · exact .inl ⟨er, by simp [Writer.seq, he]⟩
      · exact .inr (hp.bind _)
  | some a =>
    obtain ⟨hl, hw⟩ := hw
    cases b with
    | none =>
      intro buf i hi
      have h := hw buf i hi
      by_cases hn : n ≤ i
      · have h2 := hu (splice buf (i - n) a) (i - n) (by rw [splice_length _ _ _ (by omega)]; omega)
        simp only [Writer.seq, h.1 hn, Res.bind_ok]
        exact ⟨fun hm => h2.1 (by omega), h2.2⟩
      · exact ⟨fun hm => by omega, .inr ((h.2 (by omega)).bind _)⟩
    | some b =>
      obtain ⟨hl2, hu⟩ := hu
      refine ⟨by simp; omega, fun buf i hi => ?_⟩
      have h := hw buf i hi
      constructor
      · intro hn
        have h2 := (hu (splice buf (i - n) a) (i - n) (by rw [splice_length _ _ _ (by omega)]; omega)).1 (by omega)
        simp only [Writer.seq, h.1 (by omega), Res.bind_ok, h2]
        have e : i - n = i - (n + m) + b.length := by omega
        rw [show i - n - m = i - (n + m) by omega]
        conv_lhs => rw [e]
        rw [splice_below _ _ _ _ (by omega)]
      · intro hn
        by_cases hn' : n ≤ i
        · have h2 := (hu (splice buf (i - n) a) (i - n) (by rw [splice_length _ _ _ (by omega)]; omega)).2 (by omega)
          simp only [Writer.seq, h.1 hn', Res.bind_ok]
          exact h2
        · exact (h.2 (by omega)).bind _

theorem Runs.each {α : Type} {f : α → Writer} {e : α → Option Bytes} {n : α → Nat} (l : List α)
    (h : ∀ a ∈ l, Runs (f a) (e a) (n a)) :
    Runs (Writer.each f l) (concat (l.reverse.map e)) (l.map n).sum := by
  induction l with
  | nil => exact Runs.skip
  | cons a as ih =>
    have h1 := ih (fun x hx => h x (by simp [hx]))
    have h2 := (h a (by simp)).seq h1
    simp only [List.reverse_cons, List.map_append, List.map_cons, List.map_nil, List.sum_cons]
    rw [concat_append]
    rw [Writer.each]
    simpa [concat_cons, concat] using h2

theorem Runs.eachReverse {α : Type} {f : α → Writer} {e : α → Option Bytes} {n : α → Nat} (l : List α)
    (h : ∀ a ∈ l, Runs (f a) (e a) (n a)) :
    Runs (Writer.each f l.reverse) (concat (l.map e)) (l.map n).sum := by
  have := Runs.each (f := f) (e := e) (n := n) l.reverse (fun a ha => h a (by simpa using ha))
  simpa [List.sum_reverse] using this

theorem Runs.byte (b : UInt8) : Runs (Writer.byte b) (some [b]) 1 := by
  refine ⟨rfl, fun buf i hi => ⟨fun h => ?_, fun h => ?_⟩⟩
  · have e : (i : Int) - 1 = ((i - 1 : Nat) : Int) := by omega
    simp only [Writer.byte, e, putByte_nat buf (i - 1) b (by omega), Res.bind_ok]
  · have : i = 0 := by omega
    subst this
    simp [Writer.byte, putByte, Res.Panics]

theorem Runs.bytesReverse (l : Bytes) : Runs (Writer.each Writer.byte l.reverse) (some l) l.length := by
  have := Runs.eachReverse (f := Writer.byte) (e := fun b => some [b]) (n := fun _ => 1) l (fun b _ => Runs.byte b)
  have e : concat (l.map fun b => some [b]) = some l := by
    clear this
    induction l with
    | nil => rfl
    | cons a as ih => rw [List.map_cons, concat_cons, ih]; rfl
  rw [e] at this
  simpa using this

theorem Runs.key (num wt : Nat) (hn : num < 2 ^ 29) (hw : wt < 8) :
    Runs (Writer.key num wt) (some (tag num wt)) (keySize num wt) := by
  rw [keySize_eq num wt hn hw, tag, ← keyBuf_eq num wt hn hw]
  exact Runs.bytesReverse _

theorem Runs.varint (v : BitVec 64) : Runs (Writer.varint v) (some (Spec.varint v.toNat)) (sizeOfVarint v) := by
  rw [sizeOfVarint_eq]
  refine ⟨rfl, fun buf i hi => ⟨fun h => ?_, fun h => ?_⟩⟩
  · simp only [Writer.varint, encodeVarint_spec buf i v hi h, Res.bind_ok]
  · simp [Writer.varint, encodeVarint_short buf i v h, Res.Panics]

theorem leBytes_length (n v : Nat) : (leBytes n v).length = n := by
  induction n generalizing v with
  | zero => rfl
  | succ n ih => simp [leBytes, ih]

theorem leBytes_eq (n v : Nat) : leBytes n v = littleEndian n v := by
  induction n generalizing v with
  | zero => rfl
  | succ n ih =>
    rw [leBytes, ih, littleEndian, littleEndian, List.range_succ_eq_map]
    simp only [List.map_cons, Nat.pow_zero, Nat.div_one, List.map_map, List.cons.injEq, true_and]
    apply List.map_congr_left
    intro k _
    simp only [Function.comp]
    rw [Nat.pow_succ, Nat.mul_comm, Nat.div_div_eq_div_mul]

theorem Runs.fixed (n : Nat) (v : BitVec 64) : Runs (Writer.fixed n v) (some (littleEndian n v.toNat)) n := by
  rw [← leBytes_eq]
  refine ⟨leBytes_length _ _, fun buf i hi => ⟨fun h => ?_, fun h => ?_⟩⟩
  · have e : (i : Int) - n = ((i - n : Nat) : Int) := by omega
    simp only [Writer.fixed, e]
    rw [if_pos (by omega), if_pos (by omega), Int.toNat_natCast]
    simp [splice, leBytes_length]
  · simp only [Writer.fixed]
    rw [if_neg (by omega)]
    trivial

theorem Runs.copy (b : Bytes) : Runs (Writer.copy b) (some b) b.length := by
  refine ⟨rfl, fun buf i hi => ⟨fun h => ?_, fun h => ?_⟩⟩
  · have e : (i : Int) - b.length = ((i - b.length : Nat) : Int) := by omega
    simp only [Writer.copy, e]
    rw [if_pos (by omega), Int.toNat_natCast, List.take_of_length_le (l := b) (by omega)]
    rfl
  · simp only [Writer.copy]
    rw [if_neg (by omega)]
    trivial

theorem Runs.call {f : Bytes → Res (Bytes × Nat)} {e : Option Bytes} {n : Nat} (h : RunsSized f e n) :
    Runs (Writer.call f) e n := by
  have ht : ∀ (buf : Bytes) (i : Nat), i ≤ buf.length → (buf.take i).length = i := by intros; simp; omega
  cases e with
  | none =>
    intro buf i hi
    have h1 := h (buf.take i)
    rw [ht buf i hi] at h1
    simp only [Writer.call]
    rw [if_pos (by omega)]
    simp only [Int.toNat_natCast]
    constructor
    · intro hn
      obtain ⟨er, he⟩ := h1.1 hn
      exact ⟨er, by simp [he]⟩
    · rcases h1.2 with ⟨er, he⟩ | hp
      · exact .inl ⟨er, by simp [he]⟩
      · exact .inr (hp.bind _)
  | some b =>
    refine ⟨h.1, fun buf i hi => ?_⟩
    have h1 := h.2 (buf.take i)
    have hl := h.1
    rw [ht buf i hi] at h1
    simp only [Writer.call]
    rw [if_pos (by omega)]
    simp only [Int.toNat_natCast]
    constructor
    · intro hn
      rw [h1.1 hn]
      simp only [Res.bind_ok, Res.ok.injEq, WState.mk.injEq]
      refine ⟨?_, by omega⟩
      rw [splice, List.take_take, Nat.min_eq_left (by omega)]
      congr 2
      omega
    · intro hn
      exact (h1.2 hn).bind _

theorem RunsSized.runSized {w : Writer} {e : Option Bytes} {n : Nat} (h : Runs w e n) : RunsSized (runSized w) e n := by
  cases e with
  | none =>
    intro buf
    have h1 := h buf buf.length (Nat.le_refl _)
    simp only [Vtp.runSized]
    constructor
    · intro hn
      obtain ⟨er, he⟩ := h1.1 hn
      exact ⟨er, by simp [he]⟩
    · rcases h1.2 with ⟨er, he⟩ | hp
      · exact .inl ⟨er, by simp [he]⟩
      · exact .inr (hp.bind _)
  | some b =>
    refine ⟨h.1, fun buf => ?_⟩
    have h1 := h.2 buf buf.length (Nat.le_refl _)
    have hl := h.1
    simp only [Vtp.runSized]
    constructor
    · intro hn
      rw [h1.1 hn]
      simp only [Res.bind_ok, Res.ok.injEq, Prod.mk.injEq]
      refine ⟨?_, by omega⟩
      rw [splice, List.drop_eq_nil_of_le (by omega), List.append_nil]
    · intro hn
      exact (h1.2 hn).bind _

/-- Encoding prefixed with its length. -/
def optDelimited (e : Option Bytes) : Option Bytes := e.map delimited

theorem Runs.measured {w : Writer} {e : Option Bytes} {n : Nat} (h : Runs w e n) :
    Runs (Writer.measured w) (optDelimited e) (n + sizeOfVarint (u64 n)) := by
  cases e with
  | none =>
    intro buf i hi
    have h1 := h buf i hi
    simp only [Writer.measured]
    constructor
    · intro hn
      obtain ⟨er, he⟩ := h1.1 (by omega)
      exact ⟨er, by simp [he]⟩
    · rcases h1.2 with ⟨er, he⟩ | hp
      · exact .inl ⟨er, by simp [he]⟩
      · exact .inr (hp.bind _)
  | some b =>
    have hl := h.1
    have h2 := h.seq (Runs.varint (u64 n))
    have e1 : (u64 n).toNat = b.length % 2 ^ 64 := by rw [u64, BitVec.toNat_ofNat, hl]
    rw [e1] at h2
    refine ⟨h2.1, fun buf i hi => ?_⟩
    have h3 := h2.2 buf i hi
    have h1 := h.2 buf i hi
    by_cases hn : n ≤ i
    · have : Writer.measured w ⟨buf, i⟩ = Writer.seq w (Writer.varint (u64 n)) ⟨buf, i⟩ := by
        simp only [Writer.measured, Writer.seq, h1.1 hn, Res.bind_ok]
        congr 3
        omega
      rw [this]
      exact h3
    · refine ⟨fun h => by omega, fun _ => ?_⟩
      exact (h1.2 (by omega)).bind _

/-! ### Packed varints -/

theorem packedVarintLoop_spec : ∀ (n : Nat) (buf : Bytes) (off : Nat) (v : BitVec 64),
    0 < n → v.toNat < 128 ^ n → off + (leb n v.toNat).length ≤ buf.length →
    packedVarintLoop n buf off v = .ok (splice buf off (leb n v.toNat), ((off + (leb n v.toNat).length : Nat) : Int)) := by
  intro n
  induction n with
  | zero => intro _ _ _ h; omega
  | succ n ih =>
    intro buf off v _ hv hlen
    rw [packedVarintLoop]
    rw [leb] at hlen ⊢
    by_cases h : v.toNat < 128
    · rw [if_pos h] at hlen ⊢
      simp only [List.length_singleton] at hlen
      rw [if_neg (by omega), putByte_nat _ _ _ (by omega), bv_low_byte]
      simp
    · rw [if_neg h] at hlen ⊢
      have hn : 0 < n := by
        rcases Nat.eq_zero_or_pos n with h0 | h0
        · subst h0; simp at hv; omega
        · exact h0
      have e : (v >>> 7).toNat = v.toNat / 128 := by
        rw [BitVec.toNat_ushiftRight, Nat.shiftRight_eq_div_pow]
      simp only [List.length_cons] at hlen
      rw [if_pos (by omega), putByte_nat _ _ _ (by omega), Res.bind_ok, bv_cont_byte]
      have e2 : (off : Int) + 1 = ((off + 1 : Nat) : Int) := by omega
      rw [e2, ih _ (off + 1) (v >>> 7) hn (by rw [e, Nat.div_lt_iff_lt_mul (by omega)]; rw [Nat.pow_succ] at hv; omega)
        (by rw [e, splice_length _ _ _ (by simp; omega)]; omega), e]
      simp only [Res.ok.injEq, Prod.mk.injEq]
      refine ⟨?_, by simp; omega⟩
      have := splice_splice buf off [UInt8.ofNat (v.toNat % 128 + 128)] (leb n (v.toNat / 128)) (by simp; omega)
      simpa using this

theorem packedVarints_spec : ∀ (vs : List (BitVec 64)) (buf : Bytes) (off : Nat),
    off + (vs.map fun v => Spec.varint v.toNat).flatten.length ≤ buf.length →
    packedVarints vs buf off = .ok (splice buf off (vs.map fun v => Spec.varint v.toNat).flatten) := by
  intro vs
  induction vs with
  | nil => intro buf off _; simp [packedVarints, splice_nil]
  | cons v vs ih =>
    intro buf off h
    simp only [List.map_cons, List.flatten_cons, List.length_append] at h
    rw [packedVarints, packedVarintLoop_spec 10 _ _ _ (by omega) (by have := v.isLt; omega)
      (by simp only [Spec.varint] at h; omega)]
    rw [Res.bind_ok]
    simp only
    change packedVarints vs (splice buf off (Spec.varint v.toNat)) ((off + (Spec.varint v.toNat).length : Nat) : Int) = _
    rw [ih _ _ (by rw [splice_length _ _ _ (by omega)]; omega), splice_splice _ _ _ _ (by omega)]
    simp

theorem packedVarints_neg (v : BitVec 64) (vs : List (BitVec 64)) (buf : Bytes) (off : Int) (h : off < 0) :
    (packedVarints (v :: vs) buf off).Panics := by
  rw [packedVarints]
  apply Res.Panics.bind
  rw [packedVarintLoop]
  have : ∀ b, putByte buf off b = .panic .indexOutOfRange := by intro b; rw [putByte, if_neg (by omega)]
  split <;> simp [this, Res.Panics]

/-- The packed block of a varint field: move down, write the elements forwards. -/
theorem Runs.packed (vs : List (BitVec 64)) (total : Nat) (h : total = (vs.map sizeOfVarint).sum) :
    Runs (fun s => packedVarints vs s.buf (s.i - total) >>= fun buf => .ok ⟨buf, s.i - total⟩)
      (some (vs.map fun v => Spec.varint v.toNat).flatten) total := by
  have hl : (vs.map fun v => Spec.varint v.toNat).flatten.length = total := by
    rw [h, List.length_flatten, List.map_map]
    congr 1
    apply List.map_congr_left
    intro v _
    simp [sizeOfVarint_eq]
  refine ⟨hl, fun buf i hi => ⟨fun hn => ?_, fun hn => ?_⟩⟩
  · have e : (i : Int) - total = ((i - total : Nat) : Int) := by omega
    simp only [e]
    rw [packedVarints_spec vs buf (i - total) (by omega)]
    rfl
  · cases vs with
    | nil => simp at h; omega
    | cons v vs => exact (packedVarints_neg v vs buf ((i : Int) - total) (by omega)).bind _

end Vtp
