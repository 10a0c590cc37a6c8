import Verif.Lemmas.Varint
import Verif.Spec.Loose
/-! Lemmas on `Skip`. -/

namespace Vtp
open Spec

theorem Arch.Valid.pos {A : Arch} (h : A.Valid) : 32 ≤ A.bits := by
  rcases h with h | h <;> omega

theorem two_pow_pred {n : Nat} (h : 1 ≤ n) : 2 ^ n = 2 * 2 ^ (n - 1) := by
  obtain ⟨k, rfl⟩ : ∃ k, n = k + 1 := ⟨n - 1, by omega⟩
  rw [Nat.pow_succ]; simp; omega

theorem Arch.wrap_small {A : Arch} (hA : A.Valid) (x : Int) (h0 : 0 ≤ x) (h : x < (2 ^ (A.bits - 1) : Nat)) :
    A.wrap x = x := by
  have := hA.pos
  have hp := two_pow_pred (n := A.bits) (by omega)
  unfold Arch.wrap
  rw [Int.bmod_eq_of_le] <;> omega

theorem Arch.wrap_cases {A : Arch} (hA : A.Valid) (x : Int) (h0 : 0 ≤ x) (h : x < (2 ^ A.bits : Nat)) :
    A.wrap x = x ∧ x < (2 ^ (A.bits - 1) : Nat) ∨ A.wrap x < 0 ∧ (2 ^ (A.bits - 1) : Nat) ≤ x := by
  have := hA.pos
  have hp := two_pow_pred (n := A.bits) (by omega)
  by_cases hx : x < (2 ^ (A.bits - 1) : Nat)
  · exact .inl ⟨Arch.wrap_small hA x h0 hx, hx⟩
  · right
    refine ⟨?_, by omega⟩
    unfold Arch.wrap
    rw [Int.bmod_def, if_neg]
    · rw [Int.emod_eq_of_lt h0 h]; omega
    · rw [Int.emod_eq_of_lt h0 h]; omega

theorem bv_toInt_lt {A : Arch} (x : BitVec A.bits) : x.toInt < (2 ^ (A.bits - 1) : Nat) := by
  have := BitVec.toInt_lt (x := x); push_cast; exact this

/-- `Skip` started at index `i` with `depth` open groups. -/
def skipFrom (A : Arch) (d : Bytes) (i depth : Nat) : Res Nat := skipLoop A d (d.length - i + 1) i depth

/-- Lines 114-119 of `Skip`. -/
def skipNext (A : Arch) (d : Bytes) (i : Int) (depth : Nat) : Res Nat :=
  if i < 0 then .err .invalidLength
  else if depth = 0 then .ok i.toNat
  else skipFrom A d i.toNat depth

theorem skipVarintLoop_eq (d : Bytes) : ∀ (n k i : Nat) (a : BitVec 64),
    skipVarintLoop d n k i = (decodeVarintLoop 64 d n k i a >>= fun r => .ok r.2) := by
  intro n
  induction n with
  | zero => intro k i a; rfl
  | succ n ih =>
    intro k i a
    rw [skipVarintLoop, decodeVarintLoop]
    split
    · rfl
    · split
      · rfl
      · cases h : d[i]? with
        | none => rfl
        | some b =>
          simp only
          split
          · rfl
          · exact ih _ _ _

theorem skipVarint_eq (d : Bytes) (i : Nat) :
    skipVarintLoop d 11 0 i = (decodeVarint 64 d i >>= fun r => .ok r.2) :=
  skipVarintLoop_eq d 11 0 i 0

theorem bv_and7 (x : BitVec 64) : (x &&& 7).toNat = x.toNat % 8 := by
  have h : (7 : BitVec 64).toNat = 2 ^ 3 - 1 := rfl
  rw [BitVec.toNat_and, h, Nat.and_two_pow_sub_one_eq_mod]

/-- The body of the loop of `Skip` after the tag, with the continuation abstracted. -/
def skipBody (A : Arch) (d : Bytes) (next : Int → Nat → Res Nat) (wt : Nat) (i depth : Nat) : Res Nat :=
  match wt with
  | 0 => do
    let i ← skipVarintLoop d 11 0 i
    next i depth
  | 1 => next (A.wrap (i + 8)) depth
  | 2 => do
    let (length, i) ← decodeVarint A.bits d i
    if length.toInt < 0 then .err .invalidLength
    else next (A.wrap (i + length.toInt)) depth
  | 3 => next i (depth + 1)
  | 4 => if depth = 0 then .err .unexpectedEndOfGroup else next i (depth - 1)
  | 5 => next (A.wrap (i + 4)) depth
  | wt => .err (.illegalWireType wt)

theorem skipLoop_succ (A : Arch) (d : Bytes) (n i depth : Nat) :
    skipLoop A d (n + 1) i depth =
      if i < d.length then
        decodeVarint 64 d i >>= fun r =>
          skipBody A d (fun i depth => if i < 0 then .err .invalidLength
            else if depth = 0 then .ok i.toNat else skipLoop A d n i.toNat depth) (r.1.toNat % 8) r.2 depth
      else .err .unexpectedEOF := by
  rw [skipLoop]
  split
  · congr 1
    funext r
    obtain ⟨wire, j⟩ := r
    simp only [bv_and7, skipBody]
    rfl
  · rfl

/-- `skipBody` only calls its continuation at later indices (or negative ones). -/
theorem skipBody_congr (A : Arch) (hA : A.Valid) (d : Bytes) (hf : A.Fits d.length) (f g : Int → Nat → Res Nat)
    (wt i depth : Nat) (hi : i ≤ d.length)
    (h : ∀ (j : Int) k, (j < 0 ∨ (i : Int) ≤ j) → f j k = g j k) :
    skipBody A d f wt i depth = skipBody A d g wt i depth := by
  unfold Arch.Fits at hf
  unfold skipBody
  split
  · rw [skipVarint_eq]
    cases hv : decodeVarint 64 d i with
    | ok r =>
      obtain ⟨v, j⟩ := r
      have := decodeVarint_ok_lt 64 d i hi hv
      simp only [Res.bind_ok]
      exact h _ _ (.inr (by omega))
    | _ => rfl
  · exact h _ _ (.inr (by rw [Arch.wrap_small hA _ (by omega) (by omega)]; omega))
  · cases hv : decodeVarint A.bits d i with
    | ok r =>
      obtain ⟨v, j⟩ := r
      have := decodeVarint_ok_lt A.bits d i hi hv
      simp only [Res.bind_ok]
      split
      · rfl
      · apply h
        have h1 := bv_toInt_lt v
        have hp := two_pow_pred (n := A.bits) (by have := hA.pos; omega)
        rcases Arch.wrap_cases hA (j + v.toInt) (by omega) (by omega) with h2 | h2 <;> omega
    | _ => rfl
  · exact h _ _ (.inr (by omega))
  · split
    · rfl
    · exact h _ _ (.inr (by omega))
  · exact h _ _ (.inr (by rw [Arch.wrap_small hA _ (by omega) (by omega)]; omega))
  · rfl

/-- More fuel does not change the result. -/
theorem skipLoop_fuel (A : Arch) (hA : A.Valid) (d : Bytes) (hf : A.Fits d.length) :
    ∀ (n m i depth : Nat), d.length - i < n → d.length - i < m →
      skipLoop A d n i depth = skipLoop A d m i depth := by
  intro n
  induction n with
  | zero => intro m i depth h; omega
  | succ n ih =>
    intro m i depth hn hm
    obtain ⟨m, rfl⟩ : ∃ k, m = k + 1 := ⟨m - 1, by omega⟩
    rw [skipLoop_succ, skipLoop_succ]
    split
    · rename_i hi
      cases hv : decodeVarint 64 d i with
      | ok r =>
        obtain ⟨v, j⟩ := r
        have := decodeVarint_ok_lt 64 d i (by omega) hv
        simp only [Res.bind_ok]
        apply skipBody_congr A hA d hf _ _ _ _ _ (by omega)
        intro j' k hj
        split
        · rfl
        · split
          · rfl
          · exact ih m _ _ (by omega) (by omega)
      | _ => rfl
    · rfl

theorem skipFrom_eq (A : Arch) (hA : A.Valid) (d : Bytes) (hf : A.Fits d.length) (i depth : Nat) :
    skipFrom A d i depth =
      if i < d.length then
        decodeVarint 64 d i >>= fun r => skipBody A d (skipNext A d) (r.1.toNat % 8) r.2 depth
      else .err .unexpectedEOF := by
  rw [skipFrom, skipLoop_succ]
  split
  · rename_i hi
    cases hv : decodeVarint 64 d i with
    | ok r =>
      obtain ⟨v, j⟩ := r
      have := decodeVarint_ok_lt 64 d i (by omega) hv
      simp only [Res.bind_ok]
      apply skipBody_congr A hA d hf _ _ _ _ _ (by omega)
      intro j' k hj
      rw [skipNext]
      split
      · rfl
      · split
        · rfl
        · exact skipLoop_fuel A hA d hf _ _ _ _ (by omega) (by omega)
    | _ => rfl
  · rfl

theorem skip_eq_skipFrom (A : Arch) (d : Bytes) : skip A d = skipFrom A d 0 0 := rfl

/-- Case analysis of one iteration of `Skip` from index `i`: an error, or an item and a continuation. -/
inductive SkipStep (A : Arch) (d : Bytes) (i depth : Nat) : Res Nat → Prop where
  | fail (e : Err) : SkipStep A d i depth (.err e)
  | plain (r : Bytes) : LooseRecord A.bits r → d.drop i = r ++ d.drop (i + r.length) → i + r.length ≤ d.length →
      SkipStep A d i depth (skipNext A d (i + r.length : Nat) depth)
  | beyond (j : Nat) : d.length < j → i < j → SkipStep A d i depth (skipNext A d (j : Nat) depth)
  | start (tag : Bytes) : AnyVarint tag → varintValue tag % 8 = 3 → d.drop i = tag ++ d.drop (i + tag.length) →
      i + tag.length ≤ d.length → SkipStep A d i depth (skipNext A d (i + tag.length : Nat) (depth + 1))
  | stop (tag : Bytes) : AnyVarint tag → varintValue tag % 8 = 4 → d.drop i = tag ++ d.drop (i + tag.length) →
      i + tag.length ≤ d.length → 0 < depth → SkipStep A d i depth (skipNext A d (i + tag.length : Nat) (depth - 1))

theorem ofNat64_mod8 (n : Nat) : (BitVec.ofNat 64 n).toNat % 8 = n % 8 := by
  simp only [BitVec.toNat_ofNat]; omega

theorem drop_split {d a : Bytes} {i : Nat} (h : d.drop i = a ++ d.drop (i + a.length)) (n : Nat) :
    d.drop i = (a ++ (d.drop (i + a.length)).take n) ++ d.drop (i + a.length + n) := by
  rw [List.append_assoc, ← List.drop_drop (i := n), List.take_append_drop]; exact h

theorem skipFrom_step (A : Arch) (hA : A.Valid) (d : Bytes) (hf : A.Fits d.length) (i depth : Nat) :
    SkipStep A d i depth (skipFrom A d i depth) := by
  have hf' := hf
  unfold Arch.Fits at hf'
  rw [skipFrom_eq A hA d hf]
  split
  swap
  · exact .fail _
  rename_i hi
  rcases decodeVarint_cases 64 d i (by omega) with ⟨tag, h1, h2, h3, h4, h5⟩ | ⟨_, _, h5⟩ | ⟨_, _, h5⟩
  case inr.inl => rw [h5]; exact .fail _
  case inr.inr => rw [h5]; exact .fail _
  rw [h5]
  simp only [Res.bind_ok, ofNat64_mod8]
  have htag : AnyVarint tag := ⟨h1, h2⟩
  have hfix : ∀ n, n ≤ 8 → (∀ bs : Bytes, bs.length = n → LooseRecord A.bits (tag ++ bs)) →
      SkipStep A d i depth (skipNext A d (A.wrap ((i + tag.length : Nat) + n)) depth) := by
    intro n hn8 hrec
    rw [Arch.wrap_small hA _ (by omega) (by omega)]
    by_cases hl : i + tag.length + n ≤ d.length
    · have hlen : ((d.drop (i + tag.length)).take n).length = n := by simp; omega
      have := SkipStep.plain (A := A) (d := d) (i := i) (depth := depth) _ (hrec _ hlen)
        (by have := drop_split h3 n; simpa [hlen, Nat.add_assoc] using this) (by simp [hlen]; omega)
      rw [List.length_append, hlen] at this
      simpa [Int.add_assoc] using this
    · have := SkipStep.beyond (A := A) (d := d) (i := i) (depth := depth) (i + tag.length + n) (by omega) (by omega)
      simpa using this
  have h8 : varintValue tag % 8 < 8 := Nat.mod_lt _ (by omega)
  generalize hwt : varintValue tag % 8 = wt at h8
  match wt, h8 with
  | 0, _ =>
    simp only [skipBody, skipVarint_eq]
    rcases decodeVarint_cases 64 d (i + tag.length) h4 with ⟨bs, g1, g2, g3, g4, g5⟩ | ⟨_, _, h5⟩ | ⟨_, _, h5⟩
    · rw [g5]
      have := SkipStep.plain (A := A) (d := d) (i := i) (depth := depth) _ (LooseRecord.varint tag bs htag hwt ⟨g1, g2⟩)
        (by rw [h3, g3]; simp [Nat.add_assoc]) (by simp; omega)
      simpa [Nat.add_assoc] using this
    · rw [h5]; exact .fail _
    · rw [h5]; exact .fail _
  | 1, _ => exact hfix 8 (by omega) (fun bs hbs => .i64 tag bs htag hwt hbs)
  | 5, _ => exact hfix 4 (by omega) (fun bs hbs => .i32 tag bs htag hwt hbs)
  | 3, _ => exact .start tag htag hwt h3 h4
  | 4, _ =>
    simp only [skipBody]
    split
    · exact .fail _
    · exact .stop tag htag hwt h3 h4 (by omega)
  | 6, _ => exact .fail _
  | 7, _ => exact .fail _
  | 2, _ =>
    simp only [skipBody]
    rcases decodeVarint_cases A.bits d (i + tag.length) h4 with ⟨lb, g1, g2, g3, g4, g5⟩ | ⟨_, _, h5⟩ | ⟨_, _, h5⟩
    case inr.inl => rw [h5]; exact .fail _
    case inr.inr => rw [h5]; exact .fail _
    rw [g5]
    simp only [Res.bind_ok]
    split
    · exact .fail _
    rename_i hneg
    have hlt := bv_toInt_lt (A := A) (BitVec.ofNat A.bits (varintValue lb))
    have hp := two_pow_pred (n := A.bits) (by have := hA.pos; omega)
    generalize hL : (BitVec.ofNat A.bits (varintValue lb)).toInt = L at *
    obtain ⟨n, rfl⟩ : ∃ n : Nat, L = n := ⟨L.toNat, by omega⟩
    rcases Arch.wrap_cases hA ((i + tag.length + lb.length : Nat) + (n : Int)) (by omega) (by omega) with ⟨h6, _⟩ | ⟨h6, _⟩
    · rw [h6]
      by_cases hl : i + tag.length + lb.length + n ≤ d.length
      · have hlen : ((d.drop (i + tag.length + lb.length)).take n).length = n := by simp; omega
        have := SkipStep.plain (A := A) (d := d) (i := i) (depth := depth) _
          (LooseRecord.len tag lb ((d.drop (i + tag.length + lb.length)).take n) htag hwt ⟨g1, g2⟩ (by rw [seenInt, hL, hlen]))
          (by
            rw [h3, drop_split g3 n]
            rw [List.length_append, List.length_append, hlen]
            simp only [List.append_assoc, Nat.add_assoc])
          (by simp only [List.length_append, hlen]; omega)
        rw [List.length_append, List.length_append, hlen] at this
        simpa [Int.add_assoc] using this
      · have := SkipStep.beyond (A := A) (d := d) (i := i) (depth := depth) (i + tag.length + lb.length + n) (by omega) (by omega)
        simpa using this
    · rw [skipNext, if_pos h6]; exact .fail _


theorem Spec.LooseRecord.length_pos {w : Nat} {r : Bytes} (h : LooseRecord w r) : 1 ≤ r.length := by
  cases h with
  | varint _ _ h => have := h.1.length_pos; simp; omega
  | i64 _ _ h => have := h.1.length_pos; simp; omega
  | len _ _ _ h => have := h.1.length_pos; simp; omega
  | group _ _ _ h => have := h.1.length_pos; simp; omega
  | i32 _ _ h => have := h.1.length_pos; simp; omega

/-- `Skip` returns normally; on success the result is past the start. -/
theorem skipFrom_returns (A : Arch) (hA : A.Valid) (d : Bytes) (hf : A.Fits d.length) :
    ∀ (n i depth : Nat), d.length - i < n →
      (∃ j, skipFrom A d i depth = .ok j ∧ i < j) ∨ ∃ e, skipFrom A d i depth = .err e := by
  intro n
  induction n with
  | zero => intro i depth h; omega
  | succ n ih =>
    intro i depth hn
    have key : ∀ (j k : Nat), i < j →
        (∃ j', skipNext A d (j : Nat) k = .ok j' ∧ i < j') ∨ ∃ e, skipNext A d (j : Nat) k = .err e := by
      intro j k hj
      rw [skipNext, if_neg (by omega)]
      split
      · exact .inl ⟨_, rfl, by simpa using hj⟩
      · rw [Int.toNat_natCast]
        by_cases hl : j < d.length
        · rcases ih j k (by omega) with ⟨j', h1, h2⟩ | h
          · exact .inl ⟨j', h1, by omega⟩
          · exact .inr h
        · rw [skipFrom_eq A hA d hf, if_neg hl]; exact .inr ⟨_, rfl⟩
    have hs := skipFrom_step A hA d hf i depth
    generalize skipFrom A d i depth = R at hs
    cases hs with
    | fail e => exact .inr ⟨e, rfl⟩
    | plain r h1 h2 h3 =>
      apply key
      have := LooseRecord.length_pos h1
      omega
    | beyond j h h' => exact key _ _ h'
    | start tag h1 => have := h1.1.length_pos; exact key _ _ (by omega)
    | stop tag h1 => have := h1.1.length_pos; exact key _ _ (by omega)


/-- With `k` groups open, `bs` closes them all, the last byte closing the outermost. -/
inductive Closes (w : Nat) : Nat → Bytes → Prop where
  | done : Closes w 0 []
  | close (k : Nat) (body etag rest : Bytes) : LooseRecords w body → AnyVarint etag → varintValue etag % 8 = 4 →
      Closes w k rest → Closes w (k + 1) (body ++ (etag ++ rest))

theorem skipFrom_sound (A : Arch) (hA : A.Valid) (d : Bytes) (hf : A.Fits d.length) :
    ∀ (n i k m : Nat), d.length - i < n → skipFrom A d i (k + 1) = .ok m → m ≤ d.length → i ≤ m ∧
      Closes A.bits (k + 1) ((d.drop i).take (m - i)) := by
  intro n
  induction n with
  | zero => intro i k m h; omega
  | succ n ih =>
    intro i k m hn hm hml
    have hs := skipFrom_step A hA d hf i (k + 1)
    have hpos : ∀ bs, d.drop i = bs ++ d.drop (i + bs.length) → i + bs.length ≤ m →
        (d.drop i).take (m - i) = bs ++ (d.drop (i + bs.length)).take (m - (i + bs.length)) := by
      intro bs h hle
      rw [h, List.take_append, List.take_of_length_le (by omega)]
      rw [show m - i - bs.length = m - (i + bs.length) by omega]
    generalize hR : skipFrom A d i (k + 1) = R at hs hm
    have hj : ∀ (j k' : Nat), skipNext A d (j : Nat) (k' + 1) = .ok m → skipFrom A d j (k' + 1) = .ok m := by
      intro j k' h
      rw [skipNext, if_neg (by omega), if_neg (by omega), Int.toNat_natCast] at h
      exact h
    cases hs with
    | fail e => cases hm
    | plain r h1 h2 h3 =>
      have hp := LooseRecord.length_pos h1
      have h4 := ih _ _ _ (by omega) (hj _ _ hm) hml
      refine ⟨by omega, ?_⟩
      rw [hpos r h2 h4.1]
      generalize hB : (d.drop (i + r.length)).take (m - (i + r.length)) = B at h4
      cases h4.2 with
      | close _ body etag rest g1 g2 g3 g4 =>
        rw [← List.append_assoc]
        exact .close _ _ _ _ (.cons _ _ h1 g1) g2 g3 g4
    | beyond j h h' =>
      have := hj _ _ hm
      rw [skipFrom_eq A hA d hf, if_neg (by omega)] at this
      cases this
    | start tag h1 h2 h3 h4 =>
      have hp := h1.1.length_pos
      have h5 := ih _ _ _ (by omega) (hj _ _ hm) hml
      refine ⟨by omega, ?_⟩
      rw [hpos tag h3 h5.1]
      generalize hB : (d.drop (i + tag.length)).take (m - (i + tag.length)) = B at h5
      cases h5.2 with
      | close _ body etag rest g1 g2 g3 g4 =>
        cases g4 with
        | close _ body' etag' rest' e1 e2 e3 e4 =>
          have : tag ++ (body ++ (etag ++ (body' ++ (etag' ++ rest')))) =
              ((tag ++ (body ++ etag)) ++ body') ++ (etag' ++ rest') := by simp
          rw [this]
          exact .close _ _ _ _ (.cons _ _ (.group _ _ _ h1 h2 g1 g2 g3) e1) e2 e3 e4
    | stop tag h1 h2 h3 h4 h0 =>
      have hp := h1.1.length_pos
      simp only [Nat.add_sub_cancel] at hm
      cases k with
      | zero =>
        rw [skipNext, if_neg (by omega), if_pos rfl, Int.toNat_natCast] at hm
        simp only [Res.ok.injEq] at hm
        refine ⟨by omega, ?_⟩
        rw [hpos tag h3 (by omega), hm]
        have := Closes.close (w := A.bits) 0 [] tag [] .nil h1 h2 .done
        simpa using this
      | succ k =>
        have h5 := ih _ _ _ (by omega) (hj _ _ hm) hml
        refine ⟨by omega, ?_⟩
        rw [hpos tag h3 h5.1]
        exact .close _ [] tag _ .nil h1 h2 h5.2

/-- What `Skip` accepts is a (liberal) record. -/
theorem skip_sound (A : Arch) (hA : A.Valid) (d : Bytes) (hf : A.Fits d.length) (m : Nat)
    (h : skip A d = .ok m) (hm : m ≤ d.length) : LooseRecord A.bits (d.take m) := by
  rw [skip_eq_skipFrom] at h
  have hs := skipFrom_step A hA d hf 0 0
  generalize skipFrom A d 0 0 = R at hs h
  cases hs with
  | fail e => cases h
  | plain r h1 h2 h3 =>
    rw [skipNext, if_neg (by omega), if_pos rfl, Int.toNat_natCast] at h
    simp only [Res.ok.injEq] at h
    simp only [Nat.zero_add, List.drop_zero] at h2 h
    rw [h2, ← h, List.take_left]; exact h1
  | beyond j g g' =>
    rw [skipNext, if_neg (by omega), if_pos rfl, Int.toNat_natCast] at h
    simp only [Res.ok.injEq] at h
    omega
  | start tag h1 h2 h3 h4 =>
    rw [skipNext, if_neg (by omega), if_neg (by omega), Int.toNat_natCast] at h
    have h5 := skipFrom_sound A hA d hf _ _ _ _ (Nat.lt_succ_self _) h hm
    have h6 : d.take m = tag ++ (d.drop (0 + tag.length)).take (m - (0 + tag.length)) := by
      simp only [Nat.zero_add, List.drop_zero] at h3 h5 ⊢
      conv_lhs => rw [h3, List.take_append, List.take_of_length_le (by omega)]
    rw [h6]
    generalize (d.drop (0 + tag.length)).take (m - (0 + tag.length)) = B at h5
    cases h5.2 with
    | close _ body etag rest g1 g2 g3 g4 =>
      cases g4
      rw [List.append_nil]
      exact .group _ _ _ h1 h2 g1 g2 g3
  | stop tag h1 h2 h3 h4 h0 => omega

mutual
/-- Completeness: a liberal record is skipped exactly. -/
theorem skipFrom_record (A : Arch) (hA : A.Valid) (d : Bytes) (hf : A.Fits d.length) {r : Bytes}
    (h : LooseRecord A.bits r) (i depth : Nat) (rest : Bytes) (hd : d.drop i = r ++ rest) :
    skipFrom A d i depth = skipNext A d (i + r.length : Nat) depth := by
  have hlen : i + r.length ≤ d.length := by
    have := congrArg List.length hd
    have hp := LooseRecord.length_pos h
    simp at this; omega
  have hf' := hf
  unfold Arch.Fits at hf'
  have hrest : ∀ (a b : Bytes), d.drop i = a ++ b → d.drop (i + a.length) = b := by
    intro a b h
    rw [← List.drop_drop, h, List.drop_left]
  match h with
  | .varint tag bs h1 h2 h3 =>
    have hp := h1.1.length_pos
    simp only [List.append_assoc, List.length_append] at hd hlen ⊢
    rw [skipFrom_eq A hA d hf, if_pos (by omega), decodeVarint_of_leb 64 d tag _ i h1.1 h1.2 hd]
    simp only [Res.bind_ok, ofNat64_mod8, h2, skipBody, skipVarint_eq]
    rw [decodeVarint_of_leb 64 d bs _ _ h3.1 h3.2 (hrest _ _ hd)]
    simp [Int.add_assoc]
  | .i64 tag bs h1 h2 h3 =>
    have hp := h1.1.length_pos
    simp only [List.append_assoc, List.length_append] at hd hlen ⊢
    rw [skipFrom_eq A hA d hf, if_pos (by omega), decodeVarint_of_leb 64 d tag _ i h1.1 h1.2 hd]
    simp only [Res.bind_ok, ofNat64_mod8, h2, skipBody]
    rw [Arch.wrap_small hA _ (by omega) (by omega), h3]
    simp [Int.add_assoc]
  | .i32 tag bs h1 h2 h3 =>
    have hp := h1.1.length_pos
    simp only [List.append_assoc, List.length_append] at hd hlen ⊢
    rw [skipFrom_eq A hA d hf, if_pos (by omega), decodeVarint_of_leb 64 d tag _ i h1.1 h1.2 hd]
    simp only [Res.bind_ok, ofNat64_mod8, h2, skipBody]
    rw [Arch.wrap_small hA _ (by omega) (by omega), h3]
    simp [Int.add_assoc]
  | .len tag lb bs h1 h2 h3 h4 =>
    have hp := h1.1.length_pos
    simp only [List.append_assoc, List.length_append] at hd hlen ⊢
    rw [skipFrom_eq A hA d hf, if_pos (by omega), decodeVarint_of_leb 64 d tag _ i h1.1 h1.2 hd]
    simp only [Res.bind_ok, ofNat64_mod8, h2, skipBody]
    rw [decodeVarint_of_leb A.bits d lb _ _ h3.1 h3.2 (hrest _ _ hd)]
    rw [seenInt] at h4
    simp only [Res.bind_ok, h4]
    rw [if_neg (by omega), Arch.wrap_small hA _ (by omega) (by omega)]
    simp [Int.add_assoc]
  | .group tag body etag h1 h2 h3 h4 h5 =>
    have hp := h1.1.length_pos
    simp only [List.append_assoc, List.length_append] at hd hlen ⊢
    rw [skipFrom_eq A hA d hf, if_pos (by omega), decodeVarint_of_leb 64 d tag _ i h1.1 h1.2 hd]
    simp only [Res.bind_ok, ofNat64_mod8, h2, skipBody]
    rw [skipNext, if_neg (by omega), if_neg (by omega), Int.toNat_natCast]
    have hd2 := hrest _ _ hd
    rw [skipFrom_records A hA d hf h3 (i + tag.length) depth _ hd2]
    have hd3 : d.drop (i + tag.length + body.length) = etag ++ rest := by
      rw [← List.drop_drop, hd2, List.drop_left]
    have hp4 := h4.1.length_pos
    rw [skipFrom_eq A hA d hf, if_pos (by omega), decodeVarint_of_leb 64 d etag _ _ h4.1 h4.2 hd3]
    simp only [Res.bind_ok, ofNat64_mod8, h5, skipBody]
    simp [Nat.add_assoc]
theorem skipFrom_records (A : Arch) (hA : A.Valid) (d : Bytes) (hf : A.Fits d.length) {r : Bytes}
    (h : LooseRecords A.bits r) (i depth : Nat) (rest : Bytes) (hd : d.drop i = r ++ rest) :
    skipFrom A d i (depth + 1) = skipFrom A d (i + r.length) (depth + 1) := by
  match h with
  | .nil => rfl
  | .cons bs rs h1 h2 =>
    rw [List.append_assoc] at hd
    rw [skipFrom_record A hA d hf h1 i _ _ hd, skipNext, if_neg (by omega), if_neg (by omega), Int.toNat_natCast]
    rw [skipFrom_records A hA d hf h2 (i + bs.length) depth rest (by rw [← List.drop_drop, hd, List.drop_left])]
    simp [Nat.add_assoc]
end

theorem skip_complete (A : Arch) (hA : A.Valid) (r rest : Bytes) (hf : A.Fits (r ++ rest).length)
    (h : LooseRecord A.bits r) : skip A (r ++ rest) = .ok r.length := by
  rw [skip_eq_skipFrom, skipFrom_record A hA _ hf h 0 0 rest rfl, skipNext, if_neg (by omega), if_pos rfl]
  simp

theorem Spec.IsVarint.any {v : Nat} {bs : Bytes} (h : IsVarint v bs) : AnyVarint bs := ⟨h.shape, h.short⟩

theorem seenInt_of_small (A : Arch) (hA : A.Valid) {n : Nat} {lb : Bytes} (h : IsVarint n lb)
    (hn : n < 2 ^ (A.bits - 1)) : seenInt A.bits lb = n := by
  have hp := two_pow_pred (n := A.bits) (by have := hA.pos; omega)
  rw [seenInt, h.value, BitVec.toInt_ofNat']
  rw [Int.bmod_eq_of_le] <;> omega

mutual
/-- Every well-formed record is a liberal record. -/
theorem Spec.IsRecord.loose (A : Arch) (hA : A.Valid) {num : Nat} {p : Payload} {r : Bytes} (h : IsRecord num p r)
    (hf : A.Fits r.length) : LooseRecord A.bits r := by
  unfold Arch.Fits at hf
  match h with
  | .varint _ v tag bs _ h1 h2 => exact .varint _ _ h1.any (by rw [h1.value]; omega) h2.any
  | .i64 _ tag bs _ h1 h2 => exact .i64 _ _ h1.any (by rw [h1.value]; omega) h2
  | .i32 _ tag bs _ h1 h2 => exact .i32 _ _ h1.any (by rw [h1.value]; omega) h2
  | .len _ tag lb bs _ h1 h2 =>
    refine .len _ _ _ h1.any (by rw [h1.value]; omega) h2.any (seenInt_of_small A hA h2 ?_)
    simp at hf; omega
  | .group _ tag body etag _ h1 h2 h3 =>
    refine .group _ _ _ h1.any (by rw [h1.value]; omega) (IsRecords.loose A hA h2 ?_) h3.any (by rw [h3.value]; omega)
    simp at hf; unfold Arch.Fits; omega
theorem Spec.IsRecords.loose (A : Arch) (hA : A.Valid) {r : Bytes} (h : IsRecords r)
    (hf : A.Fits r.length) : LooseRecords A.bits r := by
  unfold Arch.Fits at hf
  match h with
  | .nil => exact .nil
  | .cons _ _ bs rest h1 h2 =>
    simp at hf
    exact .cons _ _ (IsRecord.loose A hA h1 (by unfold Arch.Fits; omega)) (IsRecords.loose A hA h2 (by unfold Arch.Fits; omega))
end

end Vtp
