import Verif.Model.Pattern
import Mathlib.Tactic.Ring
import Mathlib.Tactic.Linarith
/-!
# The pattern matcher: runes, and that it returns
-/

namespace Vtp

theorem decodeRune_nil : decodeRune [] = (runeError, 0) := rfl

theorem decodeRune_ascii {b : UInt8} (h : b < 0x80) (s : Bytes) : decodeRune (b :: s) = (b.toNat, 1) := by
  simp [decodeRune, h]

theorem decodeRune_le (s : Bytes) : (decodeRune s).2 ≤ s.length := by
  unfold decodeRune
  split
  · simp
  · split_ifs
    · simp
    · split <;> (try split_ifs) <;> simp

theorem decodeRune_pos {s : Bytes} (h : s ≠ []) : 1 ≤ (decodeRune s).2 := by
  unfold decodeRune
  split
  · exact absurd rfl h
  · split_ifs
    · simp
    · split <;> (try split_ifs) <;> simp

/-- The rest after a rune is shorter. -/
theorem decodeRune_drop {s : Bytes} (h : s ≠ []) : (s.drop (decodeRune s).2).length < s.length := by
  have := decodeRune_pos h
  have := decodeRune_le s
  simp
  have : s.length ≠ 0 := by simpa using h
  omega

theorem leadByte_two {b lo hi : UInt8} (h : leadByte b = some (2, lo, hi)) : 194 ≤ b.toNat ∧ b.toNat < 224 := by
  unfold leadByte at h
  split_ifs at h with h1 h2 <;> simp_all [UInt8.lt_iff_toNat_lt]

theorem leadByte_three {b lo hi : UInt8} (h : leadByte b = some (3, lo, hi)) :
    224 ≤ b.toNat ∧ b.toNat < 240 ∧ 128 ≤ lo.toNat ∧ (b.toNat = 224 → 160 ≤ lo.toNat) := by
  unfold leadByte at h
  split_ifs at h with h1 h2 h3 h4 h5 <;> simp_all [UInt8.lt_iff_toNat_lt, ← UInt8.toNat_inj]
  all_goals omega

theorem leadByte_four {b lo hi : UInt8} (h : leadByte b = some (4, lo, hi)) :
    240 ≤ b.toNat ∧ b.toNat < 245 ∧ 128 ≤ lo.toNat ∧ hi.toNat ≤ 191 ∧ (b.toNat = 240 → 144 ≤ lo.toNat) := by
  unfold leadByte at h
  split_ifs at h with h1 h2 h3 h4 h5 h6 h7 h8 <;> simp_all [UInt8.lt_iff_toNat_lt, ← UInt8.toNat_inj]
  all_goals omega

/-- Only a byte below 128 gives a rune below 128. -/
theorem decodeRune_high {b : UInt8} (h : ¬ b < 0x80) (s : Bytes) : 128 ≤ (decodeRune (b :: s)).1 := by
  unfold decodeRune
  simp only [h, if_false]
  split
  · rename_i lo hi b1 _ he
    obtain ⟨h1, h2⟩ := leadByte_two he
    split_ifs
    · simp; omega
    · simp [runeError]
  · rename_i lo hi b1 b2 _ he
    obtain ⟨h1, h2, h3, h4⟩ := leadByte_three he
    split_ifs with hc
    · simp only [Bool.and_eq_true, decide_eq_true_eq, UInt8.le_iff_toNat_le] at hc
      have := b1.toNat_lt
      have : hi.toNat ≤ 191 := by
        unfold leadByte at he
        split_ifs at he <;> simp at he <;> (obtain ⟨_, rfl⟩ := he; decide)
      simp; omega
    · simp [runeError]
  · rename_i lo hi b1 b2 b3 _ he
    obtain ⟨h1, h2, h3, h4, h5⟩ := leadByte_four he
    split_ifs with hc
    · simp only [Bool.and_eq_true, decide_eq_true_eq, UInt8.le_iff_toNat_le] at hc
      simp; omega
    · simp [runeError]
  · simp [runeError]

/-- An ASCII rune is that byte. -/
theorem decodeRune_eq_ascii {c : UInt8} (hc : c < 0x80) {s : Bytes} : (decodeRune s).1 = c.toNat ↔ ∃ s', s = c :: s' := by
  have hc' : c.toNat < 128 := by simpa [UInt8.lt_iff_toNat_lt] using hc
  cases s with
  | nil => simp [decodeRune, runeError]; omega
  | cons b s =>
    by_cases h : b < 0x80
    · rw [decodeRune_ascii h]
      simp [UInt8.toNat_inj]
    · have := decodeRune_high h s
      constructor
      · intro he; omega
      · rintro ⟨s', he⟩
        cases he
        exact absurd hc h

theorem indexUnescaped_lt {c : UInt8} : ∀ {s : Bytes} {i : Nat}, indexUnescaped c s = some i → i < s.length := by
  intro s
  fun_induction indexUnescaped c s <;> intro i h' <;> simp_all <;> try omega
  all_goals
    obtain ⟨j, hj, rfl⟩ := h'
    rename_i ih
    have := ih hj
    omega

theorem indexNextAlt_lt : ∀ {s : Bytes} {a : Int} {i : Nat}, indexNextAltFrom a s = some i → i < s.length := by
  intro s a
  fun_induction indexNextAltFrom a s <;> intro i h' <;> simp_all <;> try omega
  all_goals
    obtain ⟨j, hj, rfl⟩ := h'
    rename_i ih
    have := ih hj
    omega

theorem indexClosing_lt : ∀ {s : Bytes} {a i : Nat}, indexClosingFrom a s = some i → i < s.length := by
  intro s a
  fun_induction indexClosingFrom a s <;> intro i h' <;> simp_all <;> try omega
  all_goals
    obtain ⟨j, hj, rfl⟩ := h'
    rename_i ih
    have := ih hj
    omega

theorem classLoop_le (r : Nat) : ∀ (k last : Nat) (s : Bytes), (classLoop r k last s).2.length ≤ s.length := by
  intro k
  induction k with
  | zero => intro last s; simp [classLoop]
  | succ k ih =>
    intro last s
    unfold classLoop
    split
    · simp
    · rename_i b s'
      simp only
      split_ifs <;> (try simp only [List.length_drop]) <;> (try omega)
      all_goals
        refine Nat.le_trans (ih _ _) ?_
        (try simp only [List.length_drop])
        omega

theorem matchClass_le {r : Nat} {s rest : Bytes} (h : matchClass r s = .yes rest ∨ matchClass r s = .no rest) : rest.length ≤ s.length := by
  unfold matchClass at h
  cases s with
  | nil => simp at h
  | cons c s' =>
    simp only at h
    generalize hs1 : (if decide (c = cBang ∨ c = cCaret) = true then s' else c :: s') = s1 at h
    have h1 : s1.length ≤ (c :: s').length := by rw [← hs1]; split_ifs <;> simp
    have h2 := classLoop_le r s1.length maxRune s1
    split_ifs at h with h3 h4 h5
    · simp at h
    · simp at h
    · simp at h
      subst h
      omega
    · split at h
      · simp at h
      · simp at h
        subst h
        simp only [List.length_drop]
        omega

theorem afterSep_gt {n : Bytes} : ∀ {k i j : Nat}, afterSep n k i = some j → i < j ∧ j ≤ n.length := by
  intro k
  induction k with
  | zero => intro i j h; simp [afterSep] at h
  | succ k ih =>
    intro i j h
    unfold afterSep at h
    split_ifs at h with hi
    have hne : n.drop i ≠ [] := by simp; omega
    have h1 := decodeRune_pos hne
    have h2 := decodeRune_le (n.drop i)
    simp only [List.length_drop] at h2
    simp only at h
    split_ifs at h with hs
    · simp at h
      omega
    · have := ih h
      omega

theorem tryAlts_returns {f : Bytes → Res Bool} (hf : ∀ a, (f a).Returns) : ∀ (k : Nat) (s : Bytes), s.length < k → (tryAlts f k s).Returns := by
  intro k
  induction k with
  | zero => intro s h; omega
  | succ k ih =>
    intro s h
    unfold tryAlts
    split
    · exact hf s
    · rename_i c hc
      have := indexNextAlt_lt hc
      have h2 := hf (s.take c)
      split
      · exact ih _ (by simp only [List.length_drop]; omega)
      · exact h2

/-- Only the alternatives matter: all of them are shorter than the text they are in. -/
theorem tryAlts_returns_of {f : Bytes → Res Bool} {m : Nat} (hf : ∀ a : Bytes, a.length ≤ m → (f a).Returns) :
    ∀ (k : Nat) (s : Bytes), s.length < k → s.length ≤ m → (tryAlts f k s).Returns := by
  intro k
  induction k with
  | zero => intro s h; omega
  | succ k ih =>
    intro s h hm
    unfold tryAlts
    split
    · exact hf s hm
    · rename_i c hc
      have := indexNextAlt_lt hc
      have h2 := hf (s.take c) (by simp only [List.length_take]; omega)
      split
      · exact ih _ (by simp only [List.length_drop]; omega) (by simp only [List.length_drop]; omega)
      · exact h2

theorem zeroLength_returns : ∀ (k : Nat) (s : Bytes), s.length < k → (zeroLength k s).Returns := by
  intro k
  induction k with
  | zero => intro s h; omega
  | succ k ih =>
    intro s h
    unfold zeroLength
    split
    · trivial
    · cases s with
      | nil => trivial
      | cons b s1 =>
        simp only
        split_ifs
        · split
          · trivial
          · rename_i i hi
            have h1 := indexClosing_lt hi
            simp only [List.length_cons] at h
            refine tryAlts_returns_of (m := i) (fun a ha => ih _ ?_) _ _ ?_ ?_
            · simp only [List.length_append, List.length_drop]; omega
            · simp only [List.length_take]; omega
            · simp only [List.length_take]; omega
        · trivial
        · trivial

/-- A star at whose position in the name there is a separator is of no use. -/
def starDead (n : Bytes) (st : MatchState) : Prop := ∀ q i, st.star = some (q, i) → (decodeRune (n.drop i)).1 = sepRune

/-- What holds of the variables in every round. `cur`: the star was met after the last time `**` was extended. -/
structure RoundInv (p n : Bytes) (cur : Bool) (st : MatchState) : Prop where
  pat : st.pat ≤ p.length
  name : st.name ≤ n.length
  ds : ∀ q i, st.ds = some (q, i) → q ≤ st.pat ∧ i ≤ st.name
  star : cur = true → ∃ q i, st.star = some (q, i) ∧ q ≤ st.pat ∧ i ≤ st.name ∧ ∀ q' i', st.ds = some (q', i') → q' ≤ q ∧ i' ≤ i
  dead : cur = false → starDead n st

/-- Position of `**` in the name. -/
def MatchState.dsName (st : MatchState) : Nat := (st.ds.map (·.2)).getD 0
def MatchState.dsPat (st : MatchState) : Nat := (st.ds.map (·.1)).getD 0
def MatchState.starName (st : MatchState) : Nat := (st.star.map (·.2)).getD 0
def MatchState.starPat (st : MatchState) : Nat := (st.star.map (·.1)).getD 0

/-- What is left to do. -/
def roundsLeft (p n : Bytes) (cur : Bool) (st : MatchState) : Nat :=
  ((((n.length - st.dsName) * (p.length + 2) + (p.length + 1 - st.dsPat)) * (p.length + 2) + (if cur then p.length - st.starPat else p.length + 1)) * (n.length + 1) +
    (if cur then n.length - st.starName else n.length)) * (p.length + 1) + (p.length - st.pat)

theorem digits_lt {B x x' y y' : Nat} (h : x' < x) (h' : y' < B) : x' * B + y' < x * B + y := by
  have : (x' + 1) * B ≤ x * B := Nat.mul_le_mul_right _ h
  have : (x' + 1) * B = x' * B + B := by ring
  omega

theorem digits_lt' {B x x' y y' : Nat} (h : x' ≤ x) (h' : y' < y) : x' * B + y' < x * B + y := by
  have : x' * B ≤ x * B := Nat.mul_le_mul_right _ h
  omega

theorem roundsLeft_lt (p n : Bytes) (cur : Bool) (st : MatchState) : roundsLeft p n cur st < matchRounds p n := by
  unfold roundsLeft matchRounds
  generalize p.length = L
  generalize n.length = N
  have h1 : (N - st.dsName) * (L + 2) + (L + 1 - st.dsPat) < (N + 1) * (L + 2) + 0 := digits_lt (by omega) (by omega)
  have h2 := digits_lt (B := L + 2) (y := 0) h1 (show (if cur then L - st.starPat else L + 1) < L + 2 by split_ifs <;> omega)
  have h3 := digits_lt (B := N + 1) (y := 0) h2 (show (if cur then N - st.starName else N) < N + 1 by split_ifs <;> omega)
  have h4 := digits_lt (B := L + 1) (y := 0) h3 (show L - st.pat < L + 1 by omega)
  simpa using h4

/-- What a round that goes on does. -/
theorem matchItem_cases {rec : Bytes → MatchState → Res Bool} {p n : Bytes} {st st' : MatchState} (hp : st.pat ≤ p.length) (hn : st.name < n.length)
    (h : matchItem rec p n st (p.drop st.pat) = .next st') :
    st.pat < st'.pat ∧ st'.pat ≤ p.length ∧ ((st'.ds = st.ds ∧ st'.star = st.star ∧ st.name < st'.name ∧ st'.name ≤ n.length) ∨
      (st'.name = st.name ∧ st'.ds = st.ds ∧ st'.star = some (st'.pat, st.name)) ∨
      (st'.name = st.name ∧ st'.ds = some (st'.pat, st.name) ∧ st'.star = none)) := by
  have hl : (p.drop st.pat).length = p.length - st.pat := by simp
  have hne : n.drop st.name ≠ [] := by simp; omega
  have hw1 := decodeRune_pos hne
  have hw2 := decodeRune_le (n.drop st.name)
  simp only [List.length_drop] at hw2
  unfold matchItem at h
  cases hs : p.drop st.pat with
  | nil => rw [hs] at h; simp at h
  | cons b s1 =>
    rw [hs] at h hl
    simp only [List.length_cons] at hl
    simp only at h
    generalize (decodeRune (n.drop st.name)).1 = nr at h
    generalize (decodeRune (n.drop st.name)).2 = nw at h hw1 hw2
    have hchar : ∀ q s, charItem p st nr nw q s = .next st' → s ≠ [] → st.pat ≤ q → q + s.length = p.length →
        st.pat < st'.pat ∧ st'.pat ≤ p.length ∧ st'.ds = st.ds ∧ st'.star = st.star ∧ st.name < st'.name ∧ st'.name ≤ n.length := by
      intro q s h hs hq hql
      have := decodeRune_pos hs
      have := decodeRune_le s
      unfold charItem at h
      split_ifs at h
      cases h
      refine ⟨?_, ?_, rfl, rfl, ?_, ?_⟩ <;> simp only <;> omega
    split_ifs at h with h1 h2 h3 h4 h5
    · unfold starItem at h
      simp only at h
      split at h
      · rename_i c s2
        simp only [List.length_cons] at hl
        have := decodeRune_le s2
        split_ifs at h
        · cases h
          refine ⟨?_, ?_, .inr (.inr ⟨rfl, rfl, rfl⟩)⟩ <;> simp only <;> omega
        all_goals
          cases h
          refine ⟨?_, ?_, .inr (.inl ⟨rfl, rfl, rfl⟩)⟩ <;> simp only <;> omega
      · simp only [List.length_nil] at hl
        cases h
        refine ⟨?_, ?_, .inr (.inl ⟨rfl, rfl, rfl⟩)⟩ <;> simp only <;> omega
    · unfold questItem at h
      split_ifs at h
      cases h
      refine ⟨?_, ?_, .inl ⟨rfl, rfl, ?_, ?_⟩⟩ <;> simp only <;> omega
    · unfold classItem at h
      split at h
      · cases h
      · cases h
      · rename_i rest hr
        have := matchClass_le (.inl hr)
        cases h
        refine ⟨?_, ?_, .inl ⟨rfl, rfl, ?_, ?_⟩⟩ <;> simp only <;> omega
    · unfold altItem at h
      split at h <;> cases h
    · obtain ⟨g1, g2, g3⟩ := hchar _ _ h (by assumption) (by omega) (by omega)
      exact ⟨g1, g2, .inl g3⟩
    · obtain ⟨g1, g2, g3⟩ := hchar _ _ h (by simp) (by omega) (by simp; omega)
      exact ⟨g1, g2, .inl g3⟩

/-- One round. -/
theorem matchItem_next {rec : Bytes → MatchState → Res Bool} {p n : Bytes} {cur : Bool} {st st' : MatchState} (hi : RoundInv p n cur st) (hn : st.name < n.length)
    (h : matchItem rec p n st (p.drop st.pat) = .next st') : ∃ cur', RoundInv p n cur' st' ∧ roundsLeft p n cur' st' < roundsLeft p n cur st := by
  obtain ⟨h1, h2, ⟨h3, h4, h5, h6⟩ | ⟨h3, h4, h5⟩ | ⟨h3, h4, h5⟩⟩ := matchItem_cases hi.pat hn h
  · refine ⟨cur, ⟨h2, h6, fun q i hq => ?_, fun hc => ?_, fun hc q i hq => hi.dead hc q i (h4 ▸ hq)⟩, ?_⟩
    · have := hi.ds q i (h3 ▸ hq)
      omega
    · obtain ⟨q, i, g1, g2, g3, g4⟩ := hi.star hc
      exact ⟨q, i, h4.trans g1, by omega, by omega, fun q' i' hq => g4 q' i' (h3 ▸ hq)⟩
    · unfold roundsLeft MatchState.dsName MatchState.dsPat MatchState.starName MatchState.starPat
      rw [h3, h4]
      exact digits_lt' (Nat.le_refl _) (by omega)
  · refine ⟨true, ⟨h2, by omega, fun q i hq => ?_, fun _ => ?_, fun hc => nomatch hc⟩, ?_⟩
    · have := hi.ds q i (h4 ▸ hq)
      omega
    · refine ⟨_, _, h5, Nat.le_refl _, by omega, fun q' i' hq => ?_⟩
      have := hi.ds q' i' (h4 ▸ hq)
      omega
    · unfold roundsLeft MatchState.dsName MatchState.dsPat MatchState.starName MatchState.starPat
      rw [h4, h5]
      refine digits_lt (digits_lt (digits_lt' (Nat.le_refl _) ?_) ?_) (by omega)
      · simp only [Option.map_some, Option.getD_some, if_true]
        split_ifs with hc
        · obtain ⟨q, i, g1, g2, -⟩ := hi.star hc
          simp [g1]
          omega
        · omega
      · simp
        omega
  · refine ⟨false, ⟨h2, by omega, fun q i hq => ?_, (fun hc => nomatch hc), fun _ q i hq => by rw [h5] at hq; cases hq⟩, ?_⟩
    · rw [h4] at hq
      cases hq
      omega
    · have hd : st.dsName ≤ st.name ∧ st.dsPat ≤ st.pat := by
        unfold MatchState.dsName MatchState.dsPat
        cases hds : st.ds with
        | none => simp
        | some x =>
          have := hi.ds x.1 x.2 hds
          simp
          omega
      unfold roundsLeft
      have e1 : st'.dsName = st.name := by simp [MatchState.dsName, h4]
      have e2 : st'.dsPat = st'.pat := by simp [MatchState.dsPat, h4]
      rw [e1, e2]
      refine digits_lt (digits_lt (digits_lt (digits_lt' (by omega) (by omega)) ?_) ?_) (by omega)
      · simp
      · simp

theorem backtrack_next {p n : Bytes} {cur : Bool} {st st' : MatchState} (hi : RoundInv p n cur st) (hn : st.name < n.length)
    (h : backtrack n st = some st') : ∃ cur', RoundInv p n cur' st' ∧ roundsLeft p n cur' st' < roundsLeft p n cur st := by
  have hds : starDead n st → backtrackDs n st = some st' → ∃ cur', RoundInv p n cur' st' ∧ roundsLeft p n cur' st' < roundsLeft p n cur st := by
    intro hd h
    unfold backtrackDs at h
    cases hq : st.ds with
    | none => simp [hq] at h
    | some x =>
      obtain ⟨q, i⟩ := x
      simp only [hq] at h
      split at h
      · cases h
      · rename_i j hj
        have hj' := afterSep_gt hj
        have := hi.ds q i hq
        have := hi.pat
        simp at h
        subst h
        refine ⟨false, ⟨by simp; omega, hj'.2, fun q' i' he => ?_, (fun hc => nomatch hc), fun _ => hd⟩, ?_⟩
        · simp at he
          simp
          omega
        · unfold roundsLeft
          refine digits_lt (digits_lt (digits_lt (digits_lt ?_ ?_) ?_) ?_) ?_
          · simp [MatchState.dsName, hq]; omega
          · omega
          · simp
          · simp
          · omega
  unfold backtrack at h
  cases hq : st.star with
  | none =>
    simp only [hq] at h
    exact hds (fun q i he => by rw [hq] at he; cases he) h
  | some x =>
    obtain ⟨q, i⟩ := x
    simp only [hq] at h
    split_ifs at h with hr
    · cases cur with
      | false => exact absurd (hi.dead rfl q i hq) hr
      | true =>
        obtain ⟨q', i', g1, g2, g3, g4⟩ := hi.star rfl
        rw [hq] at g1
        cases g1
        have hne : n.drop i ≠ [] := by simp; omega
        have hw1 := decodeRune_pos hne
        have hw2 := decodeRune_le (n.drop i)
        simp only [List.length_drop] at hw2
        have := hi.pat
        simp at h
        subst h
        refine ⟨true, ⟨by simp; omega, by simp; omega, fun q' i' he => ?_, fun _ => ⟨q, _, rfl, Nat.le_refl _, Nat.le_refl _, fun q' i' he => ?_⟩, fun hc => nomatch hc⟩, ?_⟩
        · have := g4 q' i' he
          simp
          omega
        · have := g4 q' i' he
          omega
        · unfold roundsLeft
          refine digits_lt (digits_lt' ?_ ?_) (by omega)
          · simp [MatchState.starPat, MatchState.dsName, MatchState.dsPat, hq]
          · simp [MatchState.starName, hq]; omega
    · exact hds (fun q' i' he => by rw [hq] at he; cases he; simpa using hr) h

theorem matchItem_ret {rec : Bytes → MatchState → Res Bool} {p n : Bytes} {cur : Bool} {st : MatchState} {r : Res Bool} (hi : RoundInv p n cur st)
    (hrec : ∀ q st', q.length < p.length → (∃ cur, RoundInv q n cur st') → (rec q st').Returns)
    (h : matchItem rec p n st (p.drop st.pat) = .ret r) : r.Returns := by
  have hl : (p.drop st.pat).length = p.length - st.pat := by simp
  unfold matchItem at h
  cases hs : p.drop st.pat with
  | nil => rw [hs] at h; simp at h
  | cons b s1 =>
    rw [hs] at h hl
    simp only [List.length_cons] at hl
    simp only at h
    have hp := hi.pat
    split_ifs at h with h1 h2 h3 h4 h5
    · unfold starItem at h
      simp only at h
      split at h
      · split_ifs at h
        cases h
        trivial
      · cases h
    · unfold questItem at h
      split_ifs at h
    · unfold classItem at h
      split at h <;> cases h
      trivial
    · unfold altItem at h
      split at h
      · cases h
        trivial
      · rename_i i hc
        have := indexClosing_lt hc
        cases h
        refine tryAlts_returns_of (m := i) (fun a ha => hrec _ _ ?_ ⟨cur, ?_⟩) _ _ ?_ ?_
        · simp only [List.length_append, List.length_take, List.length_drop]
          omega
        · refine ⟨?_, hi.name, hi.ds, hi.star, hi.dead⟩
          simp only [List.length_append, List.length_take, List.length_drop]
          omega
        · simp only [List.length_take]; omega
        · simp only [List.length_take]; omega
    · cases h
      trivial
    · unfold charItem at h
      split_ifs at h
    · unfold charItem at h
      split_ifs at h

theorem matchLoop_returns {rec : Bytes → MatchState → Res Bool} {p n : Bytes}
    (hrec : ∀ q st', q.length < p.length → (∃ cur, RoundInv q n cur st') → (rec q st').Returns) :
    ∀ (k : Nat) (cur : Bool) (st : MatchState), RoundInv p n cur st → roundsLeft p n cur st < k → (matchLoop rec p n k st).Returns := by
  intro k
  induction k with
  | zero => intro cur st _ h; omega
  | succ k ih =>
    intro cur st hi h
    unfold matchLoop
    split_ifs with hn
    · split
      · rename_i st' hs
        obtain ⟨cur', h1, h2⟩ := matchItem_next hi hn hs
        exact ih cur' st' h1 (by omega)
      · rename_i r hs
        exact matchItem_ret hi hrec hs
      · split
        · rename_i st' hs
          obtain ⟨cur', h1, h2⟩ := backtrack_next hi hn hs
          exact ih cur' st' h1 (by omega)
        · split_ifs <;> trivial
    · exact zeroLength_returns _ _ (by simp; omega)

theorem doMatch_returns (n : Bytes) : ∀ (k : Nat) (p : Bytes) (st : MatchState), p.length < k → (∃ cur, RoundInv p n cur st) → (doMatch n k p st).Returns := by
  intro k
  induction k with
  | zero => intro p st h; omega
  | succ k ih =>
    rintro p st h ⟨cur, hi⟩
    unfold doMatch
    refine matchLoop_returns (fun q st' hq hc => ih q st' (by omega) hc) _ cur _ ?_ (roundsLeft_lt p n cur _)
    exact ⟨hi.pat, hi.name, hi.ds, hi.star, hi.dead⟩

/-- `Match` returns, whatever the pattern. -/
theorem matchPattern_returns (p n : Bytes) : (matchPattern p n).Returns :=
  doMatch_returns n _ p _ (Nat.lt_succ_self _) ⟨false, ⟨by simp, by simp, by simp, by simp, fun _ q i h => by cases h⟩⟩

end Vtp
