import Verif.Lemmas.PatternMatch
/-!
# Well-formed patterns: what `ValidatePattern` accepts, and what never makes `Match` fail
-/

namespace Vtp

open Spec

variable {Q : UInt8 → Prop}

/-! ## Inversion -/

theorem wellFormed_byte {b : UInt8} {s : Bytes} (h1 : b ≠ cEsc) (h2 : b ≠ cOpen) (h3 : b ≠ cLeft) : WellFormed Q (b :: s) ↔ b ≠ cRight ∧ WellFormed Q s := by
  constructor
  · intro h
    generalize hs : b :: s = t at h
    cases h with
    | nil => cases hs
    | byte _ _ _ h4 h5 => cases hs; exact ⟨h4, h5⟩
    | esc => exact absurd (List.cons.inj hs).1 h1
    | cls => exact absurd (List.cons.inj hs).1 h2
    | negated => exact absurd (List.cons.inj hs).1 h2
    | alt => exact absurd (List.cons.inj hs).1 h3
  · rintro ⟨h4, h5⟩
    exact .byte h1 h2 h3 h4 h5

theorem wellFormed_esc {s : Bytes} : WellFormed Q (cEsc :: s) ↔ ∃ b s', s = b :: s' ∧ WellFormed Q s' := by
  constructor
  · intro h
    generalize hs : cEsc :: s = t at h
    cases h with
    | nil => cases hs
    | byte h1 => exact absurd (List.cons.inj hs).1.symm h1
    | esc h => cases hs; exact ⟨_, _, rfl, h⟩
    | cls => exact absurd (List.cons.inj hs).1 (by decide)
    | negated => exact absurd (List.cons.inj hs).1 (by decide)
    | alt => exact absurd (List.cons.inj hs).1 (by decide)
  · rintro ⟨b, s', rfl, h⟩
    exact .esc h

theorem wellFormed_left {s : Bytes} : WellFormed Q (cLeft :: s) ↔ ∃ t s', s = t ++ cRight :: s' ∧ WellFormed Q t ∧ WellFormed Q s' := by
  constructor
  · intro h
    generalize hs : cLeft :: s = t at h
    cases h with
    | nil => cases hs
    | byte _ _ h1 => exact absurd (List.cons.inj hs).1.symm h1
    | esc h => exact absurd (List.cons.inj hs).1 (by decide)
    | cls => exact absurd (List.cons.inj hs).1 (by decide)
    | negated => exact absurd (List.cons.inj hs).1 (by decide)
    | alt h1 h2 => cases hs; exact ⟨_, _, rfl, h1, h2⟩
  · rintro ⟨t, s', rfl, h1, h2⟩
    exact .alt h1 h2

/-- A class is open: characters, the bracket, and then `s0`. -/
def ClassRest (Q : UInt8 → Prop) (s s0 : Bytes) : Prop := ∃ u, ClassChars Q u ∧ s = u ++ cClose :: s0

theorem wellFormed_open {s : Bytes} : WellFormed Q (cOpen :: s) ↔
    ∃ b s1 s0, classBodyText s = b :: s1 ∧ b ≠ cClose ∧ ClassRest Q (b :: s1) s0 ∧ WellFormed Q s0 := by
  constructor
  · intro h
    generalize hs : cOpen :: s = t at h
    have hb : ∀ {b : UInt8} {t : Bytes} (s0 : Bytes), ClassChars Q (b :: t) → b ≠ cClose ∧ ClassRest Q (b :: (t ++ cClose :: s0)) s0 := by
      intro b t s0 h
      refine ⟨?_, _, h, rfl⟩
      generalize hu : b :: t = u at h
      cases h with
      | nil => cases hu
      | byte _ h => cases hu; exact h
      | esc => rw [(List.cons.inj hu).1]; decide
    cases h with
    | nil => cases hs
    | byte _ h1 => exact absurd (List.cons.inj hs).1.symm h1
    | esc h => exact absurd (List.cons.inj hs).1 (by decide)
    | cls h1 h2 h3 h4 =>
      cases hs
      exact ⟨_, _, _, by simp [classBodyText, h1, h2], (hb [] h3).1, (hb _ h3).2, h4⟩
    | negated h1 h3 h4 =>
      cases hs
      exact ⟨_, _, _, by simp [classBodyText, h1.symm], (hb [] h3).1, (hb _ h3).2, h4⟩
    | alt => exact absurd (List.cons.inj hs).1 (by decide)
  · rintro ⟨b, s1, s0, h1, h2, ⟨u, h3, h4⟩, h5⟩
    cases u with
    | nil => exact absurd (List.cons.inj h4).1 h2
    | cons a u =>
      simp only [List.cons_append, List.cons.injEq] at h4
      obtain ⟨rfl, rfl⟩ := h4
      cases s with
      | nil => cases h1
      | cons c s =>
        simp only [classBodyText] at h1
        split at h1
        · rename_i hc
          subst h1
          exact .negated hc.symm h3 h5
        · rename_i hc
          simp only [List.cons.injEq] at h1
          obtain ⟨rfl, rfl⟩ := h1
          exact .cls (fun h => hc (.inr h)) (fun h => hc (.inl h)) h3 h5

theorem validateClass_iff {s s0 : Bytes} : validateClass s = some s0 ↔ ClassRest (fun _ => True) s s0 := by
  constructor
  · intro h
    fun_induction validateClass s with
    | case1 => cases h
    | case2 => cases h
    | case3 b s ih =>
      obtain ⟨u, h1, h2⟩ := ih h
      exact ⟨cEsc :: b :: u, .esc h1, by rw [h2]; rfl⟩
    | case4 s hb => cases h; exact ⟨[], .nil, rfl⟩
    | case5 b s h1 h2 ih =>
      obtain ⟨u, h3, h4⟩ := ih h
      exact ⟨b :: u, .byte h1 h2 trivial h3, by rw [h4]; rfl⟩
  · rintro ⟨u, h1, rfl⟩
    induction h1 with
    | nil => exact validateClass_close _
    | byte h1 h2 _ _ ih => rw [List.cons_append, validateClass_plain h1 h2, ih]
    | esc _ ih => rw [List.cons_append, List.cons_append, validateClass_esc, ih]

theorem classChars_true {u : Bytes} (h : ClassChars Q u) : ClassChars (fun _ => True) u := by
  induction h with
  | nil => exact .nil
  | byte h1 h2 _ _ ih => exact .byte h1 h2 trivial ih
  | esc _ ih => exact .esc ih

theorem classRest_true {s s0 : Bytes} (h : ClassRest Q s s0) : ClassRest (fun _ => True) s s0 := by
  obtain ⟨u, h1, h2⟩ := h
  exact ⟨u, classChars_true h1, h2⟩

theorem wellFormed_true {s : Bytes} (h : WellFormed Q s) : WellFormed (fun _ => True) s := by
  induction h with
  | nil => exact .nil
  | byte h1 h2 h3 h4 _ ih => exact .byte h1 h2 h3 h4 ih
  | esc _ ih => exact .esc ih
  | cls h1 h2 h3 _ ih => exact .cls h1 h2 (classChars_true h3) ih
  | negated h1 h3 _ ih => exact .negated h1 (classChars_true h3) ih
  | alt _ _ ih1 ih2 => exact .alt ih1 ih2

/-! ## ValidatePattern -/

/-- Well-formed with `d` more braces closed than opened. -/
def Deep : Nat → Bytes → Prop
  | 0, s => WellFormed (fun _ => True) s
  | d + 1, s => ∃ t s', s = t ++ cRight :: s' ∧ WellFormed (fun _ => True) t ∧ Deep d s'

theorem deep_byte {b : UInt8} (h1 : b ≠ cEsc) (h2 : b ≠ cOpen) (h3 : b ≠ cLeft) (h4 : b ≠ cRight) (d : Nat) (s : Bytes) : Deep d (b :: s) ↔ Deep d s := by
  cases d with
  | zero => simp only [Deep]; rw [wellFormed_byte h1 h2 h3]; simp [h4]
  | succ d =>
    simp only [Deep]
    constructor
    · rintro ⟨t, s', h5, h6, h7⟩
      cases t with
      | nil => exact absurd (List.cons.inj h5).1 h4
      | cons a t =>
        cases h5
        exact ⟨t, s', rfl, ((wellFormed_byte h1 h2 h3).1 h6).2, h7⟩
    · rintro ⟨t, s', rfl, h6, h7⟩
      exact ⟨b :: t, s', rfl, .byte h1 h2 h3 h4 h6, h7⟩

theorem deep_esc (d : Nat) (s : Bytes) : Deep d (cEsc :: s) ↔ ∃ b s', s = b :: s' ∧ Deep d s' := by
  cases d with
  | zero => exact wellFormed_esc
  | succ d =>
    simp only [Deep]
    constructor
    · rintro ⟨t, s', h5, h6, h7⟩
      cases t with
      | nil => exact absurd (List.cons.inj h5).1 (by decide)
      | cons a t =>
        cases h5
        obtain ⟨b, t', rfl, h8⟩ := wellFormed_esc.1 h6
        exact ⟨b, _, rfl, t', s', rfl, h8, h7⟩
    · rintro ⟨b, _, rfl, t, s', rfl, h6, h7⟩
      exact ⟨cEsc :: b :: t, s', rfl, .esc h6, h7⟩

theorem deep_left (d : Nat) (s : Bytes) : Deep d (cLeft :: s) ↔ Deep (d + 1) s := by
  cases d with
  | zero =>
    show WellFormed _ _ ↔ _
    rw [wellFormed_left]
    rfl
  | succ d =>
    show (∃ t s', cLeft :: s = t ++ cRight :: s' ∧ WellFormed (fun _ => True) t ∧ Deep d s') ↔
      ∃ t s', s = t ++ cRight :: s' ∧ WellFormed (fun _ => True) t ∧ Deep (d + 1) s'
    constructor
    · rintro ⟨t, s', h5, h6, h7⟩
      cases t with
      | nil => exact absurd (List.cons.inj h5).1 (by decide)
      | cons a t =>
        cases h5
        obtain ⟨x, y, rfl, h8, h9⟩ := wellFormed_left.1 h6
        exact ⟨x, y ++ cRight :: s', by simp, h8, y, s', rfl, h9, h7⟩
    · rintro ⟨x, _, rfl, h8, y, s', rfl, h9, h7⟩
      exact ⟨cLeft :: (x ++ cRight :: y), s', by simp, .alt h8 h9, h7⟩

theorem not_wellFormed_right (s : Bytes) : ¬ WellFormed Q (cRight :: s) := by
  rw [wellFormed_byte (by decide) (by decide) (by decide)]
  simp

theorem deep_right (d : Nat) (s : Bytes) : Deep d (cRight :: s) ↔ ∃ d', d = d' + 1 ∧ Deep d' s := by
  cases d with
  | zero => simp [Deep, not_wellFormed_right]
  | succ d =>
    simp only [Deep]
    constructor
    · rintro ⟨t, s', h5, h6, h7⟩
      cases t with
      | nil => cases h5; exact ⟨d, rfl, h7⟩
      | cons a t => cases h5; exact absurd h6 (not_wellFormed_right _)
    · rintro ⟨d', h, h'⟩
      cases h
      exact ⟨[], s, rfl, .nil, h'⟩

theorem deep_open (d : Nat) (s : Bytes) : Deep d (cOpen :: s) ↔ ∃ b s1 s0, classBodyText s = b :: s1 ∧ b ≠ cClose ∧ validateClass (b :: s1) = some s0 ∧ Deep d s0 := by
  cases d with
  | zero =>
    simp only [Deep]
    rw [wellFormed_open]
    simp only [validateClass_iff]
  | succ d =>
    simp only [Deep]
    constructor
    · rintro ⟨t, s', h5, h6, h7⟩
      cases t with
      | nil => exact absurd (List.cons.inj h5).1 (by decide)
      | cons a t =>
        cases h5
        obtain ⟨b, s1, s0, h8, h9, ⟨u, h10, h11⟩, h12⟩ := wellFormed_open.1 h6
        have happ : classBodyText (t ++ cRight :: s') = classBodyText t ++ cRight :: s' := by
          cases t with
          | nil => cases h8
          | cons c t =>
            simp only [List.cons_append, classBodyText]
            split <;> rfl
        refine ⟨b, s1 ++ cRight :: s', s0 ++ cRight :: s', happ.trans (by rw [h8]; rfl), h9, ?_, s0, s', rfl, h12, h7⟩
        rw [validateClass_iff]
        exact ⟨u, h10, by rw [← List.cons_append, h11]; simp⟩
    · rintro ⟨b, s1, s0, h8, h9, h10, t, s', rfl, h6, h7⟩
      rw [validateClass_iff] at h10
      obtain ⟨u, h11, h12⟩ := h10
      cases u with
      | nil => exact absurd (List.cons.inj h12).1 h9
      | cons a u =>
        simp only [List.cons_append, List.cons.injEq] at h12
        obtain ⟨rfl, rfl⟩ := h12
        cases s with
        | nil => cases h8
        | cons c s =>
          simp only [classBodyText] at h8
          split at h8
          · rename_i hc
            subst h8
            exact ⟨cOpen :: c :: b :: (u ++ cClose :: t), s', by simp, .negated hc.symm h11 h6, h7⟩
          · rename_i hc
            simp only [List.cons.injEq] at h8
            obtain ⟨rfl, rfl⟩ := h8
            exact ⟨cOpen :: c :: (u ++ cClose :: t), s', by simp, .cls (fun h => hc (.inr h)) (fun h => hc (.inl h)) h11 h6, h7⟩

theorem validateClass_shorter {s s0 : Bytes} (h : validateClass s = some s0) : s0.length < s.length := by
  obtain ⟨u, -, rfl⟩ := validateClass_iff.1 h
  simp
  omega

theorem validateFrom_deep : ∀ (k d : Nat) (s : Bytes), s.length < k → (validateFrom k d s = true ↔ Deep d s) := by
  intro k
  induction k with
  | zero => intro d s h; omega
  | succ k ih =>
    intro d s hk
    cases s with
    | nil =>
      cases d with
      | zero => simp [validateFrom, Deep, WellFormed.nil]
      | succ d => simp [validateFrom, Deep]
    | cons b s =>
      simp only [List.length_cons] at hk
      unfold validateFrom
      by_cases h1 : b = cEsc
      · subst h1
        rw [if_pos rfl, deep_esc]
        cases s with
        | nil => simp
        | cons c s =>
          simp only
          rw [ih d s (by simp at hk; omega)]
          simp
      · rw [if_neg h1]
        by_cases h2 : b = cOpen
        · subst h2
          rw [if_pos rfl, deep_open]
          have hl : (classBodyText s).length ≤ s.length := by
            cases s with
            | nil => simp [classBodyText]
            | cons c s => simp only [classBodyText]; split <;> simp
          cases hq : classBodyText s with
          | nil => simp
          | cons c s1 =>
            rw [hq] at hl
            by_cases h3 : c = cClose
            · simp [h3]
            · simp only [h3, if_false]
              cases hv : validateClass (c :: s1) with
              | none => simp [hv]
              | some s2 =>
                have := validateClass_shorter hv
                simp only
                rw [ih d s2 (by omega)]
                constructor
                · intro h; exact ⟨c, s1, s2, rfl, h3, hv, h⟩
                · rintro ⟨b', s1', s0, e1, -, e2, e3⟩
                  cases e1
                  rw [hv] at e2
                  cases e2
                  exact e3
        · rw [if_neg h2]
          by_cases h3 : b = cLeft
          · subst h3
            rw [if_pos rfl, deep_left, ih (d + 1) s (by omega)]
          · rw [if_neg h3]
            by_cases h4 : b = cRight
            · subst h4
              rw [if_pos rfl, deep_right]
              cases d with
              | zero => simp
              | succ d =>
                simp only [Nat.add_one_ne_zero, if_false, Nat.add_sub_cancel]
                rw [ih d s (by omega)]
                simp
            · rw [if_neg h4, deep_byte h1 h2 h3 h4, ih d s (by omega)]

/-- `ValidatePattern` accepts the well-formed patterns. -/
theorem validatePattern_iff (s : Bytes) : validatePattern s = true ↔ WellFormed (fun _ => True) s := validateFrom_deep _ 0 s (Nat.lt_succ_self _)

/-! ## Classes -/

theorem classRest_skip {t s s0 : Bytes} (ht : ∀ c ∈ t, ¬ c < 0x80) (h : ClassRest Q (t ++ s) s0) : ClassRest Q s s0 := by
  induction t with
  | nil => exact h
  | cons c t ih =>
    have hc := ht c (by simp)
    refine ih (fun q hq => ht q (by simp [hq])) ?_
    obtain ⟨u, h1, h2⟩ := h
    cases h1 with
    | nil => rw [(List.cons.inj h2).1] at hc; exact absurd (by decide) hc
    | byte _ _ _ h3 => exact ⟨_, h3, (List.cons.inj h2).2⟩
    | esc => rw [(List.cons.inj h2).1] at hc; exact absurd (by decide) hc

theorem classRest_rune {b : UInt8} {s s0 : Bytes} (h : ClassRest Q s s0) : ClassRest Q ((b :: s).drop (decodeRune (b :: s)).2) s0 := by
  obtain ⟨t, h1, h2⟩ := decodeRune_tail b s
  rw [h1] at h
  exact classRest_skip h2 h

theorem classRest_char {s s1 s0 : Bytes} {c : Nat} (h : ClassRest Q s s0) (hc : ClassChar s c s1) : ClassRest Q s1 s0 := by
  obtain ⟨u, h1, h2⟩ := h
  cases hc with
  | @plain b s g1 g2 =>
    apply classRest_rune
    cases h1 with
    | nil => exact absurd (List.cons.inj h2).1 g2
    | byte _ _ _ h3 => cases h2; exact ⟨_, h3, rfl⟩
    | esc => exact absurd (List.cons.inj h2).1 g1
  | @escaped s hs =>
    cases s with
    | nil => exact absurd rfl hs
    | cons b s =>
      apply classRest_rune
      cases h1 with
      | nil => exact absurd (List.cons.inj h2).1 (by decide)
      | byte g _ _ h3 => exact absurd (List.cons.inj h2).1.symm g
      | esc h3 => cases h2; exact ⟨_, h3, rfl⟩

theorem classRest_tail {s s2 s0 : Bytes} (h : ClassRest Q s s0) (ht : PatTail s s2) : ClassRest Q s2 s0 := by
  induction ht with
  | refl => exact h
  | char h1 _ ih => exact ih (classRest_char h h1)

/-- The next character of an open class. -/
theorem classRest_next {s s0 : Bytes} (h : ClassRest Q s s0) : s = cClose :: s0 ∨ ∃ c s1, ClassChar s c s1 := by
  obtain ⟨u, h1, rfl⟩ := h
  cases h1 with
  | nil => exact .inl rfl
  | byte g1 g2 => exact .inr ⟨_, _, .plain g1 g2⟩
  | @esc b u h => exact .inr ⟨_, _, .escaped (s := b :: (u ++ cClose :: s0)) (by simp)⟩

/-- An open class is a list of ranges. -/
theorem classRest_body : ∀ (k : Nat) {s s0 : Bytes}, s.length ≤ k → ClassRest Q s s0 → ∃ rs, ClassBody s rs s0 := by
  intro k
  induction k with
  | zero =>
    rintro s s0 hk ⟨u, -, rfl⟩
    simp at hk
  | succ k ih =>
    intro s s0 hk h
    rcases classRest_next h with rfl | ⟨c, s1, hc⟩
    · exact ⟨[], .close⟩
    · have h1 := classRest_char h hc
      have hl := classChar_drop hc
      by_cases hr : c < maxRune ∧ ∃ s2, s1 = cDash :: s2 ∧ s2 ≠ [] ∧ s2.head? ≠ some cClose
      · obtain ⟨g1, s2, rfl, g2, g3⟩ := hr
        have h2 : ClassRest Q s2 s0 := by
          have := ClassChar.plain (b := cDash) (s := s2) (by decide) (by decide)
          rw [decodeRune_ascii (by decide)] at this
          exact classRest_char h1 this
        rcases classRest_next h2 with rfl | ⟨hi, s3, hc'⟩
        · simp at g3
        · have hl' := classChar_drop hc'
          simp only [List.length_cons] at hl
          obtain ⟨rs, hb⟩ := ih (by omega) (classRest_char h2 hc')
          exact ⟨_, .range hc g1 hc' hb⟩
      · obtain ⟨rs, hb⟩ := ih (by omega) h1
        refine ⟨_, .one hc ?_ hb⟩
        intro g1 s2 g2
        by_contra hn
        rw [not_or] at hn
        exact hr ⟨g1, s2, g2, hn.1, hn.2⟩

theorem wellFormed_class {s : Bytes} (h : WellFormed Q (cOpen :: s)) : ∃ neg rs s0, ClassText s neg rs s0 ∧ ClassRest Q (classBodyText s) s0 ∧ WellFormed Q s0 := by
  obtain ⟨b, s1, s0, h1, h2, h3, h4⟩ := wellFormed_open.1 h
  obtain ⟨rs, hb⟩ := classRest_body _ (Nat.le_refl _) h3
  rw [h1]
  cases s with
  | nil => cases h1
  | cons c s =>
    simp only [classBodyText] at h1
    split at h1
    · rename_i hc
      subst h1
      exact ⟨true, rs, s0, .negated hc.symm h2 hb, h3, h4⟩
    · rename_i hc
      cases h1
      exact ⟨false, rs, s0, .plain (fun h => hc (.inr h)) (fun h => hc (.inl h)) h2 hb, h3, h4⟩

/-- What is left of an innocent class, read as a pattern. -/
theorem classRest_wellFormed {s s0 : Bytes} (h : ClassRest Innocent s s0) (h0 : WellFormed Innocent s0) : WellFormed Innocent s := by
  obtain ⟨u, h1, rfl⟩ := h
  induction h1 with
  | nil => exact .byte (by decide) (by decide) (by decide) (by decide) h0
  | byte h1 _ h3 _ ih => exact .byte h1 h3.1 h3.2.1 h3.2.2.1 ih
  | esc _ ih => exact .esc ih

/-! ## Braces -/

theorem wellFormed_append {t s : Bytes} (h : WellFormed Q t) (hs : WellFormed Q s) : WellFormed Q (t ++ s) := by
  induction h with
  | nil => exact hs
  | byte h1 h2 h3 h4 _ ih => exact .byte h1 h2 h3 h4 ih
  | esc _ ih => exact .esc ih
  | cls h1 h2 h3 _ ih => simpa using WellFormed.cls h1 h2 h3 ih
  | negated h1 h3 _ ih => simpa using WellFormed.negated h1 h3 ih
  | alt h1 _ _ ih2 => simpa using WellFormed.alt h1 ih2

theorem map_add {o : Option Nat} {a b : Nat} : (o.map (· + a)).map (· + b) = o.map (· + (a + b)) := by
  cases o <;> simp; omega

theorem map_eq {o : Option Nat} {a b : Nat} (h : a = b) : o.map (· + a) = o.map (· + b) := by rw [h]

theorem indexClosing_byte {a : Nat} {b : UInt8} {s : Bytes} (h1 : b ≠ cEsc) (h2 : b ≠ cLeft) (h3 : b ≠ cRight) :
    indexClosingFrom a (b :: s) = (indexClosingFrom a s).map (· + 1) := by
  rw [indexClosingFrom.eq_def]; simp [h1, h2, h3]

theorem indexClosing_esc {a : Nat} {b : UInt8} {s : Bytes} : indexClosingFrom a (cEsc :: b :: s) = (indexClosingFrom a s).map (· + 2) := by
  rw [indexClosingFrom.eq_def]; simp

theorem indexClosing_left {a : Nat} {s : Bytes} : indexClosingFrom a (cLeft :: s) = (indexClosingFrom (a + 1) s).map (· + 1) := by
  rw [indexClosingFrom.eq_def]; simp [show cLeft ≠ cEsc by decide]

theorem indexClosing_right {a : Nat} {s : Bytes} : indexClosingFrom a (cRight :: s) = if a = 1 then some 0 else (indexClosingFrom (a - 1) s).map (· + 1) := by
  rw [indexClosingFrom.eq_def]; simp [show cRight ≠ cEsc by decide, show cRight ≠ cLeft by decide]

theorem indexClosing_chars {u : Bytes} (h : ClassChars Innocent u) (a : Nat) (s : Bytes) : indexClosingFrom a (u ++ s) = (indexClosingFrom a s).map (· + u.length) := by
  induction h with
  | nil => simp
  | byte h1 _ h3 _ ih => rw [List.cons_append, indexClosing_byte h1 h3.2.1 h3.2.2.1, ih, map_add]; rfl
  | esc _ ih => rw [List.cons_append, List.cons_append, indexClosing_esc, ih, map_add]; rfl

/-- Braces in a well-formed text are balanced. -/
theorem indexClosing_skip {t : Bytes} (h : WellFormed Innocent t) : ∀ (a : Nat) (s : Bytes), 1 ≤ a → indexClosingFrom a (t ++ s) = (indexClosingFrom a s).map (· + t.length) := by
  induction h with
  | nil => intro a s _; simp
  | byte h1 _ h3 h4 _ ih => intro a s ha; rw [List.cons_append, indexClosing_byte h1 h3 h4, ih a s ha, map_add]; rfl
  | esc _ ih => intro a s ha; rw [List.cons_append, List.cons_append, indexClosing_esc, ih a s ha, map_add]; rfl
  | @cls b t s h1 h2 h3 _ ih =>
    intro a s' ha
    have : cOpen :: b :: (t ++ cClose :: s) ++ s' = cOpen :: ((b :: t) ++ cClose :: (s ++ s')) := by simp
    rw [this, indexClosing_byte (by decide) (by decide) (by decide), indexClosing_chars h3, indexClosing_byte (by decide) (by decide) (by decide), ih a s' ha, map_add, map_add, map_add]
    exact map_eq (by simp; omega)
  | @negated c b t s h1 h3 _ ih =>
    intro a s' ha
    have : cOpen :: c :: b :: (t ++ cClose :: s) ++ s' = cOpen :: c :: ((b :: t) ++ cClose :: (s ++ s')) := by simp
    have hc : c ≠ cEsc ∧ c ≠ cLeft ∧ c ≠ cRight := by rcases h1 with rfl | rfl <;> decide
    rw [this, indexClosing_byte (by decide) (by decide) (by decide), indexClosing_byte hc.1 hc.2.1 hc.2.2, indexClosing_chars h3,
      indexClosing_byte (by decide) (by decide) (by decide), ih a s' ha, map_add, map_add, map_add, map_add]
    exact map_eq (by simp; omega)
  | @alt t s _ _ ih1 ih2 =>
    intro a s' ha
    have : cLeft :: (t ++ cRight :: s) ++ s' = cLeft :: (t ++ cRight :: (s ++ s')) := by simp
    rw [this, indexClosing_left, ih1 (a + 1) _ (by omega), indexClosing_right, if_neg (by omega), Nat.add_sub_cancel, ih2 a s' ha, map_add, map_add, map_add]
    exact map_eq (by simp; omega)

theorem indexClosing_alt {t s : Bytes} (h : WellFormed Innocent t) : indexClosing (t ++ cRight :: s) = some t.length := by
  unfold indexClosing
  rw [indexClosing_skip h 1 _ (Nat.le_refl _), indexClosing_right]
  simp

theorem indexNextAlt_byte {a : Int} {b : UInt8} {s : Bytes} (h1 : b ≠ cEsc) (h2 : b ≠ cLeft) (h3 : b ≠ cRight) (h4 : ¬ (b = cComma ∧ a = 1)) :
    indexNextAltFrom a (b :: s) = (indexNextAltFrom a s).map (· + 1) := by
  rw [indexNextAltFrom.eq_def]; simp only [h1, h2, h3, h4, if_false]

theorem indexNextAlt_comma {s : Bytes} : indexNextAltFrom 1 (cComma :: s) = some 0 := by
  rw [indexNextAltFrom.eq_def]; simp [show cComma ≠ cEsc by decide, show cComma ≠ cLeft by decide, show cComma ≠ cRight by decide]

theorem indexNextAlt_esc {a : Int} {b : UInt8} {s : Bytes} : indexNextAltFrom a (cEsc :: b :: s) = (indexNextAltFrom a s).map (· + 2) := by
  rw [indexNextAltFrom.eq_def]; simp

theorem indexNextAlt_left {a : Int} {s : Bytes} : indexNextAltFrom a (cLeft :: s) = (indexNextAltFrom (a + 1) s).map (· + 1) := by
  rw [indexNextAltFrom.eq_def]; simp [show cLeft ≠ cEsc by decide]

theorem indexNextAlt_right {a : Int} {s : Bytes} : indexNextAltFrom a (cRight :: s) = (indexNextAltFrom (a - 1) s).map (· + 1) := by
  rw [indexNextAltFrom.eq_def]; simp [show cRight ≠ cEsc by decide, show cRight ≠ cLeft by decide]

theorem indexNextAlt_chars {u : Bytes} (h : ClassChars Innocent u) (a : Int) (s : Bytes) : indexNextAltFrom a (u ++ s) = (indexNextAltFrom a s).map (· + u.length) := by
  induction h with
  | nil => simp
  | byte h1 _ h3 _ ih => rw [List.cons_append, indexNextAlt_byte h1 h3.2.1 h3.2.2.1 (fun h => h3.2.2.2 h.1), ih, map_add]; rfl
  | esc _ ih => rw [List.cons_append, List.cons_append, indexNextAlt_esc, ih, map_add]; rfl

/-- The class between brackets, for the search for commas. -/
theorem indexNextAlt_class {b : UInt8} {t : Bytes} (h : ClassChars Innocent (b :: t)) (a : Int) (s : Bytes) :
    indexNextAltFrom a (cOpen :: b :: (t ++ cClose :: s)) = (indexNextAltFrom a s).map (· + (t.length + 3)) := by
  have : cOpen :: b :: (t ++ cClose :: s) = cOpen :: ((b :: t) ++ cClose :: s) := by simp
  rw [this, indexNextAlt_byte (by decide) (by decide) (by decide) (by rintro ⟨h, -⟩; exact absurd h (by decide)), indexNextAlt_chars h,
    indexNextAlt_byte (by decide) (by decide) (by decide) (by rintro ⟨h, -⟩; exact absurd h (by decide)), map_add, map_add]
  exact map_eq (by simp; omega)

theorem indexNextAlt_negated {c b : UInt8} {t : Bytes} (hc : c = cBang ∨ c = cCaret) (h : ClassChars Innocent (b :: t)) (a : Int) (s : Bytes) :
    indexNextAltFrom a (cOpen :: c :: b :: (t ++ cClose :: s)) = (indexNextAltFrom a s).map (· + (t.length + 4)) := by
  have : cOpen :: c :: b :: (t ++ cClose :: s) = cOpen :: c :: ((b :: t) ++ cClose :: s) := by simp
  have hc' : c ≠ cEsc ∧ c ≠ cLeft ∧ c ≠ cRight ∧ c ≠ cComma := by rcases hc with rfl | rfl <;> decide
  rw [this, indexNextAlt_byte (by decide) (by decide) (by decide) (by rintro ⟨h, -⟩; exact absurd h (by decide)),
    indexNextAlt_byte hc'.1 hc'.2.1 hc'.2.2.1 (fun h => hc'.2.2.2 h.1), indexNextAlt_chars h,
    indexNextAlt_byte (by decide) (by decide) (by decide) (by rintro ⟨h, -⟩; exact absurd h (by decide)), map_add, map_add, map_add]
  exact map_eq (by simp; omega)

theorem indexNextAlt_skip {t : Bytes} (h : WellFormed Innocent t) : ∀ (a : Int) (s : Bytes), 2 ≤ a → indexNextAltFrom a (t ++ s) = (indexNextAltFrom a s).map (· + t.length) := by
  induction h with
  | nil => intro a s _; simp
  | byte h1 _ h3 h4 _ ih => intro a s ha; rw [List.cons_append, indexNextAlt_byte h1 h3 h4 (by omega), ih a s ha, map_add]; rfl
  | esc _ ih => intro a s ha; rw [List.cons_append, List.cons_append, indexNextAlt_esc, ih a s ha, map_add]; rfl
  | @cls b t s h1 h2 h3 _ ih =>
    intro a s' ha
    have : cOpen :: b :: (t ++ cClose :: s) ++ s' = cOpen :: b :: (t ++ cClose :: (s ++ s')) := by simp
    rw [this, indexNextAlt_class h3, ih a s' ha, map_add]
    exact map_eq (by simp; omega)
  | @negated c b t s h1 h3 _ ih =>
    intro a s' ha
    have : cOpen :: c :: b :: (t ++ cClose :: s) ++ s' = cOpen :: c :: b :: (t ++ cClose :: (s ++ s')) := by simp
    rw [this, indexNextAlt_negated h1 h3, ih a s' ha, map_add]
    exact map_eq (by simp; omega)
  | @alt t s _ _ ih1 ih2 =>
    intro a s' ha
    have : cLeft :: (t ++ cRight :: s) ++ s' = cLeft :: (t ++ cRight :: (s ++ s')) := by simp
    rw [this, indexNextAlt_left, ih1 (a + 1) _ (by omega), indexNextAlt_right, show a + 1 - 1 = a by omega, ih2 a s' ha, map_add, map_add, map_add]
    exact map_eq (by simp; omega)

/-- The first comma between alternatives splits a well-formed text into well-formed texts. -/
theorem indexNextAlt_split {t : Bytes} (h : WellFormed Innocent t) : indexNextAlt t = none ∨
    ∃ t1 t2, indexNextAlt t = some t1.length ∧ t = t1 ++ cComma :: t2 ∧ WellFormed Innocent t1 ∧ WellFormed Innocent t2 := by
  unfold indexNextAlt
  induction h with
  | nil => exact .inl rfl
  | @byte b s h1 h2 h3 h4 h5 ih =>
    by_cases hb : b = cComma
    · subst hb
      exact .inr ⟨[], s, indexNextAlt_comma, rfl, .nil, h5⟩
    · rw [indexNextAlt_byte h1 h3 h4 (fun h => hb h.1)]
      rcases ih with ih | ⟨t1, t2, i1, i2, i3, i4⟩
      · rw [ih]; exact .inl rfl
      · rw [i1]; exact .inr ⟨b :: t1, t2, rfl, by rw [i2]; rfl, .byte h1 h2 h3 h4 i3, i4⟩
  | @esc b s h5 ih =>
    rw [indexNextAlt_esc]
    rcases ih with ih | ⟨t1, t2, i1, i2, i3, i4⟩
    · rw [ih]; exact .inl rfl
    · rw [i1]; exact .inr ⟨cEsc :: b :: t1, t2, rfl, by rw [i2]; rfl, .esc i3, i4⟩
  | @cls b t s h1 h2 h3 h4 ih =>
    rw [indexNextAlt_class h3]
    rcases ih with ih | ⟨t1, t2, i1, i2, i3, i4⟩
    · rw [ih]; exact .inl rfl
    · rw [i1]
      refine .inr ⟨cOpen :: b :: (t ++ cClose :: t1), t2, ?_, by rw [i2]; simp, .cls h1 h2 h3 i3, i4⟩
      simp; omega
  | @negated c b t s h1 h3 h4 ih =>
    rw [indexNextAlt_negated h1 h3]
    rcases ih with ih | ⟨t1, t2, i1, i2, i3, i4⟩
    · rw [ih]; exact .inl rfl
    · rw [i1]
      refine .inr ⟨cOpen :: c :: b :: (t ++ cClose :: t1), t2, ?_, by rw [i2]; simp, .negated h1 h3 i3, i4⟩
      simp; omega
  | @alt t s h1 h2 _ ih2 =>
    rw [indexNextAlt_left, indexNextAlt_skip h1 _ _ (by omega), indexNextAlt_right, show (1 : Int) + 1 - 1 = 1 by omega, map_add, map_add]
    rcases ih2 with ih | ⟨t1, t2, i1, i2, i3, i4⟩
    · rw [ih]; exact .inl rfl
    · rw [i1]
      refine .inr ⟨cLeft :: (t ++ cRight :: t1), t2, ?_, by rw [i2]; simp, .alt h1 i3, i4⟩
      simp; omega

/-- An outcome other than an error. -/
def Res.Fine {α : Type} (r : Res α) : Prop := ∀ e, r ≠ .err e

theorem tryAlts_fine {f : Bytes → Res Bool} (hf : ∀ a, WellFormed Innocent a → (f a).Fine) : ∀ (k : Nat) (s : Bytes), WellFormed Innocent s → (tryAlts f k s).Fine := by
  intro k
  induction k with
  | zero => intro s _ e h; cases h
  | succ k ih =>
    intro s hs
    unfold tryAlts
    rcases indexNextAlt_split hs with h | ⟨t1, t2, h1, rfl, h3, h4⟩
    · rw [h]; exact hf s hs
    · rw [h1]
      simp only [List.take_left]
      have := hf t1 h3
      split
      · have hd : (t1 ++ cComma :: t2).drop (t1.length + 1) = t2 := by simp [List.drop_append]
        rw [hd]; exact ih t2 h4
      · exact this

theorem drop_alt {t s : Bytes} : (t ++ cRight :: s).drop (t.length + 1) = s := by simp [List.drop_append]

theorem zeroLength_fine : ∀ (k : Nat) (s : Bytes), WellFormed Innocent s → (zeroLength k s).Fine := by
  intro k
  induction k with
  | zero => intro s _ e h; cases h
  | succ k ih =>
    intro s hs
    unfold zeroLength
    split
    · intro e h; cases h
    · split
      · intro e h; cases h
      · rename_i b s1 _
        split
        · rename_i hb
          subst hb
          obtain ⟨t, s', rfl, h1, h2⟩ := wellFormed_left.1 hs
          rw [indexClosing_alt h1]
          simp only [List.take_left, drop_alt]
          exact tryAlts_fine (fun a ha => ih _ (wellFormed_append ha h2)) _ _ h1
        · rw [if_pos ((validatePattern_iff _).2 (wellFormed_true hs))]
          intro e h; cases h

/-! ## The loop on well-formed patterns -/

/-- A text that goes well before any well-formed text. -/
def Flat (t : Bytes) : Prop := ∀ u, WellFormed Innocent u → WellFormed Innocent (t ++ u)

theorem flat_append {t u : Bytes} (ht : Flat t) (hu : Flat u) : Flat (t ++ u) := fun v hv => by
  rw [List.append_assoc]
  exact ht _ (hu v hv)

theorem wellFormed_skip {t s : Bytes} (ht : ∀ c ∈ t, ¬ c < 0x80) : WellFormed Q (t ++ s) ↔ WellFormed Q s := by
  induction t with
  | nil => rfl
  | cons c t ih =>
    have hc := ht c (by simp)
    have h : ∀ {b : UInt8}, b < 0x80 → c ≠ b := by rintro b hb rfl; exact hc hb
    rw [List.cons_append, wellFormed_byte (h (by decide)) (h (by decide)) (h (by decide)), ih fun q hq => ht q (by simp [hq])]
    simp [h (b := cRight) (by decide)]

/-- A rune of the pattern. -/
theorem rune_flat {b : UInt8} {s : Bytes} (hs : WellFormed Innocent s) : ∃ t, b :: s = b :: t ++ (b :: s).drop (decodeRune (b :: s)).2 ∧ (b :: t).length = (decodeRune (b :: s)).2 ∧
    (∀ u, WellFormed Innocent u → WellFormed Innocent (t ++ u)) ∧ WellFormed Innocent ((b :: s).drop (decodeRune (b :: s)).2) := by
  obtain ⟨t, h1, h2⟩ := decodeRune_tail b s
  refine ⟨t, by rw [List.cons_append, ← h1], ?_, fun u hu => (wellFormed_skip h2).2 hu, ?_⟩
  · have := congrArg List.length h1
    have hp := decodeRune_pos (s := b :: s) (by simp)
    have hl := decodeRune_le (b :: s)
    simp at this hl ⊢
    omega
  · rw [h1] at hs
    exact (wellFormed_skip h2).1 hs

theorem tail_suffix {s s2 : Bytes} (h : PatTail s s2) : s2 <:+ s := by
  induction h with
  | refl => exact List.suffix_refl _
  | char h1 _ ih => exact ih.trans (classChar_suffix h1)

theorem classBodyText_suffix (s : Bytes) : classBodyText s <:+ s := by
  cases s with
  | nil => exact List.suffix_refl _
  | cons c s =>
    simp only [classBodyText]
    split
    · exact List.suffix_cons _ _
    · exact List.suffix_refl _

theorem drop_of_suffix {s rest : Bytes} (h : rest <:+ s) : s.drop (s.length - rest.length) = rest := by
  obtain ⟨t, rfl⟩ := h
  simp

theorem class_flat {s s0 : Bytes} (h : WellFormed Innocent (cOpen :: s)) {neg : Bool} {rs : List (Nat × Nat)} (hc : ClassText s neg rs s0) :
    ∃ t, cOpen :: s = t ++ s0 ∧ Flat t ∧ WellFormed Innocent s0 := by
  obtain ⟨b, s1, s0', h1, h2, ⟨u, h3, h3'⟩, h4⟩ := wellFormed_open.1 h
  have hv : validateClass (classBodyText s) = some s0' := by rw [h1, validateClass_iff]; exact ⟨u, classChars_true h3, h3'⟩
  have hv' : validateClass (classBodyText s) = some s0 := by
    cases hc with
    | plain g1 g2 g3 g4 => simpa [classBodyText, g1, g2] using validateClass_body g4
    | negated g1 g3 g4 => simpa [classBodyText, g1.symm] using validateClass_body g4
  rw [hv] at hv'
  cases hv'
  cases u with
  | nil => exact absurd (List.cons.inj h3').1 h2
  | cons a u =>
    simp only [List.cons_append, List.cons.injEq] at h3'
    obtain ⟨rfl, rfl⟩ := h3'
    cases s with
    | nil => cases h1
    | cons c s =>
      simp only [classBodyText] at h1
      split at h1
      · rename_i hcc
        subst h1
        exact ⟨cOpen :: c :: b :: (u ++ [cClose]), by simp, fun v hv => by simpa using WellFormed.negated hcc.symm h3 hv, h4⟩
      · rename_i hcc
        cases h1
        exact ⟨cOpen :: b :: (u ++ [cClose]), by simp, fun v hv => by simpa using WellFormed.cls (fun h => hcc (.inr h)) (fun h => hcc (.inl h)) h3 hv, h4⟩

/-- What the switch does at a well-formed rest. -/
theorem matchItem_wellFormed {rec : Bytes → MatchState → Res Bool} {p n : Bytes} {st : MatchState} (hp : st.pat ≤ p.length) (hw : WellFormed Innocent (p.drop st.pat)) :
    (∀ st', matchItem rec p n st (p.drop st.pat) = .next st' → ∃ t s', p.drop st.pat = t ++ s' ∧ Flat t ∧ WellFormed Innocent s' ∧ st'.pat = st.pat + t.length) ∧
    (∀ q, matchItem rec p n st (p.drop st.pat) = .stop q → WellFormed Innocent (p.drop q)) ∧
    (∀ r, matchItem rec p n st (p.drop st.pat) = .ret r → r = .ok true ∨
      ∃ t s' k, p.drop st.pat = cLeft :: (t ++ cRight :: s') ∧ WellFormed Innocent t ∧ WellFormed Innocent s' ∧
        r = tryAlts (fun alt => rec (p.take st.pat ++ alt ++ s') { st with sos := true }) k t) := by
  have hl : (p.drop st.pat).length = p.length - st.pat := by simp
  have hw0 := hw
  unfold matchItem
  cases hs : p.drop st.pat with
  | nil =>
    refine ⟨(fun st' h => nomatch h), fun q h => ?_, (fun r h => nomatch h)⟩
    cases h; exact hw
  | cons b s1 =>
    rw [hs] at hw hl
    simp only [List.length_cons] at hl
    simp only
    generalize (decodeRune (n.drop st.name)).1 = nr
    generalize (decodeRune (n.drop st.name)).2 = nw
    have hstep : ∀ {t s' : Bytes} {q : Nat}, b :: s1 = t ++ s' → Flat t → WellFormed Innocent s' → q = st.pat + t.length →
        ∃ t s', b :: s1 = t ++ s' ∧ Flat t ∧ WellFormed Innocent s' ∧ q = st.pat + t.length := fun h1 h2 h3 h4 => ⟨_, _, h1, h2, h3, h4⟩
    have hstar : ∀ {s : Bytes}, WellFormed Innocent (cStar :: s) → WellFormed Innocent s := fun h => ((wellFormed_byte (by decide) (by decide) (by decide)).1 h).2
    have fstar : Flat [cStar] := fun u hu => .byte (by decide) (by decide) (by decide) (by decide) hu
    have fslash : Flat [cSlash] := fun u hu => .byte (by decide) (by decide) (by decide) (by decide) hu
    split_ifs with h1 h2 h3 h4 h5 h6
    · subst h1
      refine ⟨fun st' h => ?_, fun q h => ?_, fun r h => ?_⟩
      · unfold starItem at h
        simp only at h
        split at h
        · rename_i c s2
          split_ifs at h with g1 g2 g3 g4
          · subst g1
            obtain ⟨s3, rfl⟩ := (decodeRune_eq_ascii (c := cSlash) (by decide)).1 g4
            cases h
            refine hstep (t := [cStar, cStar, cSlash]) rfl (flat_append (t := [cStar]) fstar (flat_append (t := [cStar]) fstar fslash))
              ((wellFormed_byte (by decide) (by decide) (by decide)).1 (hstar (hstar hw))).2 ?_
            simp [decodeRune_ascii (b := cSlash) (by decide)]
          · subst g1
            cases h
            exact hstep (t := [cStar, cStar]) rfl (flat_append (t := [cStar]) fstar fstar) (hstar (hstar hw)) rfl
          · subst g1
            cases h
            exact hstep (t := [cStar, cStar]) rfl (flat_append (t := [cStar]) fstar fstar) (hstar (hstar hw)) rfl
          · cases h
            exact hstep (t := [cStar]) rfl fstar (hstar hw) rfl
        · cases h
          exact hstep (t := [cStar]) rfl fstar (hstar hw) rfl
      · unfold starItem at h
        simp only at h
        split at h
        · split_ifs at h
        · cases h
      · unfold starItem at h
        simp only at h
        split at h
        · split_ifs at h
          cases h
          exact .inl rfl
        · cases h
    · subst h2
      have fq : Flat [cQuest] := fun u hu => .byte (by decide) (by decide) (by decide) (by decide) hu
      unfold questItem
      refine ⟨fun st' h => ?_, fun q h => ?_, fun r h => ?_⟩
      · split_ifs at h
        cases h
        exact hstep (t := [cQuest]) rfl fq ((wellFormed_byte (by decide) (by decide) (by decide)).1 hw).2 rfl
      · split_ifs at h
        cases h
        exact hw0
      · split_ifs at h
    · subst h3
      obtain ⟨neg, rs, s0, g1, g2, g3⟩ := wellFormed_class hw
      obtain ⟨t, f1, f2, -⟩ := class_flat hw g1
      have hlen : p.length = st.pat + (t ++ s0).length := by rw [← f1]; simp; omega
      unfold classItem
      rcases matchClass_text (r := nr) g1 with ⟨-, hy⟩ | ⟨-, s2, hy, ht⟩
      · rw [hy]
        refine ⟨fun st' h => ?_, (fun q h => nomatch h), (fun r h => nomatch h)⟩
        cases h
        refine hstep f1 f2 g3 ?_
        simp at hlen ⊢; omega
      · rw [hy]
        refine ⟨(fun st' h => nomatch h), fun q h => ?_, (fun r h => nomatch h)⟩
        cases h
        have hsuf : s2 <:+ p := ((tail_suffix ht).trans (classBodyText_suffix s1)).trans ((List.suffix_cons cOpen s1).trans (hs ▸ List.drop_suffix _ _))
        rw [drop_of_suffix hsuf]
        exact classRest_wellFormed (classRest_tail g2 ht) g3
    · subst h4
      obtain ⟨t, s', rfl, g1, g2⟩ := wellFormed_left.1 hw
      unfold altItem
      rw [indexClosing_alt g1]
      simp only [List.take_left, drop_alt]
      refine ⟨(fun st' h => nomatch h), (fun q h => nomatch h), fun r h => .inr ⟨t, s', t.length + 1, rfl, g1, g2, ?_⟩⟩
      cases h
      rfl
    · subst h5 h6
      obtain ⟨_, _, h, _⟩ := wellFormed_esc.1 hw
      cases h
    · subst h5
      obtain ⟨c, s, rfl, g1⟩ := wellFormed_esc.1 hw
      obtain ⟨t, e1, e2, e3, e4⟩ := rune_flat (b := c) g1
      unfold charItem
      refine ⟨fun st' h => ?_, fun q h => ?_, fun r h => ?_⟩
      · split_ifs at h
        cases h
        refine hstep (t := cEsc :: c :: t) (s' := (c :: s).drop (decodeRune (c :: s)).2) (by rw [List.cons_append, ← e1]) ?_ e4 ?_
        · intro u hu
          exact .esc (e3 u hu)
        · simp at e2 ⊢; omega
      · split_ifs at h with g2 g3
        · cases h
          exact hw0
        · exfalso
          apply g3
          refine ⟨by omega, ?_⟩
          have : (p.drop st.pat)[0]? = some cEsc := by rw [hs]; rfl
          simpa using this
      · split_ifs at h
    · obtain ⟨g0, g1⟩ := (wellFormed_byte h5 h3 h4).1 hw
      obtain ⟨t, e1, e2, e3, e4⟩ := rune_flat (b := b) g1
      unfold charItem
      refine ⟨fun st' h => ?_, fun q h => ?_, fun r h => ?_⟩
      · split_ifs at h
        cases h
        refine hstep (t := b :: t) e1 ?_ e4 ?_
        · intro u hu
          exact .byte h5 h3 h4 g0 (e3 u hu)
        · simp at e2 ⊢; omega
      · split_ifs at h with g2 g3
        · cases h
          obtain ⟨g4, g5⟩ := g3
          have : p.drop (st.pat - 1) = cEsc :: b :: s1 := by
            rw [← hs]
            obtain ⟨k, hk⟩ : ∃ k, st.pat = k + 1 := ⟨st.pat - 1, by omega⟩
            rw [hk] at g5 ⊢
            simp only [Nat.add_sub_cancel] at g5 ⊢
            have hlt : k < p.length := by omega
            rw [List.drop_eq_getElem_cons hlt]
            rw [List.getElem?_eq_getElem hlt] at g5
            simp only [Option.some.injEq] at g5
            rw [g5]
          rw [this]
          exact .esc g1
        · cases h
          exact hw0
      · split_ifs at h

/-- The text between two positions of the pattern is whole. -/
def Between (p : Bytes) (i j : Nat) : Prop := i ≤ j ∧ j ≤ p.length ∧ Flat ((p.take j).drop i)

theorem between_refl {p : Bytes} {i : Nat} (h : i ≤ p.length) : Between p i i := ⟨Nat.le_refl _, h, fun u hu => by
  rw [List.drop_eq_nil_of_le (by simp)]; exact hu⟩

theorem between_trans {p : Bytes} {i j k : Nat} (h : Between p i j) (h' : Between p j k) : Between p i k := by
  obtain ⟨h1, h2, h3⟩ := h
  obtain ⟨g1, g2, g3⟩ := h'
  refine ⟨by omega, g2, ?_⟩
  have : (p.take k).drop i = (p.take j).drop i ++ (p.take k).drop j := by
    have e1 : p.take j = (p.take k).take j := by rw [List.take_take, Nat.min_eq_left g1]
    have e2 : i ≤ ((p.take k).take j).length := by simp; omega
    conv_lhs => rw [← List.take_append_drop j (p.take k), List.drop_append_of_le_length e2]
    rw [e1]
  rw [this]
  exact flat_append h3 g3

theorem between_wellFormed {p : Bytes} {i j : Nat} (h : Between p i j) (hj : WellFormed Innocent (p.drop j)) : WellFormed Innocent (p.drop i) := by
  obtain ⟨h1, h2, h3⟩ := h
  have : p.drop i = (p.take j).drop i ++ p.drop j := by
    conv_lhs => rw [← List.take_append_drop j p, List.drop_append_of_le_length (by simp; omega)]
  rw [this]
  exact h3 _ hj

/-- What keeps a run on a well-formed pattern from failing. -/
structure Whole (p n : Bytes) (st : MatchState) : Prop where
  pat : st.pat ≤ p.length
  here : WellFormed Innocent (p.drop st.pat)
  ds : ∀ q i, st.ds = some (q, i) → Between p q st.pat
  star : starDead n st ∨ ∀ q i, st.star = some (q, i) → Between p q st.pat ∧ ∀ q' i', st.ds = some (q', i') → Between p q' q

theorem whole_next {rec : Bytes → MatchState → Res Bool} {p n : Bytes} {st st' : MatchState} (hi : Whole p n st) (hn : st.name < n.length)
    (h : matchItem rec p n st (p.drop st.pat) = .next st') : Whole p n st' := by
  obtain ⟨t, s', h1, h2, h3, h4⟩ := (matchItem_wellFormed (rec := rec) (n := n) hi.pat hi.here).1 st' h
  obtain ⟨g1, g2, g3⟩ := matchItem_cases hi.pat hn h
  have hd : p.drop st'.pat = s' := by rw [h4, ← List.drop_drop, h1, List.drop_left]
  have hb : Between p st.pat st'.pat := by
    refine ⟨by omega, g2, ?_⟩
    have : (p.take st'.pat).drop st.pat = t := by
      rw [List.drop_take, h1, h4, Nat.add_sub_cancel_left, List.take_left]
    rw [this]; exact h2
  refine ⟨g2, hd ▸ h3, ?_, ?_⟩
  · rcases g3 with ⟨e1, e2, -⟩ | ⟨-, e1, e2⟩ | ⟨-, e1, e2⟩
    · intro q i hq; exact between_trans (hi.ds q i (e1 ▸ hq)) hb
    · intro q i hq; exact between_trans (hi.ds q i (e1 ▸ hq)) hb
    · intro q i hq; rw [e1] at hq; cases hq; exact between_refl g2
  · rcases g3 with ⟨e1, e2, -⟩ | ⟨-, e1, e2⟩ | ⟨-, e1, e2⟩
    · rcases hi.star with hd | hs
      · exact .inl fun q i hq => hd q i (e2 ▸ hq)
      · refine .inr fun q i hq => ⟨between_trans (hs q i (e2 ▸ hq)).1 hb, fun q' i' hq' => (hs q i (e2 ▸ hq)).2 q' i' (e1 ▸ hq')⟩
    · right
      intro q i hq
      rw [e2] at hq
      cases hq
      exact ⟨between_refl g2, fun q' i' hq' => between_trans (hi.ds q' i' (e1 ▸ hq')) hb⟩
    · left
      intro q i hq
      rw [e2] at hq
      cases hq

theorem whole_backtrackDs {p n : Bytes} {st st' : MatchState} (hi : Whole p n st) (hd : starDead n st) (h : backtrackDs n st = some st') : Whole p n st' := by
  unfold backtrackDs at h
  split at h
  · cases h
  · rename_i q i hq
    split at h
    · cases h
    · cases h
      have hb := hi.ds q i hq
      refine ⟨by have := hb.1; have := hb.2.1; simp only; omega, between_wellFormed hb hi.here, ?_, .inl hd⟩
      intro q' i' hq'
      cases hq'
      exact between_refl (by have := hb.1; have := hb.2.1; omega)

theorem whole_backtrack {p n : Bytes} {st st' : MatchState} (hi : Whole p n st) (h : backtrack n st = some st') : Whole p n st' := by
  unfold backtrack at h
  split at h
  · rename_i hs
    exact whole_backtrackDs hi (fun q i hq => by rw [hs] at hq; cases hq) h
  · rename_i q i hs
    simp only at h
    split_ifs at h with hr
    · cases h
      rcases hi.star with hd | hl
      · exact absurd (hd q i hs) hr
      · obtain ⟨h1, h2⟩ := hl q i hs
        have hle : q ≤ p.length := by have := h1.1; have := h1.2.1; omega
        refine ⟨hle, between_wellFormed h1 hi.here, h2, .inr ?_⟩
        intro q' i' hq
        cases hq
        exact ⟨between_refl hle, h2⟩
    · refine whole_backtrackDs hi (fun q' i' hq => ?_) h
      rw [hs] at hq
      cases hq
      simpa using hr

/-- The pattern of an alternative. -/
theorem whole_alt {p n : Bytes} {st : MatchState} (hi : Whole p n st) {alt s' : Bytes} (ha : WellFormed Innocent alt) (hs : WellFormed Innocent s') :
    Whole (p.take st.pat ++ alt ++ s') n { st with sos := true } := by
  have hl : (p.take st.pat).length = st.pat := by simp [hi.pat]
  have hle : st.pat ≤ (p.take st.pat ++ alt ++ s').length := by simp [hl]
  have hb : ∀ {i j}, j ≤ st.pat → Between p i j → Between (p.take st.pat ++ alt ++ s') i j := by
    intro i j hj ⟨h1, h2, h3⟩
    refine ⟨h1, by omega, ?_⟩
    rw [List.append_assoc, List.take_append_of_le_length (by omega), List.take_take, Nat.min_eq_left hj]
    exact h3
  refine ⟨hle, ?_, fun q i hq => hb (Nat.le_refl _) (hi.ds q i hq), ?_⟩
  · show WellFormed Innocent ((p.take st.pat ++ alt ++ s').drop st.pat)
    rw [List.append_assoc, List.drop_append_of_le_length (by omega), List.drop_eq_nil_of_le (by omega), List.nil_append]
    exact wellFormed_append ha hs
  · rcases hi.star with hd | hl
    · exact .inl hd
    · refine .inr fun q i hq => ⟨hb (Nat.le_refl _) (hl q i hq).1, fun q' i' hq' => hb (hl q i hq).1.1 ((hl q i hq).2 q' i' hq')⟩

theorem matchLoop_fine {rec : Bytes → MatchState → Res Bool} {p n : Bytes} (hrec : ∀ q st, Whole q n st → (rec q st).Fine) :
    ∀ (k : Nat) (st : MatchState), Whole p n st → (matchLoop rec p n k st).Fine := by
  intro k
  induction k with
  | zero => intro st _ e h; cases h
  | succ k ih =>
    intro st hi
    unfold matchLoop
    obtain ⟨-, w2, w3⟩ := matchItem_wellFormed (rec := rec) (n := n) hi.pat hi.here
    split_ifs with hn
    · split
      · rename_i st' hs
        exact ih st' (whole_next hi hn hs)
      · rename_i r hs
        rcases w3 r hs with rfl | ⟨t, s', k', g1, g2, g3, rfl⟩
        · intro e h; cases h
        · exact tryAlts_fine (fun a ha => hrec _ _ (whole_alt hi ha g3)) _ _ g2
      · rename_i q hs
        split
        · rename_i st' hb
          exact ih st' (whole_backtrack hi hb)
        · rw [if_neg]
          · intro e h; cases h
          · rintro ⟨-, h⟩
            exact h ((validatePattern_iff _).2 (wellFormed_true (w2 q hs)))
    · exact zeroLength_fine _ _ hi.here

theorem doMatch_fine (n : Bytes) : ∀ (k : Nat) (p : Bytes) (st : MatchState), Whole p n st → (doMatch n k p st).Fine := by
  intro k
  induction k with
  | zero => intro p st _ e h; cases h
  | succ k ih =>
    intro p st hi
    unfold doMatch
    exact matchLoop_fine ih _ _ ⟨hi.pat, hi.here, hi.ds, hi.star⟩

/-- Well-formed patterns with innocent classes never make `Match` fail. -/
theorem matchPattern_fine {p : Bytes} (h : WellFormed Innocent p) (n : Bytes) : ∃ b, matchPattern p n = .ok b := by
  have h1 : (matchPattern p n).Fine := doMatch_fine n _ p _ ⟨by simp, h, (fun q i hq => by cases hq), .inl fun q i hq => by cases hq⟩
  have h2 := matchPattern_returns p n
  cases hr : matchPattern p n with
  | ok b => exact ⟨b, rfl⟩
  | err e => exact absurd hr (h1 e)
  | panic w => rw [hr] at h2; exact absurd h2 id
  | diverge => rw [hr] at h2; exact absurd h2 id

/-- Patterns without braces have items. -/
theorem parses_exists : ∀ (k : Nat) {s : Bytes} (sos : Bool), s.length ≤ k → WellFormed Q s → cLeft ∉ s → ∃ g, Parses sos s g := by
  intro k
  induction k with
  | zero => intro s sos hk _ _; rw [List.length_eq_zero_iff.1 (by omega : s.length = 0)]; exact ⟨[], .nil⟩
  | succ k ih =>
    intro s sos hk hw hno
    cases s with
    | nil => exact ⟨[], .nil⟩
    | cons b s =>
      simp only [List.length_cons] at hk
      have sub : ∀ {t : Bytes} (sos : Bool), t <:+ s → WellFormed Q t → ∃ g, Parses sos t g := by
        intro t sos ht hw
        exact ih sos (by have := ht.length_le; omega) hw fun h => hno (List.mem_cons_of_mem _ (ht.subset h))
      have hplain : ∀ {c : UInt8} {u : Bytes}, c ≠ cEsc → c ≠ cOpen → c ≠ cLeft → WellFormed Q (c :: u) → WellFormed Q u :=
        fun h1 h2 h3 h => ((wellFormed_byte h1 h2 h3).1 h).2
      have hrune : ∀ {c : UInt8} {u : Bytes}, WellFormed Q u → WellFormed Q ((c :: u).drop (decodeRune (c :: u)).2) ∧ (c :: u).drop (decodeRune (c :: u)).2 <:+ u := by
        intro c u hu
        obtain ⟨t, h1, h2⟩ := decodeRune_tail c u
        have h3 := hu
        rw [h1] at h3
        exact ⟨(wellFormed_skip h2).1 h3, ⟨t, h1.symm⟩⟩
      by_cases h1 : b = cStar
      · subst h1
        have hw1 := hplain (by decide) (by decide) (by decide) hw
        cases s with
        | nil => exact ⟨_, .star (by simp) .nil⟩
        | cons c s =>
          by_cases hc : c = cStar
          · subst hc
            have hw2 := hplain (by decide) (by decide) (by decide) hw1
            cases sos with
            | false =>
              obtain ⟨g, hg⟩ := sub false (List.suffix_cons _ s) hw2
              exact ⟨_, .star2 (.inl rfl) hg⟩
            | true =>
              cases s with
              | nil => exact ⟨_, .rest⟩
              | cons e s =>
                by_cases he : e = cSlash
                · subst he
                  obtain ⟨g, hg⟩ := sub true ((List.suffix_cons _ s).trans (List.suffix_cons _ _)) (hplain (by decide) (by decide) (by decide) hw2)
                  exact ⟨_, .dirs hg⟩
                · obtain ⟨g, hg⟩ := sub false (List.suffix_cons _ _) hw2
                  exact ⟨_, .star2 (.inr ⟨by simp, by simpa using he⟩) hg⟩
          · obtain ⟨g, hg⟩ := sub false (List.suffix_refl _) hw1
            exact ⟨_, .star (by simpa using hc) hg⟩
      · by_cases h2 : b = cQuest
        · subst h2
          obtain ⟨g, hg⟩ := sub false (List.suffix_refl _) (hplain (by decide) (by decide) (by decide) hw)
          exact ⟨_, .any hg⟩
        · by_cases h3 : b = cOpen
          · subst h3
            obtain ⟨neg, rs, s0, g1, -, g3⟩ := wellFormed_class hw
            obtain ⟨g, hg⟩ := sub false (classText_suffix g1) g3
            exact ⟨_, .cls g1 hg⟩
          · have h4 : b ≠ cLeft := by rintro rfl; exact hno (by simp)
            by_cases h5 : b = cEsc
            · subst h5
              obtain ⟨c, s', rfl, hw'⟩ := wellFormed_esc.1 hw
              obtain ⟨f1, f2⟩ := hrune (c := c) hw'
              obtain ⟨g, hg⟩ := sub (decide ((decodeRune (c :: s')).1 = sepRune)) (f2.trans (List.suffix_cons _ _)) f1
              exact ⟨_, .esc (by simp) hg⟩
            · obtain ⟨f1, f2⟩ := hrune (c := b) (hplain h5 h3 h4 hw)
              obtain ⟨g, hg⟩ := sub (decide ((decodeRune (b :: s)).1 = sepRune)) f2 f1
              exact ⟨_, .chr h1 h2 h3 h4 h5 hg⟩

end Vtp
