import Verif.Lemmas.Pattern
import Verif.Lemmas.PatternSearch
/-!
# The loop of the matcher and the search it performs
-/

namespace Vtp

open Spec

/-! ## Runes -/

theorem runes_cons {s : Bytes} (h : s ≠ []) {m : List Nat} (hr : Runes s m) : ∃ m', m = (decodeRune s).1 :: m' ∧ Runes (s.drop (decodeRune s).2) m' := by
  cases hr with
  | nil => exact absurd rfl h
  | cons h1 h2 => exact ⟨_, rfl, h2⟩

theorem runes_nil {m : List Nat} (hr : Runes [] m) : m = [] := by
  cases hr with
  | nil => rfl
  | cons h1 h2 => exact absurd rfl h1

theorem runes_exists : ∀ (k : Nat) (s : Bytes), s.length ≤ k → ∃ m, Runes s m := by
  intro k
  induction k with
  | zero => intro s h; rw [List.length_eq_zero_iff.1 (by omega : s.length = 0)]; exact ⟨[], .nil⟩
  | succ k ih =>
    intro s h
    by_cases hs : s = []
    · subst hs; exact ⟨[], .nil⟩
    · obtain ⟨m, hm⟩ := ih (s.drop (decodeRune s).2) (by have := decodeRune_drop hs; omega)
      exact ⟨_, .cons hs hm⟩

theorem runes_unique {s : Bytes} {m m' : List Nat} (h : Runes s m) (h' : Runes s m') : m = m' := by
  induction h generalizing m' with
  | nil => exact (runes_nil h').symm
  | cons h1 h2 ih =>
    obtain ⟨q, rfl, hq⟩ := runes_cons h1 h'
    rw [ih hq]

/-! ## Classes -/

/-- The bytes after the first of a rune are not ASCII. -/
theorem decodeRune_tail (b : UInt8) (s : Bytes) : ∃ t : Bytes, s = t ++ (b :: s).drop (decodeRune (b :: s)).2 ∧ ∀ c ∈ t, ¬ c < 0x80 := by
  by_cases hb : b < 0x80
  · exact ⟨[], by simp [decodeRune_ascii hb], by simp⟩
  · have hone : ∀ r : Nat, decodeRune (b :: s) = (r, 1) → ∃ t : Bytes, s = t ++ (b :: s).drop (decodeRune (b :: s)).2 ∧ ∀ c ∈ t, ¬ c < 0x80 :=
      fun r h => ⟨[], by simp [h], by simp⟩
    have hlo : ∀ {k lo hi}, leadByte b = some (k, lo, hi) → 128 ≤ lo.toNat := by
      intro k lo hi h
      unfold leadByte at h
      split_ifs at h <;> simp at h <;> obtain ⟨-, rfl, -⟩ := h <;> decide
    have hge : ∀ {c : UInt8}, 128 ≤ c.toNat → ¬ c < 0x80 := by
      intro c h h'
      rw [UInt8.lt_iff_toNat_lt] at h'
      simp at h'
      omega
    have hcont : ∀ {c : UInt8}, isCont c = true → ¬ c < 0x80 := by
      intro c h h'
      simp [isCont, UInt8.le_iff_toNat_le, UInt8.lt_iff_toNat_lt] at h h'
      omega
    generalize hd : decodeRune (b :: s) = e
    rw [hd] at hone
    unfold decodeRune at hd
    simp only [hb, if_false] at hd
    split at hd
    · rename_i lo hi b1 s' hl
      split at hd
      · rename_i hc
        subst hd
        have := hlo hl
        simp [UInt8.le_iff_toNat_le] at hc
        exact ⟨[b1], rfl, by simpa using hge (by omega)⟩
      · exact hone _ hd.symm
    · rename_i lo hi b1 b2 s' hl
      split at hd
      · rename_i hc
        subst hd
        have := hlo hl
        simp [UInt8.le_iff_toNat_le] at hc
        refine ⟨[b1, b2], rfl, ?_⟩
        intro c hm
        simp at hm
        rcases hm with rfl | rfl
        · exact hge (by omega)
        · exact hcont hc.2
      · exact hone _ hd.symm
    · rename_i lo hi b1 b2 b3 s' hl
      split at hd
      · rename_i hc
        subst hd
        have := hlo hl
        simp [UInt8.le_iff_toNat_le] at hc
        refine ⟨[b1, b2, b3], rfl, ?_⟩
        intro c hm
        simp at hm
        rcases hm with rfl | rfl | rfl
        · exact hge (by omega)
        · exact hcont hc.1.2
        · exact hcont hc.2
      · exact hone _ hd.symm
    · exact hone _ hd.symm

theorem validateClass_esc (b : UInt8) (s : Bytes) : validateClass (cEsc :: b :: s) = validateClass s := by rw [validateClass.eq_def]; simp
theorem validateClass_close (s : Bytes) : validateClass (cClose :: s) = some s := by rw [validateClass.eq_def]; simp [show cClose ≠ cEsc by decide]
theorem validateClass_plain {b : UInt8} (h1 : b ≠ cEsc) (h2 : b ≠ cClose) (s : Bytes) : validateClass (b :: s) = validateClass s := by
  rw [validateClass.eq_def]; simp [h1, h2]

theorem validateClass_skip {t : Bytes} (h : ∀ c ∈ t, ¬ c < 0x80) (s : Bytes) : validateClass (t ++ s) = validateClass s := by
  induction t with
  | nil => rfl
  | cons c t ih =>
    have hc := h c (by simp)
    have h1 : c ≠ cEsc := by rintro rfl; exact hc (by decide)
    have h2 : c ≠ cClose := by rintro rfl; exact hc (by decide)
    rw [List.cons_append, validateClass_plain h1 h2]
    exact ih fun q hq => h q (by simp [hq])

theorem validateClass_rune (b : UInt8) (s : Bytes) : validateClass ((b :: s).drop (decodeRune (b :: s)).2) = validateClass s := by
  obtain ⟨t, h1, h2⟩ := decodeRune_tail b s
  conv_rhs => rw [h1]
  exact (validateClass_skip h2 _).symm

theorem validateClass_char {s s' : Bytes} {c : Nat} (h : ClassChar s c s') : validateClass s = validateClass s' := by
  cases h with
  | plain h1 h2 => rw [validateClass_rune, validateClass_plain h1 h2]
  | @escaped s hs =>
    cases s with
    | nil => exact absurd rfl hs
    | cons b s => rw [validateClass_rune, validateClass_esc]

theorem validateClass_body {s s' : Bytes} {rs : List (Nat × Nat)} (h : ClassBody s rs s') : validateClass s = some s' := by
  induction h with
  | close => exact validateClass_close _
  | one h1 _ _ ih => rw [validateClass_char h1, ih]
  | range h1 _ h3 _ ih =>
    rw [validateClass_char h1, validateClass_plain (by decide) (by decide), validateClass_char h3, ih]

theorem indexUnescaped_class (s : Bytes) : (indexUnescaped cClose s).map (fun i => s.drop (i + 1)) = validateClass s := by
  fun_induction validateClass s with
  | case1 => rfl
  | case2 => rfl
  | case3 b s ih =>
    rw [← ih, indexUnescaped.eq_def]
    simp [Option.map_map, Function.comp_def]
  | case4 b hb =>
    rw [indexUnescaped.eq_def]
    simp [hb]
  | case5 b s h1 h2 ih =>
    rw [← ih, indexUnescaped.eq_def]
    simp [h1, h2, Option.map_map, Function.comp_def]

theorem classChar_drop {s s' : Bytes} {c : Nat} (h : ClassChar s c s') : s'.length < s.length := by
  cases h with
  | plain h1 h2 => exact decodeRune_drop (by simp)
  | escaped hs => have := decodeRune_drop hs; simp only [List.length_cons]; omega

theorem classChar_head {s s' : Bytes} {c : Nat} (h : ClassChar s c s') : s ≠ [] ∧ s.head? ≠ some cClose := by
  cases h with
  | plain h1 h2 => simp [h2]
  | escaped hs => exact ⟨by simp, by simp; decide⟩

theorem inRanges_cons {x : Nat × Nat} {rs : List (Nat × Nat)} {r : Nat} : InRanges (x :: rs) r ↔ (r = x.1 ∨ (x.1 ≤ r ∧ r ≤ x.2)) ∨ InRanges rs r := by
  simp [InRanges]

/-- One element read by the loop. -/
theorem classLoop_char {r k last : Nat} {s s' : Bytes} {c : Nat} (h : ClassChar s c s')
    (hl : ¬ (last < maxRune ∧ ∃ s2, s = cDash :: s2 ∧ s2 ≠ [] ∧ s2.head? ≠ some cClose)) :
    classLoop r (k + 1) last s = if c = r then (true, s') else classLoop r k c s' := by
  cases h with
  | @plain b s h1 h2 =>
    have hdash : ¬ (last < maxRune ∧ (decodeRune (b :: s)).1 = cDash.toNat ∧ (b :: s).drop (decodeRune (b :: s)).2 ≠ [] ∧
        ((b :: s).drop (decodeRune (b :: s)).2).head? ≠ some cClose) := by
      rintro ⟨g1, g2, g3, g4⟩
      obtain ⟨s2, g5⟩ := (decodeRune_eq_ascii (by decide)).1 g2
      rw [g5, decodeRune_ascii (by decide)] at g3 g4
      exact hl ⟨g1, s2, g5, g3, g4⟩
    have hesc : (decodeRune (b :: s)).1 ≠ cEsc.toNat := by
      intro g
      obtain ⟨s2, g5⟩ := (decodeRune_eq_ascii (by decide)).1 g
      cases g5
      exact h1 rfl
    simp only [classLoop, h2, if_false]
    rw [if_neg hdash, if_neg hesc]
  | @escaped s hs =>
    have hd : decodeRune (cEsc :: s) = (cEsc.toNat, 1) := decodeRune_ascii (by decide) s
    simp only [classLoop, hd]
    rw [if_neg (by decide), if_neg (by rintro ⟨-, h, -⟩; exact absurd h (by decide)), if_pos trivial]
    rfl

theorem classLoop_hi {r k lo hi : Nat} {s s' : Bytes} (hlo : lo < maxRune) (h : ClassChar s hi s') :
    classLoop r (k + 1) lo (cDash :: s) = if lo ≤ r ∧ r ≤ hi then (true, s') else classLoop r k maxRune s' := by
  have hd : decodeRune (cDash :: s) = (cDash.toNat, 1) := decodeRune_ascii (by decide) s
  obtain ⟨g1, g2⟩ := classChar_head h
  have hc : lo < maxRune ∧ True ∧ (cDash :: s).drop 1 ≠ [] ∧ ((cDash :: s).drop 1).head? ≠ some cClose := ⟨hlo, trivial, g1, g2⟩
  simp only [classLoop, hd]
  rw [if_neg (by decide), if_pos hc]
  cases h with
  | @plain b s h1 h2 =>
    have : ¬ ((b :: s).head? = some cEsc) := by simpa using h1
    simp only [List.drop_succ_cons, List.drop_zero, this, if_false]
  | @escaped s hs =>
    simp

/-- What is left of a class after some of its characters. -/
inductive PatTail : Bytes → Bytes → Prop where
  | refl {s : Bytes} : PatTail s s
  | char {s s1 s2 : Bytes} {c : Nat} : ClassChar s c s1 → PatTail s1 s2 → PatTail s s2

theorem tail_dash {s s2 : Bytes} (h : PatTail s s2) : PatTail (cDash :: s) s2 := by
  have := ClassChar.plain (b := cDash) (s := s) (by decide) (by decide)
  rw [decodeRune_ascii (by decide)] at this
  exact .char this h

theorem tail_body {s s' : Bytes} {rs : List (Nat × Nat)} (h : ClassBody s rs s') : PatTail s (cClose :: s') := by
  induction h with
  | close => exact .refl
  | one h1 _ _ ih => exact .char h1 ih
  | range h1 _ h3 _ ih => exact .char h1 (tail_dash (.char h3 ih))

/-- The loop over a class decides whether the rune is in one of the ranges. -/
theorem classLoop_body {r : Nat} {s s' : Bytes} {rs : List (Nat × Nat)} (h : ClassBody s rs s') : ∀ (k last : Nat), s.length ≤ k →
    ¬ (last < maxRune ∧ ∃ s2, s = cDash :: s2 ∧ s2 ≠ [] ∧ s2.head? ≠ some cClose) →
    (InRanges rs r ∧ ∃ s2, classLoop r k last s = (true, s2) ∧ validateClass s2 = some s' ∧ PatTail s s2) ∨
      (¬ InRanges rs r ∧ classLoop r k last s = (false, cClose :: s')) := by
  induction h with
  | close =>
    intro k last hk _
    right
    cases k with
    | zero => simp at hk
    | succ k => exact ⟨by simp [InRanges], by simp [classLoop]⟩
  | @one s s1 s' c rs h1 h2 h3 ih =>
    intro k last hk hl
    have hd := classChar_drop h1
    cases k with
    | zero => simp at hk; subst hk; exact absurd rfl (classChar_head h1).1
    | succ k =>
      rw [classLoop_char h1 hl, inRanges_cons]
      by_cases hc : c = r
      · rw [if_pos hc]
        exact .inl ⟨.inl (.inl hc.symm), s1, rfl, validateClass_body h3, .char h1 .refl⟩
      · rw [if_neg hc]
        have hne : ¬ (r = c ∨ (c ≤ r ∧ r ≤ c)) := by omega
        simp only [hne, false_or]
        rcases ih k c (by omega) (by
          rintro ⟨g1, s2, g2, g3, g4⟩
          rcases h2 g1 s2 g2 with h | h
          · exact g3 h
          · exact g4 h) with ⟨i1, s2, i2, i3, i4⟩ | h
        · exact .inl ⟨i1, s2, i2, i3, .char h1 i4⟩
        · exact .inr h
  | @range s s1 s2 s' lo hi rs h1 h2 h3 h4 ih =>
    intro k last hk hl
    have hd := classChar_drop h1
    have hd' := classChar_drop h3
    simp only [List.length_cons] at hd
    rcases k with _ | _ | k
    · omega
    · omega
    · rw [classLoop_char h1 hl, inRanges_cons]
      by_cases hc : lo = r
      · rw [if_pos hc]
        refine .inl ⟨.inl (.inl hc.symm), _, rfl, ?_, .char h1 .refl⟩
        rw [validateClass_plain (by decide) (by decide), validateClass_char h3, validateClass_body h4]
      · rw [if_neg hc, classLoop_hi h2 h3]
        by_cases hr : lo ≤ r ∧ r ≤ hi
        · rw [if_pos hr]
          exact .inl ⟨.inl (.inr hr), s2, rfl, validateClass_body h4, .char h1 (tail_dash (.char h3 .refl))⟩
        · rw [if_neg hr]
          have hne : ¬ (r = lo ∨ (lo ≤ r ∧ r ≤ hi)) := by omega
          simp only [hne, false_or]
          rcases ih k maxRune (by omega) (by rintro ⟨h, -⟩; exact absurd h (Nat.lt_irrefl _)) with ⟨i1, s3, i2, i3, i4⟩ | h
          · exact .inl ⟨i1, s3, i2, i3, .char h1 (tail_dash (.char h3 i4))⟩
          · exact .inr h

/-- The class of the code decides whether the rune fits. -/
theorem matchClass_text {r : Nat} {s s' : Bytes} {neg : Bool} {rs : List (Nat × Nat)} (h : ClassText s neg rs s') :
    ((Glob.cls neg rs).Fits r ∧ matchClass r s = .yes s') ∨ (¬ (Glob.cls neg rs).Fits r ∧ ∃ s2, matchClass r s = .no s2 ∧ PatTail (classBodyText s) s2) := by
  have key : ∀ (b : UInt8) (s1 : Bytes), b ≠ cClose → ClassBody (b :: s1) rs s' → ∀ ng : Bool,
      let o := classLoop r (b :: s1).length maxRune (b :: s1)
      let out := if o.1 = ng then (if o.2 = [] then ClassOut.bad else .no o.2) else
        match indexUnescaped cClose o.2 with
        | none => .bad
        | some i => .yes (o.2.drop (i + 1))
      (((if ng then ¬ InRanges rs r else InRanges rs r)) ∧ out = .yes s') ∨ (¬ (if ng then ¬ InRanges rs r else InRanges rs r) ∧ ∃ s2, out = .no s2 ∧ PatTail (b :: s1) s2) := by
    intro b s1 hb hbody ng
    have hyes : ∀ s2 : Bytes, validateClass s2 = some s' → (match indexUnescaped cClose s2 with | none => ClassOut.bad | some i => .yes (s2.drop (i + 1))) = .yes s' := by
      intro s2 h2
      rw [← indexUnescaped_class] at h2
      cases hq : indexUnescaped cClose s2 with
      | none => rw [hq] at h2; cases h2
      | some i => rw [hq] at h2; simp at h2; simp [h2]
    have hno : ∀ s2 : Bytes, validateClass s2 = some s' → s2 ≠ [] := by
      rintro s2 h2 rfl
      cases h2
    rcases classLoop_body (r := r) hbody (b :: s1).length maxRune (Nat.le_refl _) (by rintro ⟨h, -⟩; exact absurd h (Nat.lt_irrefl _)) with ⟨h1, s2, h2, h3, h4⟩ | ⟨h1, h2⟩
    · rw [h2]
      cases ng with
      | true =>
        right
        refine ⟨by simpa using h1, s2, ?_, h4⟩
        simp [hno s2 h3]
      | false =>
        left
        refine ⟨by simpa using h1, ?_⟩
        simpa using hyes s2 h3
    · rw [h2]
      cases ng with
      | true =>
        left
        refine ⟨by simpa using h1, ?_⟩
        simpa using hyes (cClose :: s') (validateClass_close _)
      | false =>
        right
        exact ⟨by simpa using h1, cClose :: s', by simp, tail_body hbody⟩
  unfold Glob.Fits
  cases h with
  | @plain b s s' _ h1 h2 h3 h4 =>
    have := key b s h3 h4 false
    simp only [matchClass, h1, h2, or_self, decide_false, Bool.false_eq_true, if_false, List.cons_ne_nil, List.head?_cons, Option.some.injEq, h3] at this ⊢
    rcases this with h | ⟨h, s2, h5, h6⟩
    · exact .inl h
    · exact .inr ⟨h, s2, h5, by simpa [classBodyText, h1, h2] using h6⟩
  | @negated c b s s' _ h1 h3 h4 =>
    have := key b s h3 h4 true
    simp only [matchClass, h1, decide_true, if_true, List.cons_ne_nil, List.head?_cons, Option.some.injEq, h3, or_self, if_false] at this ⊢
    rcases this with h | ⟨h, s2, h5, h6⟩
    · exact .inl h
    · exact .inr ⟨h, s2, h5, by simpa [classBodyText, h1.symm] using h6⟩

theorem classChar_suffix {s s' : Bytes} {c : Nat} (h : ClassChar s c s') : s' <:+ s := by
  cases h with
  | plain h1 h2 => exact List.drop_suffix _ _
  | escaped hs => exact (List.drop_suffix _ _).trans (List.suffix_cons _ _)

theorem classBody_suffix {s s' : Bytes} {rs : List (Nat × Nat)} (h : ClassBody s rs s') : s' <:+ s := by
  induction h with
  | close => exact List.suffix_cons _ _
  | one h1 _ _ ih => exact ih.trans (classChar_suffix h1)
  | range h1 _ h3 _ ih => exact ih.trans ((classChar_suffix h3).trans ((List.suffix_cons _ _).trans (classChar_suffix h1)))

theorem classText_suffix {s s' : Bytes} {neg : Bool} {rs : List (Nat × Nat)} (h : ClassText s neg rs s') : s' <:+ s := by
  cases h with
  | plain _ _ _ h => exact classBody_suffix h
  | negated _ _ h => exact (classBody_suffix h).trans (List.suffix_cons _ _)

/-! ## The loop -/

/-- The variables of the loop stand for a state of the search in the pattern `g0`. -/
structure Refines (g0 : List Glob) (p n : Bytes) (st : MatchState) (A : Search) : Prop where
  sos : A.sos = st.sos
  parses : Parses st.sos (p.drop st.pat) A.g
  runes : Runes (n.drop st.name) A.m
  suffix : A.g <:+ g0
  star : (A.star = none ∧ starDead n st) ∨ ∃ q i gs ms, st.star = some (q, i) ∧ A.star = some (gs, ms) ∧ Parses false (p.drop q) gs ∧ Runes (n.drop i) ms ∧
    i ≤ st.name ∧ gs <:+ g0
  ds : (A.ds = none ∧ st.ds = none) ∨ ∃ q i gd md, st.ds = some (q, i) ∧ A.ds = some (gd, md) ∧ Parses true (p.drop q) gd ∧ Runes (n.drop i) md ∧ gd <:+ g0

/-- A step of the search finds nothing new, and loses nothing as long as the pattern is decent. -/
structure StepsTo (A A' : Search) : Prop where
  sound : A'.Finds → A.Finds
  complete : SearchInv A → A.Finds → A'.Finds
  inv : SearchInv A → SearchInv A'

theorem suffix_of_cons {i : Glob} {g g0 : List Glob} (h : i :: g <:+ g0) : g <:+ g0 := (List.suffix_cons i g).trans h

/-- One rune of the name against one item. -/
theorem refines_rune {g0 : List Glob} {p n : Bytes} {st : MatchState} {A : Search} (h : Refines g0 p n st A) (hn : st.name < n.length) {i : Glob} {g : List Glob}
    (hg : A.g = i :: g) {q : Nat} {sos : Bool} (hp : Parses sos (p.drop q) g) (hf : i.Fits (decodeRune (n.drop st.name)).1) (hs : sos = true → i.isSep = true) :
    ∃ A', Refines g0 p n { st with pat := q, name := st.name + (decodeRune (n.drop st.name)).2, sos := sos } A' ∧ StepsTo A A' := by
  have hne : n.drop st.name ≠ [] := by simp; omega
  obtain ⟨m, hm, hr⟩ := runes_cons hne h.runes
  rw [List.drop_drop] at hr
  refine ⟨{ A with g := g, m := m, sos := sos }, ⟨rfl, hp, hr, suffix_of_cons (hg ▸ h.suffix), ?_, h.ds⟩, ?_⟩
  · rcases h.star with h | ⟨q', i', gs, ms, h1, h2, h3, h4, h5, h6⟩
    · exact .inl h
    · exact .inr ⟨q', i', gs, ms, h1, h2, h3, h4, by simp; omega, h6⟩
  · exact ⟨(finds_rune hg hm hf sos).1, fun _ => (finds_rune hg hm hf sos).2, fun hi => inv_rune hi hg hm hf hs⟩

/-- A rune that does not fit. -/
theorem refines_mismatch {g0 : List Glob} {p n : Bytes} {st : MatchState} {A : Search} (h : Refines g0 p n st A) (hn : st.name < n.length) {i : Glob} {g : List Glob}
    (hg : A.g = i :: g) (hi : i.one = true) (hf : ¬ i.Fits (decodeRune (n.drop st.name)).1) : ¬ Matches A.g A.m := by
  have hne : n.drop st.name ≠ [] := by simp; omega
  obtain ⟨m, hm, hr⟩ := runes_cons hne h.runes
  rw [hg, hm, matches_one hi]
  exact fun h => hf h.1

theorem refines_star {g0 : List Glob} {p n : Bytes} {st : MatchState} {A : Search} (h : Refines g0 p n st A) (hn : st.name < n.length) {i : Glob} {g : List Glob}
    (hg : A.g = i :: g) (hs : i = .star ∨ i = .star2) {q : Nat} (hp : Parses false (p.drop q) g) :
    ∃ A', Refines g0 p n { st with star := some (q, st.name), pat := q, sos := false } A' ∧ StepsTo A A' := by
  have hne : n.drop st.name ≠ [] := by simp; omega
  obtain ⟨m, hm, hr⟩ := runes_cons hne h.runes
  have hm0 : A.m ≠ [] := by rw [hm]; simp
  have hsuf : g <:+ g0 := suffix_of_cons (hg ▸ h.suffix)
  refine ⟨{ A with g := g, star := some (g, A.m), sos := false }, ⟨rfl, hp, h.runes, hsuf, .inr ⟨q, st.name, g, A.m, rfl, rfl, hp, h.runes, Nat.le_refl _, hsuf⟩, h.ds⟩, ?_⟩
  exact ⟨(finds_star hg hs hm0).1, (finds_star hg hs hm0).2, fun hi => inv_star hi hg hs⟩

theorem refines_dirs {g0 : List Glob} {p n : Bytes} {st : MatchState} {A : Search} (h : Refines g0 p n st A) (hn : st.name < n.length) {g : List Glob}
    (hg : A.g = .dirs :: g) (hsos : st.sos = true) {q : Nat} (hp : Parses true (p.drop q) g) :
    ∃ A', Refines g0 p n { st with ds := some (q, st.name), star := none, pat := q } A' ∧ StepsTo A A' := by
  have hne : n.drop st.name ≠ [] := by simp; omega
  obtain ⟨m, hm, hr⟩ := runes_cons hne h.runes
  have hm0 : A.m ≠ [] := by rw [hm]; simp
  have hsuf : g <:+ g0 := suffix_of_cons (hg ▸ h.suffix)
  refine ⟨{ A with g := g, star := none, ds := some (g, A.m), sos := true }, ⟨hsos.symm, by simpa [hsos] using hp, h.runes, hsuf, .inl ⟨rfl, fun _ _ hq => nomatch hq⟩,
    .inr ⟨q, st.name, g, A.m, rfl, rfl, hp, h.runes, hsuf⟩⟩, ?_⟩
  have hs : A.sos = true := h.sos.trans hsos
  exact ⟨(finds_dirs hg hm0 hs).1, (finds_dirs hg hm0 hs).2, fun hi => inv_dirs hi hg⟩

/-- What the switch does is a step of the search, or the search has succeeded, or the rest does not match from here. -/
theorem matchItem_search {rec : Bytes → MatchState → Res Bool} {g0 : List Glob} {p n : Bytes} {st : MatchState} {A : Search} (h : Refines g0 p n st A)
    (hp : st.pat ≤ p.length) (hn : st.name < n.length) :
    (∃ st' A', matchItem rec p n st (p.drop st.pat) = .next st' ∧ Refines g0 p n st' A' ∧ StepsTo A A') ∨
    (matchItem rec p n st (p.drop st.pat) = .ret (.ok true) ∧ A.Finds) ∨
    (∃ q, matchItem rec p n st (p.drop st.pat) = .stop q ∧ ¬ Matches A.g A.m) := by
  have hne : n.drop st.name ≠ [] := by simp; omega
  obtain ⟨m, hm, hr⟩ := runes_cons hne h.runes
  have hdrop : ∀ {t s : Bytes}, p.drop st.pat = t ++ s → p.drop (st.pat + t.length) = s := by
    intro t s ht
    rw [← List.drop_drop, ht, List.drop_left]
  have hlen : ∀ {t s : Bytes}, p.drop st.pat = t ++ s → p.length - s.length = st.pat + t.length := by
    intro t s ht
    have := congrArg List.length ht
    simp at this
    omega
  have hP := h.parses
  generalize ht : p.drop st.pat = text at hP ⊢
  generalize hgg : A.g = gg at hP
  generalize hss : st.sos = ss at hP
  cases hP with
  | nil => exact .inr (.inr ⟨st.pat, rfl, by rw [hm, matches_empty]; simp⟩)
  | @star _ s g h1 h2 =>
    left
    have hd : p.drop (st.pat + 1) = s := hdrop (t := [cStar]) ht
    obtain ⟨A', h3, h4⟩ := refines_star h hn hgg (.inl rfl) (q := st.pat + 1) (by rw [hd]; exact h2)
    refine ⟨_, A', ?_, h3, h4⟩
    unfold matchItem starItem
    simp only [if_true]
    cases s with
    | nil => rfl
    | cons c s =>
      have : c ≠ cStar := by simpa using h1
      simp only [this, if_false]
  | @star2 _ s g h1 h2 =>
    left
    have hd : p.drop (st.pat + 2) = s := hdrop (t := [cStar, cStar]) ht
    obtain ⟨A', h3, h4⟩ := refines_star h hn hgg (.inr rfl) (q := st.pat + 2) (by rw [hd]; exact h2)
    refine ⟨_, A', ?_, h3, h4⟩
    unfold matchItem starItem
    simp only [if_true]
    rcases h1 with h1 | ⟨h1, h5⟩
    · rw [hss, h1]; rfl
    · have : (decodeRune s).1 ≠ sepRune := by
        intro hc
        obtain ⟨s', rfl⟩ := (decodeRune_eq_ascii (c := cSlash) (by decide)).1 hc
        exact h5 rfl
      simp only [h1, this, if_false]
      split <;> rfl
  | @dirs s g h1 =>
    left
    have hd : p.drop (st.pat + 3) = s := hdrop (t := [cStar, cStar, cSlash]) ht
    obtain ⟨A', h3, h4⟩ := refines_dirs h hn hgg hss (q := st.pat + 3) (by rw [hd]; exact h1)
    refine ⟨_, A', ?_, h3, h4⟩
    unfold matchItem starItem
    simp [hss, decodeRune_ascii (b := cSlash) (by decide)]
    decide
  | rest =>
    right; left
    refine ⟨?_, .inl (by rw [hgg, hm]; exact .rest (by simp))⟩
    unfold matchItem starItem
    simp [hss]
  | @any _ s g h1 =>
    have hd : p.drop (st.pat + 1) = s := hdrop (t := [cQuest]) ht
    by_cases hf : (Glob.any).Fits (decodeRune (n.drop st.name)).1
    · left
      obtain ⟨A', h3, h4⟩ := refines_rune h hn hgg (q := st.pat + 1) (sos := false) (by rw [hd]; exact h1) hf (fun h => nomatch h)
      refine ⟨_, A', ?_, h3, h4⟩
      unfold matchItem
      simp only
      rw [if_neg (by decide), if_pos trivial, questItem, if_neg hf]
    · right; right
      refine ⟨st.pat, ?_, hgg ▸ refines_mismatch h hn hgg rfl hf⟩
      unfold matchItem
      simp only
      rw [if_neg (by decide), if_pos trivial, questItem, if_pos (by simpa [Glob.Fits] using hf)]
  | @cls _ neg s s' rs g h1 h2 =>
    have hcl : matchItem rec p n st (cOpen :: s) = classItem p st (decodeRune (n.drop st.name)).1 (decodeRune (n.drop st.name)).2 s := by
      unfold matchItem
      simp only
      rw [if_neg (by decide), if_neg (by decide), if_pos trivial]
    rw [hcl]
    unfold classItem
    rcases matchClass_text (r := (decodeRune (n.drop st.name)).1) h1 with ⟨hf, hy⟩ | ⟨hf, s2, hy, -⟩
    · left
      obtain ⟨t, ht'⟩ := classText_suffix h1
      have ht2 : p.drop st.pat = (cOpen :: t) ++ s' := by rw [ht, ← ht']; rfl
      rw [hy]
      simp only
      rw [hlen ht2]
      obtain ⟨A', h3, h4⟩ := refines_rune h hn hgg (q := st.pat + (cOpen :: t).length) (sos := false) (by rw [hdrop ht2]; exact h2) hf (fun h => nomatch h)
      exact ⟨_, A', rfl, h3, h4⟩
    · right; right
      rw [hy]
      exact ⟨_, rfl, hgg ▸ refines_mismatch h hn hgg rfl hf⟩
  | @chr _ b s g h1 h2 h3 h4 h5 h6 =>
    have hcl : matchItem rec p n st (b :: s) = charItem p st (decodeRune (n.drop st.name)).1 (decodeRune (n.drop st.name)).2 st.pat (b :: s) := by
      unfold matchItem
      simp only
      rw [if_neg h1, if_neg h2, if_neg h3, if_neg h4, if_neg h5]
    rw [hcl]
    unfold charItem
    by_cases hf : (decodeRune (b :: s)).1 = (decodeRune (n.drop st.name)).1
    · left
      have hd : p.drop (st.pat + (decodeRune (b :: s)).2) = (b :: s).drop (decodeRune (b :: s)).2 := by rw [← ht, List.drop_drop]
      obtain ⟨A', g3, g4⟩ := refines_rune h hn hgg (q := st.pat + (decodeRune (b :: s)).2) (by rw [hd]; exact h6) hf.symm (by simp [Glob.isSep])
      rw [if_neg (by simpa using hf)]
      exact ⟨_, A', rfl, g3, g4⟩
    · right; right
      rw [if_pos hf]
      exact ⟨_, rfl, hgg ▸ refines_mismatch h hn hgg rfl (by simpa [Glob.Fits] using fun h => hf h.symm)⟩
  | @esc _ s g h1 h2 =>
    have hcl : matchItem rec p n st (cEsc :: s) = charItem p st (decodeRune (n.drop st.name)).1 (decodeRune (n.drop st.name)).2 (st.pat + 1) s := by
      unfold matchItem
      simp only
      rw [if_neg (by decide), if_neg (by decide), if_neg (by decide), if_neg (by decide), if_pos trivial, if_neg h1]
    rw [hcl]
    unfold charItem
    have hd1 : p.drop (st.pat + 1) = s := hdrop (t := [cEsc]) ht
    by_cases hf : (decodeRune s).1 = (decodeRune (n.drop st.name)).1
    · left
      have hd : p.drop (st.pat + 1 + (decodeRune s).2) = s.drop (decodeRune s).2 := by rw [← List.drop_drop, hd1]
      obtain ⟨A', g3, g4⟩ := refines_rune h hn hgg (q := st.pat + 1 + (decodeRune s).2) (by rw [hd]; exact h2) hf.symm (by simp [Glob.isSep])
      rw [if_neg (by simpa using hf)]
      exact ⟨_, A', rfl, g3, g4⟩
    · right; right
      rw [if_pos hf]
      exact ⟨_, rfl, hgg ▸ refines_mismatch h hn hgg rfl (by simpa [Glob.Fits] using fun h => hf h.symm)⟩

/-- Looking for the next separator. -/
theorem afterSep_runes {n : Bytes} : ∀ {k i : Nat} {m : List Nat}, n.length < k + i → Runes (n.drop i) m →
    (∃ j e m', afterSep n k i = some j ∧ m = e ++ sepRune :: m' ∧ NoSep e ∧ Runes (n.drop j) m') ∨ (afterSep n k i = none ∧ NoSep m) := by
  intro k
  induction k with
  | zero =>
    intro i m hk hr
    right
    rw [List.drop_eq_nil_of_le (by omega)] at hr
    rw [runes_nil hr]
    exact ⟨rfl, by simp [NoSep]⟩
  | succ k ih =>
    intro i m hk hr
    unfold afterSep
    by_cases hi : i < n.length
    · rw [if_pos hi]
      have hne : n.drop i ≠ [] := by simp; omega
      have := decodeRune_pos hne
      obtain ⟨m', rfl, hr'⟩ := runes_cons hne hr
      rw [List.drop_drop] at hr'
      simp only
      by_cases hs : (decodeRune (n.drop i)).1 = sepRune
      · rw [if_pos hs]
        exact .inl ⟨_, [], m', rfl, by simp [hs], by simp [NoSep], hr'⟩
      · rw [if_neg hs]
        rcases ih (by omega) hr' with ⟨j, e, m2, h1, h2, h3, h4⟩ | ⟨h1, h2⟩
        · refine .inl ⟨j, (decodeRune (n.drop i)).1 :: e, m2, h1, by rw [h2]; rfl, ?_, h4⟩
          intro r hr
          simp at hr
          rcases hr with rfl | hr
          · exact hs
          · exact h3 r hr
        · refine .inr ⟨h1, ?_⟩
          intro r hr
          simp at hr
          rcases hr with rfl | hr
          · exact hs
          · exact h2 r hr
    · rw [if_neg hi]
      right
      rw [List.drop_eq_nil_of_le (by omega)] at hr
      rw [runes_nil hr]
      exact ⟨rfl, by simp [NoSep]⟩

theorem backtrackDs_search {g0 : List Glob} {p n : Bytes} {st : MatchState} {A : Search} (h : Refines g0 p n st A) (hf : ¬ Matches A.g A.m)
    (hsa : ¬ A.starAlt) (hsd : starDead n st) :
    (∃ st' A', backtrackDs n st = some st' ∧ Refines g0 p n st' A' ∧ StepsTo A A') ∨ (backtrackDs n st = none ∧ ¬ A.Finds) := by
  unfold backtrackDs
  rcases h.ds with ⟨h1, h2⟩ | ⟨q, i, gd, md, h1, h2, h3, h4, h5⟩
  · right
    rw [h2]
    refine ⟨rfl, ?_⟩
    rintro (h | h | h)
    · exact hf h
    · exact hsa h
    · exact dsAlt_dead (.inl h1) h
  · rw [h1]
    simp only
    rcases afterSep_runes (k := n.length + 1) (by omega) h4 with ⟨j, e, m', g1, g2, g3, g4⟩ | ⟨g1, g2⟩
    · left
      rw [g1]
      rw [g2] at h2
      refine ⟨_, { A with g := gd, m := m', star := none, ds := some (gd, m'), sos := true }, rfl,
        ⟨rfl, h3, g4, h5, .inl ⟨rfl, hsd⟩, .inr ⟨q, j, gd, m', rfl, rfl, h3, g4, h5⟩⟩, ?_⟩
      exact ⟨(finds_back_ds h2 g3 hf hsa).1, fun _ => (finds_back_ds h2 g3 hf hsa).2, fun hi => inv_back_ds hi h2⟩
    · right
      rw [g1]
      refine ⟨rfl, ?_⟩
      rintro (h | h | h)
      · exact hf h
      · exact hsa h
      · exact dsAlt_dead (.inr ⟨gd, md, h2, g2⟩) h

theorem backtrack_search {g0 : List Glob} {p n : Bytes} {st : MatchState} {A : Search} (h : Refines g0 p n st A) (hn : st.name < n.length) (hf : ¬ Matches A.g A.m) :
    (∃ st' A', backtrack n st = some st' ∧ Refines g0 p n st' A' ∧ StepsTo A A') ∨ (backtrack n st = none ∧ ¬ A.Finds) := by
  have hdead : starDead n st → backtrack n st = backtrackDs n st := by
    intro hsd
    unfold backtrack
    cases hs : st.star with
    | none => rfl
    | some x =>
      obtain ⟨q, i⟩ := x
      have := hsd q i hs
      simp [this]
  rcases h.star with ⟨h1, h2⟩ | ⟨q, i, gs, ms, h1, h2, h3, h4, h5, h6⟩
  · rw [hdead h2]
    exact backtrackDs_search h hf (starAlt_dead (.inl h1)) h2
  · have hne : n.drop i ≠ [] := by simp; omega
    obtain ⟨m', rfl, hr⟩ := runes_cons hne h4
    rw [List.drop_drop] at hr
    by_cases hsep : (decodeRune (n.drop i)).1 = sepRune
    · have hsd : starDead n st := by
        intro q' i' hq
        rw [h1] at hq
        cases hq
        exact hsep
      rw [hdead hsd]
      exact backtrackDs_search h hf (starAlt_dead (.inr ⟨gs, _, h2, .inr (by simp [hsep])⟩)) hsd
    · left
      unfold backtrack
      rw [h1]
      simp only [ne_eq, hsep, not_false_eq_true, if_true]
      refine ⟨_, { A with g := gs, m := m', star := some (gs, m'), sos := false }, rfl,
        ⟨rfl, h3, hr, h6, .inr ⟨q, _, gs, m', rfl, rfl, h3, hr, Nat.le_refl _, h6⟩, h.ds⟩, ?_⟩
      exact ⟨(finds_back_star h2 hsep hf).1, fun _ => (finds_back_star h2 hsep hf).2, fun hi => inv_back_star hi h2 hsep⟩

/-! ## At the end of the name -/

theorem parses_nil {sos : Bool} {s : Bytes} (h : Parses sos s []) : s = [] := by
  generalize hg : ([] : List Glob) = g at h
  cases h <;> first | rfl | cases hg

theorem parses_text_nil {sos : Bool} {g : List Glob} (h : Parses sos [] g) : g = [] := by
  cases h; rfl

theorem parses_rest {sos : Bool} {s : Bytes} (h : Parses sos s [.rest]) : s = [cStar, cStar] := by
  generalize hg : [Glob.rest] = g at h
  cases h <;> first | rfl | cases hg

theorem parses_dirs {sos : Bool} {s : Bytes} (h : Parses sos s [.dirs]) : s = [cStar, cStar, cSlash] := by
  generalize hg : [Glob.dirs] = g at h
  cases h <;> first | (cases hg; done) | (cases hg; rename_i h; rw [parses_nil h])

theorem parses_slash {sos : Bool} {s : Bytes} {g : List Glob} (h : Parses sos s (.chr false sepRune :: g)) : ∃ s', s = cSlash :: s' ∧ Parses true s' g := by
  generalize hg : Glob.chr false sepRune :: g = g' at h
  cases h with
  | chr h1 h2 h3 h4 h5 h6 =>
    rename_i b s g'
    simp only [List.cons.injEq, Glob.chr.injEq, true_and] at hg
    obtain ⟨hr, rfl⟩ := hg
    obtain ⟨s', hs⟩ := (decodeRune_eq_ascii (c := cSlash) (by decide)).1 hr.symm
    cases hs
    rw [decodeRune_ascii (b := cSlash) (by decide)] at h6
    exact ⟨s, rfl, h6⟩
  | _ => cases hg

theorem parses_slash_text {sos : Bool} {s : Bytes} {g : List Glob} (h : Parses sos (cSlash :: s) g) : ∃ g', g = .chr false sepRune :: g' ∧ Parses true s g' := by
  cases h with
  | chr h1 h2 h3 h4 h5 h6 =>
    rw [decodeRune_ascii (b := cSlash) (by decide)] at h6 ⊢
    exact ⟨_, rfl, h6⟩

/-- The items of `**` and `**/`. -/
theorem parses_stars {sos : Bool} {s : Bytes} {g : List Glob} (h : Parses sos (cStar :: cStar :: s) g) (hs : s = [] ∨ s = [cSlash]) :
    (s = [] ∧ (g = [.rest] ∨ g = [.star2])) ∨ (s = [cSlash] ∧ (g = [.dirs] ∨ (sos = false ∧ g = [.star2, .chr false sepRune]))) := by
  rcases hs with rfl | rfl
  · left
    refine ⟨rfl, ?_⟩
    cases h with
    | star h => simp at h
    | star2 h1 h2 => rw [parses_text_nil h2]; exact .inr rfl
    | rest => exact .inl rfl
    | chr h => exact absurd rfl h
  · right
    refine ⟨rfl, ?_⟩
    cases h with
    | star h => simp at h
    | star2 h1 h2 =>
      obtain ⟨g', rfl, h3⟩ := parses_slash_text h2
      rw [parses_text_nil h3]
      simp at h1
      exact .inr ⟨h1, rfl⟩
    | dirs h => rw [parses_text_nil h]; exact .inl rfl
    | chr h => exact absurd rfl h

/-- The test for patterns that match the empty name. -/
theorem zeroLength_vanishes {k : Nat} {sos : Bool} {s : Bytes} {g : List Glob} (h : Parses sos s g) :
    (zeroLength (k + 1) s = .ok true → Vanishes g ∨ g = [.star2, .chr false sepRune]) ∧ (Vanishes g → zeroLength (k + 1) s = .ok true) := by
  have forms : ∀ {t : Bytes}, t = [] ∨ t = [cStar] ∨ t = [cStar, cStar] ∨ t = [cSlash, cStar, cStar] ∨ t = [cStar, cStar, cSlash] ∨ t = [cSlash, cStar, cStar, cSlash] →
      zeroLength (k + 1) t = .ok true := by
    intro t ht
    unfold zeroLength
    rw [if_pos ht]
  constructor
  · intro hz
    unfold zeroLength at hz
    split at hz
    · rename_i hf
      rcases hf with rfl | rfl | rfl | rfl | rfl | rfl
      · rw [parses_text_nil h]; exact .inl (.inl rfl)
      · cases h with
        | star h1 h2 => rw [parses_text_nil h2]; exact .inl (.inr (.inl rfl))
        | chr h => exact absurd rfl h
      · rcases parses_stars h (.inl rfl) with ⟨-, rfl | rfl⟩ | ⟨h, -⟩
        · exact .inl (.inr (.inr (.inr (.inl rfl))))
        · exact .inl (.inr (.inr (.inl rfl)))
        · cases h
      · obtain ⟨g', rfl, h'⟩ := parses_slash_text h
        rcases parses_stars h' (.inl rfl) with ⟨-, rfl | rfl⟩ | ⟨h, -⟩
        · exact .inl (by simp [Vanishes])
        · generalize hs : ([] : Bytes) = s0 at h'
          generalize ht : true = t at h'
          cases h' with
          | star2 h1 h2 => subst hs ht; simp at h1
        · cases h
      · rcases parses_stars h (.inr rfl) with ⟨h, -⟩ | ⟨-, rfl | ⟨-, rfl⟩⟩
        · cases h
        · exact .inl (by simp [Vanishes])
        · exact .inr rfl
      · obtain ⟨g', rfl, h'⟩ := parses_slash_text h
        rcases parses_stars h' (.inr rfl) with ⟨h, -⟩ | ⟨-, rfl | ⟨h, -⟩⟩
        · cases h
        · exact .inl (by simp [Vanishes])
        · cases h
    · split at hz
      · rename_i hf; exact absurd (.inl rfl) hf
      · rename_i b s1 _ 
        split at hz
        · rename_i hb
          subst hb
          exfalso
          cases h with
          | chr h1 h2 h3 h4 h5 h6 => exact h4 rfl
        · split at hz <;> cases hz
  · intro hv
    apply forms
    rcases hv with rfl | rfl | rfl | rfl | rfl | rfl | rfl
    · exact .inl (parses_nil h)
    · generalize hg : [Glob.star] = g at h
      cases h <;> cases hg
      rename_i h
      rw [parses_nil h]; simp
    · generalize hg : [Glob.star2] = g at h
      cases h <;> cases hg
      rename_i h
      rw [parses_nil h]; simp
    · rw [parses_rest h]; simp
    · rw [parses_dirs h]; simp
    · obtain ⟨s', rfl, h'⟩ := parses_slash h
      rw [parses_rest h']; simp
    · obtain ⟨s', rfl, h'⟩ := parses_slash h
      rw [parses_dirs h']; simp

theorem matchItem_pat {rec : Bytes → MatchState → Res Bool} {p n : Bytes} {st st' : MatchState} (hp : st.pat ≤ p.length) (hn : st.name < n.length)
    (h : matchItem rec p n st (p.drop st.pat) = .next st') : st'.pat ≤ p.length := (matchItem_cases hp hn h).2.1

/-- The loop finds only what the search finds, and all of it if the pattern is decent. -/
theorem matchLoop_search {rec : Bytes → MatchState → Res Bool} {g0 : List Glob} {p n : Bytes} :
    ∀ (k : Nat) (cur : Bool) (st : MatchState) (A : Search), Refines g0 p n st A → RoundInv p n cur st →
      (NoMidDirs g0 → matchLoop rec p n k st = .ok true → A.Finds) ∧
      (SearchInv A → A.Finds → matchLoop rec p n k st ≠ .diverge → matchLoop rec p n k st = .ok true) := by
  intro k
  induction k with
  | zero => exact fun cur st A _ _ => ⟨fun _ h => (nomatch h), fun _ _ h => absurd rfl h⟩
  | succ k ih =>
    intro cur st A hr hinv
    unfold matchLoop
    by_cases hn : st.name < n.length
    · rw [if_pos hn]
      rcases matchItem_search (rec := rec) hr hinv.pat hn with ⟨st', A', h1, h2, h3⟩ | ⟨h1, h2⟩ | ⟨q, h1, h2⟩
      · obtain ⟨cur', hi', -⟩ := matchItem_next hinv hn h1
        rw [h1]
        obtain ⟨i1, i2⟩ := ih cur' st' A' h2 hi'
        exact ⟨fun hg h => h3.sound (i1 hg h), fun hI hF hd => i2 (h3.inv hI) (h3.complete hI hF) hd⟩
      · rw [h1]
        exact ⟨fun _ _ => h2, fun _ _ _ => rfl⟩
      · rw [h1]
        rcases backtrack_search hr hn h2 with ⟨st', A', g1, g2, g3⟩ | ⟨g1, g2⟩
        · obtain ⟨cur', hi', -⟩ := backtrack_next hinv hn g1
          simp only [g1]
          obtain ⟨i1, i2⟩ := ih cur' st' A' g2 hi'
          exact ⟨fun hg h => g3.sound (i1 hg h), fun hI hF hd => i2 (g3.inv hI) (g3.complete hI hF) hd⟩
        · simp only [g1]
          refine ⟨fun _ h => ?_, fun _ h => absurd h g2⟩
          split at h <;> cases h
    · rw [if_neg hn]
      have hm : A.m = [] := by
        have := hr.runes
        rw [List.drop_eq_nil_of_le (by omega)] at this
        exact runes_nil this
      obtain ⟨z1, z2⟩ := zeroLength_vanishes (k := p.length) hr.parses
      refine ⟨fun hg h => ?_, fun hI hF _ => z2 ((finds_end hm).2 hI hF)⟩
      rcases z1 h with h | h
      · exact (finds_end hm).1 h
      · exact absurd (h ▸ hr.suffix) hg

/-- `Match` on patterns without alternatives is the search. -/
theorem matchPattern_matches {p n : Bytes} {g : List Glob} {m : List Nat} (hp : Parses true p g) (hn : Runes n m) :
    (NoMidDirs g → matchPattern p n = .ok true → Matches g m) ∧ (Decent g → Matches g m → matchPattern p n = .ok true) := by
  have hret := matchPattern_returns p n
  have hinv : RoundInv p n false { ds := none, star := none, pat := 0, name := 0, sos := true } :=
    ⟨by simp, by simp, by simp, by simp, fun _ q i h => by cases h⟩
  have href : Refines g p n { ds := none, star := none, pat := 0, name := 0, sos := true } { g := g, m := m, star := none, ds := none, sos := true } :=
    ⟨rfl, hp, hn, List.suffix_refl g, .inl ⟨rfl, fun q i h => by cases h⟩, .inl ⟨rfl, rfl⟩⟩
  obtain ⟨h1, h2⟩ := matchLoop_search (rec := doMatch n p.length) (matchRounds p n) false _ _ href hinv
  have hf : Search.Finds { g := g, m := m, star := none, ds := none, sos := true } ↔ Matches g m := by
    constructor
    · rintro (h | ⟨_, _, h, _⟩ | ⟨_, _, h, _⟩)
      · exact h
      · cases h
      · cases h
    · exact .inl
  rw [hf] at h1 h2
  refine ⟨h1, fun hd hM => h2 ⟨hd, by simp, by simp⟩ hM fun h => ?_⟩
  unfold matchPattern doMatch at hret
  simp only [h] at hret
  exact hret

/-! ## The language -/

theorem matches_lang {g : List Glob} {m : List Nat} (h : Matches g m) : Lang g m := by
  induction h with
  | used h =>
    rcases h with rfl | rfl | rfl | rfl | rfl | rfl | rfl
    · exact .nil
    · exact Lang.star (d := []) (.inl rfl) (by simp [NoSep]) .nil
    · exact Lang.star (d := []) (.inr rfl) (by simp [NoSep]) .nil
    · exact .rest
    · exact Lang.dirs (d := []) (.inl rfl) .nil
    · exact .slashRest
    · exact .slashDirs
  | rune h1 _ ih => exact .rune h1 ih
  | star h1 h2 _ _ ih => exact .star h1 h2 ih
  | dirs h1 _ _ ih => exact .dirs h1 ih
  | rest => exact .rest

/-- `**/` comes after a separator or another. -/
def DirsOK (g : List Glob) : Prop := ∀ i h, i :: .dirs :: h <:+ g → i.isSep = true ∨ i = .dirs

theorem dirsOK_cons {i : Glob} {g : List Glob} (h : DirsOK g) (hi : g.head? = some .dirs → i.isSep = true ∨ i = .dirs) : DirsOK (i :: g) := by
  intro j k hs
  rcases List.suffix_cons_iff.1 hs with h1 | h1
  · cases h1; exact hi rfl
  · exact h j k h1

theorem parses_dirsOK {sos : Bool} {s : Bytes} {g : List Glob} (h : Parses sos s g) : DirsOK g ∧ (g.head? = some .dirs → sos = true) := by
  induction h with
  | nil => exact ⟨by intro i h hs; simp at hs, by simp⟩
  | star _ _ ih => exact ⟨dirsOK_cons ih.1 (fun h => nomatch ih.2 h), by simp⟩
  | star2 _ _ ih => exact ⟨dirsOK_cons ih.1 (fun h => nomatch ih.2 h), by simp⟩
  | dirs _ ih => exact ⟨dirsOK_cons ih.1 fun _ => .inr rfl, by simp⟩
  | rest => exact ⟨dirsOK_cons (by intro i h hs; simp at hs) (by simp), by simp⟩
  | any _ ih => exact ⟨dirsOK_cons ih.1 (fun h => nomatch ih.2 h), by simp⟩
  | cls _ _ ih => exact ⟨dirsOK_cons ih.1 (fun h => nomatch ih.2 h), by simp⟩
  | chr _ _ _ _ _ _ ih => exact ⟨dirsOK_cons ih.1 fun h => .inl (ih.2 h), by simp⟩
  | esc _ _ ih => exact ⟨dirsOK_cons ih.1 fun h => .inl (ih.2 h), by simp⟩

theorem noRuns_cons {i : Glob} {g : List Glob} (h : NoRuns (i :: g)) : NoRuns g := fun j k hs => h j k (hs.trans (List.suffix_cons i g))

theorem lang_nil {g : List Glob} (h : Lang g []) : g = [] ∨ (∃ j k, g = j :: k ∧ j.wide = true) ∨ g = [.chr false sepRune, .rest] ∨ g = [.chr false sepRune, .dirs] := by
  cases g with
  | nil => exact .inl rfl
  | cons i g =>
    generalize hn : ([] : List Nat) = n at h
    generalize hg : i :: g = gg at h
    cases h with
    | nil => cases hg
    | rune => cases hn
    | star h => cases hg; exact .inr (.inl ⟨_, _, rfl, by rcases h with rfl | rfl <;> rfl⟩)
    | dirs h => cases hg; exact .inr (.inl ⟨_, _, rfl, rfl⟩)
    | rest => cases hg; exact .inr (.inl ⟨_, _, rfl, rfl⟩)
    | slashRest => exact .inr (.inr (.inl rfl))
    | slashDirs => exact .inr (.inr (.inr rfl))

theorem noRuns_nil {i : Glob} {g : List Glob} (h : NoRuns (i :: g)) (hi : i = .star ∨ i = .star2) (hl : Lang g []) : g = [] := by
  obtain ⟨h1, h2, h3⟩ := h i g (List.suffix_refl _) hi
  rcases lang_nil hl with h | ⟨j, k, rfl, hj⟩ | h | h
  · exact h
  · exact absurd (h1 j rfl) (by simp [hj])
  · exact absurd h h2
  · exact absurd h h3

theorem lang_matches {g : List Glob} {m : List Nat} (h : Lang g m) : NoRuns g → DirsOK g → NoSepClass g → m.getLast? ≠ some sepRune →
    (m = [] → g.head? ≠ some .dirs) → Matches g m := by
  induction h with
  | nil => exact fun _ _ _ _ _ => .used (.inl rfl)
  | @rune i r g n h1 h2 ih =>
    intro hr hd hc hl _
    have hl' : n.getLast? ≠ some sepRune := by
      cases n with
      | nil => simp
      | cons a n => simpa [List.getLast?_cons_cons] using hl
    refine .rune h1 (ih (noRuns_cons hr) (fun j k hs => hd j k (hs.trans (List.suffix_cons i g))) (noSepClass_cons hc).2 hl' ?_)
    rintro rfl hg
    cases g with
    | nil => simp at hg
    | cons j g =>
      simp at hg
      subst hg
      rcases hd i g (List.suffix_refl _) with h | h
      · have := fits_sep (noSepClass_cons hc).1 h1
        rw [h] at this
        simp at this hl
        exact hl this
      · subst h
        cases h1
  | @star i g d n h1 h2 h3 ih =>
    intro hr hd hc hl _
    have hgd : g.head? ≠ some .dirs := by
      intro h
      have := (hr i g (List.suffix_refl _) h1).1 _ h
      cases this
    by_cases hdn : d ++ n = []
    · simp at hdn
      obtain ⟨rfl, rfl⟩ := hdn
      rw [noRuns_nil hr h1 h3]
      refine .used ?_
      rcases h1 with rfl | rfl <;> simp [Vanishes]
    · refine .star h1 h2 hdn (ih (noRuns_cons hr) (fun j k hs => hd j k (hs.trans (List.suffix_cons i g))) (noSepClass_cons hc).2 ?_ fun _ => hgd)
      intro h
      rw [List.getLast?_append, h] at hl
      exact hl rfl
  | @dirs g d n h1 h2 ih =>
    intro hr hd hc hl hm
    have hdn : d ++ n ≠ [] := fun h => hm h rfl
    refine .dirs h1 hdn (ih (noRuns_cons hr) (fun j k hs => hd j k (hs.trans (List.suffix_cons _ g))) (noSepClass_cons hc).2 ?_ ?_)
    · intro h
      rw [List.getLast?_append, h] at hl
      exact hl rfl
    · rintro rfl
      exfalso
      rcases h1 with rfl | h1
      · exact hdn rfl
      · simp [h1] at hl
  | @rest n =>
    intro _ _ _ _ _
    by_cases hn : n = []
    · subst hn; exact .used (by simp [Vanishes])
    · exact .rest hn
  | slashRest => exact fun _ _ _ _ _ => .used (by simp [Vanishes])
  | slashDirs => exact fun _ _ _ _ _ => .used (by simp [Vanishes])

end Vtp
