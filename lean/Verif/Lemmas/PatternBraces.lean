import Verif.Spec.Braces
import Verif.Lemmas.PatternValid
/-!
# Groups in patterns: a match of the pattern is a match of one of the patterns it stands for
-/

namespace Vtp
open Spec

/-! ## Fuel -/

/-- `r'` is what `r` is, given more time. -/
def Res.Upto {α : Type} (r r' : Res α) : Prop := r = .diverge ∨ r' = r

theorem tryAlts_upto {f f' : Bytes → Res Bool} (hf : ∀ a, (f a).Upto (f' a)) : ∀ (k k' : Nat) (s : Bytes), k ≤ k' → (tryAlts f k s).Upto (tryAlts f' k' s) := by
  intro k
  induction k with
  | zero => intro k' s _; exact .inl rfl
  | succ k ih =>
    intro k' s hk
    obtain ⟨k', rfl⟩ : ∃ j, k' = j + 1 := ⟨k' - 1, by omega⟩
    unfold tryAlts
    cases indexNextAlt s with
    | none => exact hf s
    | some c =>
      simp only
      rcases hf (s.take c) with h | h
      · rw [h]; exact .inl rfl
      · rw [h]
        cases f (s.take c) with
        | ok b => cases b with
          | false => exact ih k' _ (by omega)
          | true => exact .inr rfl
        | err e => exact .inr rfl
        | panic e => exact .inr rfl
        | diverge => exact .inl rfl

theorem zeroLength_upto : ∀ (k k' : Nat) (s : Bytes), k ≤ k' → (zeroLength k s).Upto (zeroLength k' s) := by
  intro k
  induction k with
  | zero => intro k' s _; exact .inl rfl
  | succ k ih =>
    intro k' s hk
    obtain ⟨k', rfl⟩ : ∃ j, k' = j + 1 := ⟨k' - 1, by omega⟩
    unfold zeroLength
    split
    · exact .inr rfl
    · cases s with
      | nil => exact .inr rfl
      | cons b s1 =>
        simp only
        split
        · cases indexClosing s1 with
          | none => exact .inr rfl
          | some i => exact tryAlts_upto (fun a => ih k' _ (by omega)) _ _ _ (Nat.le_refl _)
        · exact .inr rfl

/-- What the switch does, given more time. -/
def Step.Upto : Step → Step → Prop
  | .ret r, .ret r' => r.Upto r'
  | s, s' => s' = s

theorem matchItem_upto {rec rec' : Bytes → MatchState → Res Bool} (hr : ∀ q st, (rec q st).Upto (rec' q st)) (p n : Bytes) (st : MatchState) (s : Bytes) :
    (matchItem rec p n st s).Upto (matchItem rec' p n st s) := by
  have refl : ∀ x : Step, x.Upto x := by
    intro x; cases x with
    | ret r => exact .inr rfl
    | _ => exact rfl
  unfold matchItem
  cases s with
  | nil => exact refl _
  | cons b s1 =>
    simp only
    split_ifs
    any_goals exact refl _
    unfold altItem
    cases indexClosing s1 with
    | none => exact refl _
    | some i => exact tryAlts_upto (fun a => hr _ _) _ _ _ (Nat.le_refl _)

theorem matchLoop_upto {rec rec' : Bytes → MatchState → Res Bool} (hr : ∀ q st, (rec q st).Upto (rec' q st)) (p n : Bytes) : ∀ (k k' : Nat) (st : MatchState), k ≤ k' →
    (matchLoop rec p n k st).Upto (matchLoop rec' p n k' st) := by
  intro k
  induction k with
  | zero => intro k' st _; exact .inl rfl
  | succ k ih =>
    intro k' st hk
    obtain ⟨k', rfl⟩ : ∃ j, k' = j + 1 := ⟨k' - 1, by omega⟩
    unfold matchLoop
    split
    · have h := matchItem_upto hr p n st (p.drop st.pat)
      cases h1 : matchItem rec p n st (p.drop st.pat) with
      | next st' =>
        rw [h1] at h
        rw [show matchItem rec' p n st (p.drop st.pat) = .next st' from h]
        exact ih k' st' (by omega)
      | stop q =>
        rw [h1] at h
        rw [show matchItem rec' p n st (p.drop st.pat) = .stop q from h]
        simp only
        cases backtrack n st with
        | none => exact .inr rfl
        | some st' => exact ih k' st' (by omega)
      | ret r =>
        rw [h1] at h
        cases h2 : matchItem rec' p n st (p.drop st.pat) with
        | ret r' => rw [h2] at h; exact h
        | next st' => rw [h2] at h; exact nomatch h
        | stop q => rw [h2] at h; exact nomatch h
    · exact .inr rfl

theorem doMatch_upto (n : Bytes) : ∀ (k k' : Nat), k ≤ k' → ∀ (p : Bytes) (st : MatchState), (doMatch n k p st).Upto (doMatch n k' p st) := by
  intro k
  induction k with
  | zero => intro k' _ p st; exact .inl rfl
  | succ k ih =>
    intro k' hk p st
    obtain ⟨k', rfl⟩ : ∃ j, k' = j + 1 := ⟨k' - 1, by omega⟩
    exact matchLoop_upto (ih k' (by omega)) p n _ _ _ (Nat.le_refl _)

/-- The loop ends with `true`, given enough time. -/
def Accepts (p n : Bytes) (st : MatchState) : Prop := ∃ K k, matchLoop (doMatch n K) p n k st = .ok true

/-- Then it does so in any run that ends. -/
theorem accepts_run {p n : Bytes} {st : MatchState} (h : Accepts p n st) {K k : Nat} (hr : matchLoop (doMatch n K) p n k st ≠ .diverge) :
    matchLoop (doMatch n K) p n k st = .ok true := by
  obtain ⟨K', k', h⟩ := h
  have h1 := matchLoop_upto (doMatch_upto n K (max K K') (by omega)) p n k (max k k') st (by omega)
  have h2 := matchLoop_upto (doMatch_upto n K' (max K K') (by omega)) p n k' (max k k') st (by omega)
  rcases h1 with h1 | h1
  · exact absurd h1 hr
  · rcases h2 with h2 | h2
    · rw [h] at h2; cases h2
    · rw [← h1, h2, h]

theorem returns_ne {α : Type} {r : Res α} (h : r.Returns) : r ≠ .diverge := by
  rintro rfl
  exact h

/-- The variables of the loop at its beginning. -/
def start : MatchState := { ds := none, star := none, pat := 0, name := 0, sos := true }

theorem match_accepts {p n : Bytes} : matchPattern p n = .ok true ↔ Accepts p n start := by
  constructor
  · intro h; exact ⟨_, _, h⟩
  · intro h
    have := returns_ne (matchPattern_returns p n)
    exact accepts_run h this

/-! ## Alternatives -/

theorem part_wellFormed {t : Bytes} (h : Part t) : WellFormed Innocent t := by
  induction h with
  | nil => exact .nil
  | byte h1 h2 h3 h4 _ _ ih => exact .byte h1 h2 h3 h4 ih
  | esc _ ih => exact .esc ih
  | cls h1 h2 h3 _ ih => exact .cls h1 h2 h3 ih
  | negated h1 h2 _ ih => exact .negated h1 h2 ih
  | group h1 _ ih => exact .alt h1 ih

theorem plain_wellFormed {t s : Bytes} (h : Plain t) (hs : WellFormed Innocent s) : WellFormed Innocent (t ++ s) := by
  induction h with
  | nil => exact hs
  | byte h1 h2 h3 h4 _ ih => exact .byte h1 h2 h3 h4 ih
  | esc _ ih => exact .esc ih
  | cls h1 h2 h3 _ ih => simpa using WellFormed.cls h1 h2 h3 ih
  | negated h1 h2 _ ih => simpa using WellFormed.negated h1 h2 ih

theorem altOf_part {t u : Bytes} (h : AltOf t u) : Part u := by
  induction h with
  | last h => exact h
  | here h => exact h
  | there _ _ ih => exact ih

theorem altOf_length {t u : Bytes} (h : AltOf t u) : u.length ≤ t.length := by
  induction h with
  | last h => exact Nat.le_refl _
  | here h => simp
  | there _ _ ih => simp; omega

/-- The first comma outside of groups. -/
theorem part_next {t : Bytes} (h : Part t) (s : Bytes) : indexNextAlt (t ++ s) = (indexNextAlt s).map (· + t.length) := by
  unfold indexNextAlt
  induction h with
  | nil => simp
  | @byte b t h1 h2 h3 h4 h5 _ ih =>
    rw [List.cons_append, indexNextAlt_byte h1 h3 h4 (fun h => h5 h.1), ih, map_add]
    exact map_eq (by simp)
  | @esc b t _ ih =>
    rw [List.cons_append, List.cons_append, indexNextAlt_esc, ih, map_add]
    exact map_eq (by simp)
  | @cls b t u h1 h2 h3 _ ih =>
    rw [show cOpen :: b :: (t ++ cClose :: u) ++ s = cOpen :: b :: (t ++ cClose :: (u ++ s)) by simp, indexNextAlt_class h3, ih, map_add]
    exact map_eq (by simp; omega)
  | @negated c b t u h1 h3 _ ih =>
    rw [show cOpen :: c :: b :: (t ++ cClose :: u) ++ s = cOpen :: c :: b :: (t ++ cClose :: (u ++ s)) by simp, indexNextAlt_negated h1 h3, ih, map_add]
    exact map_eq (by simp; omega)
  | @group t u h1 _ ih =>
    rw [show cLeft :: (t ++ cRight :: u) ++ s = cLeft :: (t ++ cRight :: (u ++ s)) by simp, indexNextAlt_left, indexNextAlt_skip h1 _ _ (by omega), indexNextAlt_right,
      show (1 : Int) + 1 - 1 = 1 by omega, ih, map_add, map_add, map_add]
    exact map_eq (by simp; omega)

theorem part_none {t : Bytes} (h : Part t) : indexNextAlt t = none := by
  have := part_next h []
  simpa [indexNextAlt, indexNextAltFrom] using this

theorem part_comma {t : Bytes} (h : Part t) (s : Bytes) : indexNextAlt (t ++ cComma :: s) = some t.length := by
  rw [part_next h]
  simp [indexNextAlt, indexNextAlt_comma]

/-- Well-formed text has a first alternative. -/
theorem part_split {t : Bytes} (h : WellFormed Innocent t) : Part t ∨ ∃ t1 t2, t = t1 ++ cComma :: t2 ∧ Part t1 ∧ WellFormed Innocent t2 := by
  induction h with
  | nil => exact .inl .nil
  | @byte b s h1 h2 h3 h4 h5 ih =>
    by_cases hb : b = cComma
    · subst hb
      exact .inr ⟨[], s, rfl, .nil, h5⟩
    · rcases ih with ih | ⟨t1, t2, i2, i3, i4⟩
      · exact .inl (.byte h1 h2 h3 h4 hb ih)
      · exact .inr ⟨b :: t1, t2, by rw [i2]; rfl, .byte h1 h2 h3 h4 hb i3, i4⟩
  | @esc b s h5 ih =>
    rcases ih with ih | ⟨t1, t2, i2, i3, i4⟩
    · exact .inl (.esc ih)
    · exact .inr ⟨cEsc :: b :: t1, t2, by rw [i2]; rfl, .esc i3, i4⟩
  | @cls b t s h1 h2 h3 h4 ih =>
    rcases ih with ih | ⟨t1, t2, i2, i3, i4⟩
    · exact .inl (.cls h1 h2 h3 ih)
    · exact .inr ⟨cOpen :: b :: (t ++ cClose :: t1), t2, by rw [i2]; simp, .cls h1 h2 h3 i3, i4⟩
  | @negated c b t s h1 h3 h4 ih =>
    rcases ih with ih | ⟨t1, t2, i2, i3, i4⟩
    · exact .inl (.negated h1 h3 ih)
    · exact .inr ⟨cOpen :: c :: b :: (t ++ cClose :: t1), t2, by rw [i2]; simp, .negated h1 h3 i3, i4⟩
  | @alt t s h1 h2 _ ih2 =>
    rcases ih2 with ih | ⟨t1, t2, i2, i3, i4⟩
    · exact .inl (.group h1 ih)
    · exact .inr ⟨cLeft :: (t ++ cRight :: t1), t2, by rw [i2]; simp, .group h1 i3, i4⟩

/-- Every group has an alternative. -/
theorem altOf_exists {t : Bytes} (h : WellFormed Innocent t) : ∃ u, AltOf t u := by
  rcases part_split h with h | ⟨t1, t2, rfl, h1, -⟩
  · exact ⟨t, .last h⟩
  · exact ⟨t1, .here h1⟩

theorem drop_comma {t s : Bytes} : (t ++ cComma :: s).drop (t.length + 1) = s := by simp [List.drop_append]

theorem tryAlts_some {f : Bytes → Res Bool} : ∀ (k : Nat) (t : Bytes), WellFormed Innocent t → tryAlts f k t = .ok true → ∃ u, AltOf t u ∧ f u = .ok true := by
  intro k
  induction k with
  | zero => intro t _ h; cases h
  | succ k ih =>
    intro t hw h
    unfold tryAlts at h
    rcases part_split hw with hp | ⟨t1, t2, rfl, h1, h2⟩
    · rw [part_none hp] at h
      exact ⟨t, .last hp, h⟩
    · rw [part_comma h1] at h
      simp only [List.take_left, drop_comma] at h
      cases hf : f t1 with
      | ok b =>
        rw [hf] at h
        cases b with
        | false =>
          obtain ⟨u, h3, h4⟩ := ih t2 h2 h
          exact ⟨u, .there h1 h3, h4⟩
        | true => exact ⟨t1, .here h1, hf⟩
      | err e => rw [hf] at h; cases h
      | panic e => rw [hf] at h; cases h
      | diverge => rw [hf] at h; cases h

theorem tryAlts_any {f : Bytes → Res Bool} {t u : Bytes} (h : AltOf t u) : ∀ (k : Nat), t.length < k → WellFormed Innocent t →
    (∀ v, AltOf t v → ∃ b, f v = .ok b) → f u = .ok true → tryAlts f k t = .ok true := by
  induction h with
  | last hp =>
    intro k hk _ _ h
    obtain ⟨k, rfl⟩ : ∃ j, k = j + 1 := ⟨k - 1, by omega⟩
    unfold tryAlts
    rw [part_none hp]
    exact h
  | @here t s hp =>
    intro k hk _ _ h
    obtain ⟨k, rfl⟩ : ∃ j, k = j + 1 := ⟨k - 1, by omega⟩
    unfold tryAlts
    rw [part_comma hp]
    simp only [List.take_left]
    rw [h]
  | @there t s u hp h' ih =>
    intro k hk hw hf h
    obtain ⟨k, rfl⟩ : ∃ j, k = j + 1 := ⟨k - 1, by omega⟩
    unfold tryAlts
    rw [part_comma hp]
    simp only [List.take_left, drop_comma]
    obtain ⟨b, hb⟩ := hf t (.here hp)
    rw [hb]
    cases b with
    | true => rfl
    | false =>
      have hs : WellFormed Innocent s := by
        rcases indexNextAlt_split hw with h1 | ⟨t1, t2, h1, h2, h3, h4⟩
        · rw [part_comma hp] at h1; cases h1
        · rw [part_comma hp] at h1
          simp only [Option.some.injEq] at h1
          obtain ⟨-, h5⟩ := List.append_inj h2 h1
          cases h5
          exact h4
      exact ih k (by simp at hk; omega) hs (fun v hv => hf v (.there hp hv)) h

/-! ## Items do not depend on what comes after them -/

theorem leadByte_range {b lo hi : UInt8} {w : Nat} (h : leadByte b = some (w, lo, hi)) : 0x80 ≤ lo ∧ hi ≤ 0xBF := by
  unfold leadByte at h
  split_ifs at h <;> (simp only [Option.some.injEq, Prod.mk.injEq] at h; obtain ⟨-, rfl, rfl⟩ := h; decide)

/-- Text that does not begin with a byte of the inside of a character. -/
def NewRune (X : Bytes) : Prop := ∀ b, X.head? = some b → b < 0x80 ∨ 0xC0 ≤ b

theorem fresh_not {x : UInt8} {X : Bytes} (h : NewRune (x :: X)) : isCont x = false ∧ ∀ {lo hi : UInt8}, 0x80 ≤ lo → hi ≤ 0xBF → (decide (lo ≤ x) && decide (x ≤ hi)) = false := by
  have h := h x rfl
  have key : ∀ {lo hi : UInt8}, 0x80 ≤ lo → hi ≤ 0xBF → ¬ (lo ≤ x ∧ x ≤ hi) := by
    intro lo hi h1 h2 ⟨h3, h4⟩
    simp only [UInt8.lt_iff_toNat_lt, UInt8.le_iff_toNat_le] at h h1 h2 h3 h4
    simp at h h1 h2
    omega
  refine ⟨?_, fun h1 h2 => ?_⟩
  · unfold isCont
    have := key (lo := 0x80) (hi := 0xBF) (by decide) (by decide)
    simpa using this
  · have := key h1 h2
    simpa using this

theorem decodeRune_stop {X : Bytes} (hX : NewRune X) (b : UInt8) (s : Bytes) : decodeRune (b :: (s ++ X)) = decodeRune (b :: s) := by
  cases X with
  | nil => simp
  | cons x X =>
    obtain ⟨c1, c2⟩ := fresh_not hX
    unfold decodeRune
    by_cases hb : b < 0x80
    · simp [hb]
    · simp only [hb, if_false]
      cases hl : leadByte b with
      | none => rfl
      | some l =>
        obtain ⟨w, lo, hi⟩ := l
        obtain ⟨r1, r2⟩ := leadByte_range hl
        have c3 := c2 r1 r2
        match w, s with
        | 2, [] => simp only [List.nil_append, c3]; rfl
        | 2, b1 :: s => rfl
        | 3, [] => (cases X <;> simp only [List.nil_append, c3]); rfl
        | 3, [b1] => simp only [List.cons_append, List.nil_append, c1, Bool.and_false]; rfl
        | 3, b1 :: b2 :: s => rfl
        | 4, [] => 
          match X with
          | [] => rfl
          | [_] => rfl
          | _ :: _ :: _ => simp only [List.nil_append, c3, Bool.false_and]; rfl
        | 4, [b1] => (cases X <;> simp only [List.cons_append, List.nil_append, c1, Bool.and_false, Bool.false_and]); rfl
        | 4, [b1, b2] => simp only [List.cons_append, List.nil_append, c1, Bool.and_false]; rfl
        | 4, b1 :: b2 :: b3 :: s => rfl
        | 0, s => rfl
        | 1, s => rfl
        | w + 5, s => rfl

theorem fresh_close (s : Bytes) : NewRune (cClose :: s) := by
  intro b hb
  cases hb
  exact .inl (by decide)

theorem classBody_split {s s0 : Bytes} {rs : List (Nat × Nat)} (h : ClassBody s rs s0) : ∃ u, s = u ++ cClose :: s0 := by
  induction h with
  | close => exact ⟨[], rfl⟩
  | one h1 _ _ ih =>
    obtain ⟨u, rfl⟩ := ih
    obtain ⟨v, hv⟩ := classChar_suffix h1
    exact ⟨v ++ u, by rw [← hv]; simp⟩
  | range h1 _ h3 _ ih =>
    obtain ⟨u, rfl⟩ := ih
    obtain ⟨v, rfl⟩ := classChar_suffix h3
    obtain ⟨w, hw⟩ := classChar_suffix h1
    exact ⟨w ++ cDash :: (v ++ u), by rw [← hw]; simp⟩

theorem classChar_append {s u s0 : Bytes} {c : Nat} (h : ClassChar s c (u ++ cClose :: s0)) (X : Bytes) : ClassChar (s ++ X) c (u ++ cClose :: s0 ++ X) := by
  have key : ∀ {b : UInt8} {r : Bytes}, (b :: r).drop (decodeRune (b :: r)).2 = u ++ cClose :: s0 → decodeRune (b :: (r ++ X)) = decodeRune (b :: r) ∧
      (b :: (r ++ X)).drop (decodeRune (b :: r)).2 = u ++ cClose :: s0 ++ X := by
    intro b r hd
    have hl : (decodeRune (b :: r)).2 ≤ (b :: r).length := decodeRune_le _
    refine ⟨?_, ?_⟩
    · obtain ⟨t, h1, -⟩ := decodeRune_tail b r
      rw [hd] at h1
      have e1 : r = (t ++ u) ++ cClose :: s0 := by rw [h1]; simp
      have e2 : r ++ X = (t ++ u) ++ cClose :: (s0 ++ X) := by rw [e1]; simp
      rw [e2, e1, decodeRune_stop (fresh_close _), decodeRune_stop (fresh_close _)]
    · rw [← hd, ← List.drop_append_of_le_length hl]; rfl
  generalize hs : u ++ cClose :: s0 = s1 at h
  cases h with
  | @plain b r h1 h2 =>
    obtain ⟨k1, k2⟩ := key hs.symm
    have := ClassChar.plain (s := r ++ X) h1 h2
    rw [k1, k2] at this
    rwa [← hs]
  | @escaped r hr =>
    cases r with
    | nil => exact absurd rfl hr
    | cons b r =>
      obtain ⟨k1, k2⟩ := key hs.symm
      have := ClassChar.escaped (s := b :: (r ++ X)) (by simp)
      rw [k1, k2] at this
      rw [← hs]
      exact this

theorem classBody_append {s s0 : Bytes} {rs : List (Nat × Nat)} (h : ClassBody s rs s0) (X : Bytes) : ClassBody (s ++ X) rs (s0 ++ X) := by
  induction h with
  | close => exact .close
  | @one s s' s0 c rs h1 h2 h3 ih =>
    obtain ⟨u, rfl⟩ := classBody_split h3
    refine .one (classChar_append h1 X) ?_ ih
    intro hc s2 hs
    cases u with
    | nil => exact absurd (List.cons.inj hs).1 (by decide)
    | cons x u =>
      simp only [List.cons_append, List.cons.injEq] at hs
      obtain ⟨rfl, rfl⟩ := hs
      rcases h2 hc (u ++ cClose :: s0) rfl with h | h
      · simp at h
      · right
        cases u with
        | nil => rfl
        | cons y u => simpa using h
  | @range s s' s2 s0 lo hi rs h1 h2 h3 h4 ih =>
    obtain ⟨u, rfl⟩ := classBody_split h4
    obtain ⟨v, rfl⟩ := classChar_suffix h3
    refine .range (s' := v ++ (u ++ cClose :: s0) ++ X) ?_ h2 (classChar_append h3 X) ih
    have := classChar_append (u := cDash :: (v ++ u)) (s0 := s0) (by simpa using h1) X
    simpa using this

theorem classText_append {s s0 : Bytes} {neg : Bool} {rs : List (Nat × Nat)} (h : ClassText s neg rs s0) (X : Bytes) : ClassText (s ++ X) neg rs (s0 ++ X) := by
  cases h with
  | plain h1 h2 h3 h4 => exact .plain h1 h2 h3 (classBody_append h4 X)
  | negated h1 h2 h3 => exact .negated h1 h2 (classBody_append h3 X)

theorem plain_skip {t s : Bytes} (ht : ∀ c ∈ t, ¬ c < 0x80) (h : Plain (t ++ s)) : Plain s := by
  induction t with
  | nil => exact h
  | cons b t ih =>
    have hb := ht b List.mem_cons_self
    refine ih (fun c hc => ht c (List.mem_cons_of_mem _ hc)) ?_
    have : ∀ {c : UInt8}, c < 0x80 → b ≠ c := by rintro c hc rfl; exact hb hc
    generalize hs : b :: t ++ s = s' at h
    cases h with
    | nil => cases hs
    | byte _ _ _ _ h => cases hs; exact h
    | esc => exact absurd (List.cons.inj hs).1 (this (by decide))
    | cls => exact absurd (List.cons.inj hs).1 (this (by decide))
    | negated => exact absurd (List.cons.inj hs).1 (this (by decide))

theorem plain_class {s : Bytes} (h : Plain (cOpen :: s)) : ∃ neg rs s0, ClassText s neg rs s0 ∧ Plain s0 := by
  have head : ∀ {b : UInt8} {t : Bytes}, ClassChars Innocent (b :: t) → b ≠ cClose := by
    intro b t h
    cases h with
    | byte _ h => exact h
    | esc => decide
  cases h with
  | byte _ h => exact absurd rfl h
  | @cls b t s h1 h2 h3 h4 =>
    obtain ⟨rs, h⟩ := classRest_body (Q := Innocent) _ (Nat.le_refl _) (s := b :: (t ++ cClose :: s)) (s0 := s) ⟨b :: t, h3, rfl⟩
    exact ⟨false, rs, s, .plain h1 h2 (head h3) h, h4⟩
  | @negated c b t s h1 h3 h4 =>
    obtain ⟨rs, h⟩ := classRest_body (Q := Innocent) _ (Nat.le_refl _) (s := b :: (t ++ cClose :: s)) (s0 := s) ⟨b :: t, h3, rfl⟩
    exact ⟨true, rs, s, .negated h1 (head h3) h, h4⟩

/-- What may come after the text `a` without changing the items of `a`. -/
structure AltTail (a X : Bytes) : Prop where
  star : a.getLast? = some cStar → X.head? ≠ some cStar
  dirs : [cStar, cStar] <:+ a → X ≠ [] ∧ X.head? ≠ some cSlash
  fresh : NewRune X

/-- A position that begins a segment. -/
def Starts (a : Bytes) (i : Nat) : Prop := i = 0 ∨ a[i - 1]? = some cSlash

/-- The variables of the loop are positions in the text `a` between items. -/
structure AltAt (a : Bytes) (st : MatchState) : Prop where
  pat : st.pat ≤ a.length
  here : Plain (a.drop st.pat)
  sos : Starts a st.pat → st.sos = true
  star : ∀ q i, st.star = some (q, i) → q ≤ a.length ∧ Plain (a.drop q) ∧ ¬ Starts a q
  ds : ∀ q i, st.ds = some (q, i) → q ≤ a.length ∧ Plain (a.drop q)

theorem drop_pos {a t s : Bytes} {i : Nat} (h : a.drop i = t ++ s) (ht : t ≠ []) :
    i + t.length ≤ a.length ∧ a.drop (i + t.length) = s ∧ (Starts a (i + t.length) ↔ t.getLast? = some cSlash) := by
  have hl := congrArg List.length h
  simp only [List.length_drop, List.length_append] at hl
  have hp : 0 < t.length := List.length_pos_iff.2 ht
  refine ⟨by omega, ?_, ?_⟩
  · rw [← List.drop_drop, h, List.drop_left]
  · unfold Starts
    have : a[i + t.length - 1]? = t.getLast? := by
      have h1 : a[i + (t.length - 1)]? = (a.drop i)[t.length - 1]? := by simp
      rw [show i + t.length - 1 = i + (t.length - 1) by omega, h1, h, List.getElem?_append_left (by omega), List.getLast?_eq_getElem?]
    rw [this]
    constructor
    · rintro (h | h)
      · omega
      · exact h
    · exact .inr

theorem at_rune {a t s : Bytes} {st : MatchState} (h : AltAt a st) (hd : a.drop st.pat = t ++ s) (ht : t ≠ []) (hs : Plain s) (name : Nat) {sos : Bool}
    (hl : t.getLast? = some cSlash → sos = true) : AltAt a { st with pat := st.pat + t.length, name := name, sos := sos } := by
  obtain ⟨h1, h2, h3⟩ := drop_pos hd ht
  exact ⟨h1, by rw [h2]; exact hs, fun h => hl (h3.1 h), h.star, h.ds⟩

theorem at_star {a t s : Bytes} {st : MatchState} (h : AltAt a st) (hd : a.drop st.pat = t ++ s) (ht : t ≠ []) (hs : Plain s) (name : Nat)
    (hl : t.getLast? = some cStar) : AltAt a { st with star := some (st.pat + t.length, name), pat := st.pat + t.length, sos := false } := by
  obtain ⟨h1, h2, h3⟩ := drop_pos hd ht
  have hn : ¬ Starts a (st.pat + t.length) := by rw [h3, hl]; decide
  refine ⟨h1, by rw [h2]; exact hs, fun h => absurd h hn, ?_, h.ds⟩
  intro q i hq
  cases hq
  exact ⟨h1, by rw [h2]; exact hs, hn⟩

theorem at_dirs {a t s : Bytes} {st : MatchState} (hd : a.drop st.pat = t ++ s) (ht : t ≠ []) (hs : Plain s) (name : Nat) (hsos : st.sos = true) :
    AltAt a { st with ds := some (st.pat + t.length, name), star := none, pat := st.pat + t.length } := by
  obtain ⟨h1, h2, h3⟩ := drop_pos hd ht
  refine ⟨h1, by rw [h2]; exact hs, fun _ => hsos, fun q i hq => (nomatch hq), ?_⟩
  intro q i hq
  cases hq
  exact ⟨h1, by rw [h2]; exact hs⟩

theorem plain_cons {b : UInt8} {s : Bytes} (h : Plain (b :: s)) (h1 : b ≠ cEsc) (h2 : b ≠ cOpen) : b ≠ cLeft ∧ Plain s := by
  cases h with
  | byte _ _ h3 _ h4 => exact ⟨h3, h4⟩
  | esc => exact absurd rfl h1
  | cls => exact absurd rfl h2
  | negated => exact absurd rfl h2

theorem decodeRune_sep {b : UInt8} {t s : Bytes} (hl : (b :: t).length = (decodeRune (b :: s)).2) (ht : ∀ c ∈ t, ¬ c < 0x80)
    (h : (b :: t).getLast? = some cSlash) : decide ((decodeRune (b :: s)).1 = sepRune) = true := by
  rcases List.eq_nil_or_concat t with rfl | ⟨t', c, rfl⟩
  · simp only [List.getLast?_singleton, Option.some.injEq] at h
    subst h
    rw [decodeRune_ascii (by decide)]
    decide
  · have h : c = cSlash := by simpa [List.getLast?_cons, List.getLast?_append] using h
    subst h
    exact absurd (show cSlash < 0x80 by decide) (ht cSlash (by simp))

/-- A character of the pattern. -/
theorem rune_item {a : Bytes} {st : MatchState} {n : Bytes} (h : AltAt a st) {b : UInt8} {e s : Bytes} (hd : a.drop st.pat = e ++ b :: s)
    (hs : Plain s) :
    (∃ st', AltAt a st' ∧ ∀ X, AltTail a X → charItem (a ++ X) st (decodeRune (n.drop st.name)).1 (decodeRune (n.drop st.name)).2 (st.pat + e.length) (b :: (s ++ X)) = .next st') ∨
    ∀ X, AltTail a X → ∃ q, charItem (a ++ X) st (decodeRune (n.drop st.name)).1 (decodeRune (n.drop st.name)).2 (st.pat + e.length) (b :: (s ++ X)) = .stop q := by
  obtain ⟨t, h1, h2⟩ := decodeRune_tail b s
  have hw : (b :: t).length = (decodeRune (b :: s)).2 := by
    have := congrArg List.length h1
    have hle := decodeRune_le (b :: s)
    have hp := decodeRune_pos (List.cons_ne_nil b s)
    simp only [List.length_append, List.length_drop, List.length_cons] at this hle ⊢
    omega
  by_cases hf : (decodeRune (b :: s)).1 = (decodeRune (n.drop st.name)).1
  · left
    have hd' : a.drop st.pat = (e ++ b :: t) ++ (b :: s).drop (decodeRune (b :: s)).2 := by rw [hd]; simp [← h1]
    have hs' : Plain ((b :: s).drop (decodeRune (b :: s)).2) := by rw [h1] at hs; exact plain_skip h2 hs
    refine ⟨_, at_rune h hd' (by simp) hs' (st.name + (decodeRune (n.drop st.name)).2) (sos := decide ((decodeRune (b :: s)).1 = sepRune)) ?_, ?_⟩
    · intro hl
      refine decodeRune_sep hw h2 ?_
      simpa [List.getLast?_append, List.getLast?_cons] using hl
    · intro X hX
      unfold charItem
      rw [decodeRune_stop hX.fresh, if_neg (by simpa using hf), ← hw]
      simp [Nat.add_assoc]
  · right
    intro X hX
    unfold charItem
    rw [decodeRune_stop hX.fresh, if_pos hf]
    exact ⟨_, rfl⟩

theorem drop_tail {a : Bytes} {i : Nat} (h : i ≤ a.length) (X : Bytes) : (a ++ X).drop i = a.drop i ++ X := List.drop_append_of_le_length h

/-- What the switch does with an item of `a` does not depend on what comes after `a`. -/
theorem item_same {a : Bytes} {st : MatchState} {n : Bytes} (h : AltAt a st) (hp : st.pat < a.length) :
    (∃ st', AltAt a st' ∧ ∀ rec X, AltTail a X → matchItem rec (a ++ X) n st ((a ++ X).drop st.pat) = .next st') ∨
    ∀ rec X, AltTail a X → ∃ q, matchItem rec (a ++ X) n st ((a ++ X).drop st.pat) = .stop q := by
  simp only [drop_tail h.pat]
  cases hd : a.drop st.pat with
  | nil => simp at hd; omega
  | cons b s =>
    have hP := h.here
    rw [hd] at hP
    have hsuf : b :: s <:+ a := hd ▸ List.drop_suffix _ _
    simp only [List.cons_append]
    unfold matchItem
    simp only
    by_cases c1 : b = cStar
    · subst c1
      simp only [if_true]
      have hs := (plain_cons hP (by decide) (by decide)).2
      have one : ∀ (hn : ∀ X, AltTail a X → (s ++ X).head? ≠ some cStar), ∃ st', AltAt a st' ∧ ∀ (rec : Bytes → MatchState → Res Bool) X, AltTail a X → starItem st (s ++ X) = .next st' := by
        intro hn
        refine ⟨_, at_star h (t := [cStar]) hd (by simp) hs st.name rfl, fun rec X hX => ?_⟩
        have := hn X hX
        unfold starItem
        generalize s ++ X = y at this ⊢
        cases y with
        | nil => rfl
        | cons c s' =>
          have : c ≠ cStar := by simpa using this
          simp only [this, if_false]
          rfl
      left
      cases s with
      | nil =>
        refine one fun X hX => ?_
        refine hX.star ?_
        obtain ⟨w, hw⟩ := hsuf
        rw [← hw]; simp
      | cons c s =>
        by_cases c2 : c = cStar
        · subst c2
          have hs := (plain_cons hs (by decide) (by decide)).2
          have two : ∀ (hn : ∀ X, AltTail a X → s ++ X ≠ [] ∧ (s ++ X).head? ≠ some cSlash),
              ∃ st', AltAt a st' ∧ ∀ (rec : Bytes → MatchState → Res Bool) X, AltTail a X → starItem st (cStar :: s ++ X) = .next st' := by
            intro hn
            refine ⟨_, at_star h (t := [cStar, cStar]) hd (by simp) hs st.name rfl, fun rec X hX => ?_⟩
            obtain ⟨n1, n2⟩ := hn X hX
            have : (decodeRune (s ++ X)).1 ≠ sepRune := by
              intro hc
              obtain ⟨s', hs'⟩ := (decodeRune_eq_ascii (c := cSlash) (by decide)).1 hc
              rw [hs'] at n2
              exact n2 rfl
            unfold starItem
            simp only [List.cons_append, if_true, n1, if_false, this]
            split <;> rfl
          cases s with
          | nil =>
            refine two fun X hX => ?_
            exact hX.dirs hsuf
          | cons d s =>
            by_cases c3 : d = cSlash
            · subst c3
              have hs := (plain_cons hs (by decide) (by decide)).2
              cases hsos : st.sos with
              | true =>
                refine ⟨_, at_dirs (t := [cStar, cStar, cSlash]) hd (by simp) hs st.name hsos, fun rec X hX => ?_⟩
                unfold starItem
                simp only [List.cons_append, if_true, hsos, List.cons_ne_nil, if_false]
                rw [decodeRune_ascii (by decide), if_pos (by decide)]
                rfl
              | false =>
                refine ⟨_, at_star h (t := [cStar, cStar]) hd (by simp) (.byte (by decide) (by decide) (by decide) (by decide) hs) st.name rfl, fun rec X hX => ?_⟩
                unfold starItem
                simp only [List.cons_append, if_true, hsos]
                rfl
            · refine two fun X hX => ?_
              simp [c3]
        · refine one fun X hX => ?_
          simp [c2]
    · simp only [c1, if_false]
      by_cases c2 : b = cQuest
      · subst c2
        simp only [if_true]
        have hs := (plain_cons hP (by decide) (by decide)).2
        unfold questItem
        by_cases hf : (decodeRune (n.drop st.name)).1 = sepRune
        · right; intro rec X _; rw [if_pos hf]; exact ⟨_, rfl⟩
        · left
          refine ⟨_, at_rune h (t := [cQuest]) hd (by simp) hs (st.name + (decodeRune (n.drop st.name)).2) (sos := false) (by decide), ?_⟩
          intro rec X _
          rw [if_neg hf]
          rfl
      · simp only [c2, if_false]
        by_cases c3 : b = cOpen
        · subst c3
          simp only [if_true]
          obtain ⟨neg, rs, s0, k1, k2⟩ := plain_class hP
          obtain ⟨t, ht⟩ := classText_suffix k1
          have hd' : a.drop st.pat = (cOpen :: t) ++ s0 := by rw [hd, ← ht]; rfl
          unfold classItem
          by_cases hf : (Glob.cls neg rs).Fits (decodeRune (n.drop st.name)).1
          · left
            have hlast : (cOpen :: t).getLast? ≠ some cSlash := by
              have hb : ∀ {v : Bytes} {rs : List (Nat × Nat)}, ClassBody v rs s0 → ∀ w, v = w ++ s0 → w.getLast? = some cClose := by
                intro v rs h w hv
                obtain ⟨u, rfl⟩ := classBody_split h
                have : w = u ++ [cClose] := List.append_cancel_right (by rw [← hv]; simp)
                rw [this]; simp
              have hne : ∀ {x : UInt8} {w : Bytes}, w.getLast? = some cClose → (x :: w).getLast? = some cClose := by
                intro x w hw
                rw [List.getLast?_cons, hw]; rfl
              have : t.getLast? = some cClose := by
                cases k1 with
                | plain _ _ _ h => exact hb h t ht.symm
                | @negated c b' s' _ _ hcc _ h =>
                  cases t with
                  | nil =>
                    obtain ⟨u, hu⟩ := classBody_split h
                    have := congrArg List.length ht
                    have h2 := congrArg List.length hu
                    simp at this h2
                    omega
                  | cons c' t =>
                    simp only [List.cons_append, List.cons.injEq] at ht
                    exact hne (hb h t ht.2.symm)
              rw [hne this]; decide
            refine ⟨_, at_rune h hd' (by simp) k2 (st.name + (decodeRune (n.drop st.name)).2) (sos := false) (fun h => absurd h hlast), ?_⟩
            intro rec X _
            rcases matchClass_text (r := (decodeRune (n.drop st.name)).1) (classText_append k1 X) with ⟨-, hy⟩ | ⟨hn, -⟩
            · rw [hy]
              simp only
              have hlen := congrArg List.length hd'
              simp only [List.length_drop, List.length_append] at hlen
              have : (a ++ X).length - (s0 ++ X).length = st.pat + (cOpen :: t).length := by
                simp only [List.length_append]
                omega
              rw [this]
            · exact absurd hf hn
          · right
            intro rec X _
            rcases matchClass_text (r := (decodeRune (n.drop st.name)).1) (classText_append k1 X) with ⟨hn, -⟩ | ⟨-, s2, hy, -⟩
            · exact absurd hn hf
            · rw [hy]; exact ⟨_, rfl⟩
        · simp only [c3, if_false]
          by_cases c5 : b = cEsc
          · subst c5
            simp only [show ¬ cEsc = cLeft by decide, if_false, if_true]
            cases hP with
            | byte h => exact absurd rfl h
            | @esc c s hs =>
              simp only [List.cons_append, List.cons_ne_nil, if_false]
              rcases rune_item (n := n) h (e := [cEsc]) hd hs with ⟨st', k1, k2⟩ | k
              · exact .inl ⟨st', k1, fun rec X hX => k2 X hX⟩
              · exact .inr fun rec X hX => k X hX
          · obtain ⟨c4, hs⟩ := plain_cons hP c5 c3
            simp only [c4, c5, if_false]
            rcases rune_item (n := n) h (e := []) hd hs with ⟨st', k1, k2⟩ | k
            · exact .inl ⟨st', k1, fun rec X hX => k2 X hX⟩
            · exact .inr fun rec X hX => k X hX

/-! ## A group -/

theorem at_backtrack {a n : Bytes} {st st' : MatchState} (h : AltAt a st) (hb : backtrack n st = some st') : AltAt a st' := by
  have hds : ∀ {st'}, backtrackDs n st = some st' → AltAt a st' := by
    intro st' hb
    unfold backtrackDs at hb
    cases hd : st.ds with
    | none => rw [hd] at hb; cases hb
    | some x =>
      obtain ⟨q, i⟩ := x
      rw [hd] at hb
      simp only at hb
      obtain ⟨h1, h2⟩ := h.ds q i hd
      cases ha : afterSep n (n.length + 1) i with
      | none => rw [ha] at hb; cases hb
      | some j =>
        rw [ha] at hb
        cases hb
        refine ⟨h1, h2, fun _ => rfl, h.star, ?_⟩
        intro q' i' hq
        cases hq
        exact ⟨h1, h2⟩
  unfold backtrack at hb
  cases hs : st.star with
  | none => rw [hs] at hb; exact hds hb
  | some x =>
    obtain ⟨q, i⟩ := x
    rw [hs] at hb
    simp only at hb
    split at hb
    · obtain ⟨h1, h2, h3⟩ := h.star q i hs
      cases hb
      refine ⟨h1, h2, fun h => absurd h h3, ?_, h.ds⟩
      intro q' i' hq
      cases hq
      exact ⟨h1, h2, h3⟩
    · exact hds hb

theorem backtrack_sos (n : Bytes) (st : MatchState) (b : Bool) : backtrack n { st with sos := b } = backtrack n st := by
  unfold backtrack backtrackDs
  cases st.star <;> cases st.ds <;> rfl

/-- Whether a segment begins matters for `**` and `**/` only. -/
theorem matchItem_sos {rec : Bytes → MatchState → Res Bool} {p n : Bytes} {st : MatchState} {s : Bytes} (h : ¬ (s = [cStar, cStar] ∨ [cStar, cStar, cSlash] <+: s)) :
    matchItem rec p n { st with sos := true } s = matchItem rec p n st s := by
  cases s with
  | nil => rfl
  | cons b s =>
    unfold matchItem
    simp only
    split_ifs with c1
    · subst c1
      unfold starItem
      cases s with
      | nil => rfl
      | cons c s2 =>
        simp only
        by_cases c2 : c = cStar
        · subst c2
          have c3 : s2 ≠ [] := by rintro rfl; exact h (.inl rfl)
          have c5 : (decodeRune s2).1 ≠ sepRune := by
            intro hc
            obtain ⟨s', rfl⟩ := (decodeRune_eq_ascii (c := cSlash) (by decide)).1 hc
            exact h (.inr ⟨s', rfl⟩)
          simp only [if_true, c3, c5, if_false]
          split <;> rfl
        · simp only [c2, if_false]
    all_goals rfl

theorem matchLoop_sos {rec : Bytes → MatchState → Res Bool} {p n : Bytes} {st : MatchState} (h : ¬ (p.drop st.pat = [cStar, cStar] ∨ [cStar, cStar, cSlash] <+: p.drop st.pat))
    (k : Nat) : matchLoop rec p n k { st with sos := true } = matchLoop rec p n k st := by
  cases k with
  | zero => rfl
  | succ k =>
    unfold matchLoop
    simp only [matchItem_sos h, backtrack_sos]

theorem zeroLength_true {k k' : Nat} {s : Bytes} (h : zeroLength k s = .ok true) (hk : s.length < k') : zeroLength k' s = .ok true := by
  have h1 := returns_ne (zeroLength_returns k' s hk)
  rcases zeroLength_upto k (max k k') s (by omega) with e | e
  · rw [h] at e; cases e
  · rcases zeroLength_upto k' (max k k') s (by omega) with f | f
    · exact absurd f h1
    · rw [← f, e, h]

/-- A rest with something before a group stands for more than nothing. -/
theorem zeroLength_no {k : Nat} {b : UInt8} {s : Bytes} (hb : b ≠ cLeft)
    (h : b :: s ∉ [[cStar], [cStar, cStar], [cSlash, cStar, cStar], [cStar, cStar, cSlash], [cSlash, cStar, cStar, cSlash]]) : zeroLength k (b :: s) ≠ .ok true := by
  cases k with
  | zero => exact nofun
  | succ k =>
    unfold zeroLength
    rw [if_neg]
    · simp only [hb, if_false]
      split <;> exact nofun
    · simp only [List.mem_cons, List.not_mem_nil, or_false, not_or] at h
      simp only [reduceCtorEq, false_or]
      tauto

theorem zeroLength_group {k : Nat} {t s : Bytes} (ht : WellFormed Innocent t) :
    zeroLength (k + 1) (cLeft :: (t ++ cRight :: s)) = tryAlts (fun u => zeroLength k (u ++ s)) (t.length + 1) t := by
  rw [zeroLength, if_neg (by simp [show cLeft ≠ cStar by decide, show cLeft ≠ cSlash by decide])]
  simp only [if_true]
  rw [indexClosing_alt ht]
  simp only [List.take_left, drop_alt]

theorem matchItem_group {rec : Bytes → MatchState → Res Bool} {p n : Bytes} {st : MatchState} {t s : Bytes} (ht : WellFormed Innocent t) :
    matchItem rec p n st (cLeft :: (t ++ cRight :: s)) =
      .ret (tryAlts (fun u => rec (p.take st.pat ++ u ++ s) { st with sos := true }) (t.length + 1) t) := by
  unfold matchItem
  simp only
  rw [if_neg (by decide), if_neg (by decide), if_neg (by decide), if_pos trivial]
  unfold altItem
  rw [indexClosing_alt ht]
  simp only [List.take_left, drop_alt]

theorem tail_group (a t : Bytes) : AltTail a (cLeft :: t) := by
  refine ⟨fun _ => by simp [show cLeft ≠ cStar by decide], fun _ => by simp [show cLeft ≠ cSlash by decide], ?_⟩
  intro b hb
  cases hb
  exact .inl (by decide)

theorem tail_clear {a r : Bytes} (h : Clear a r) : AltTail a r := by
  refine ⟨h.star, fun hs => ⟨?_, h.dirs hs⟩, h.rune⟩
  rintro rfl
  exact h.ending _ (by simp) hs (by simp)

theorem accepts_sos {a r n : Bytes} {st : MatchState} (hc : Clear a r) (hA : AltAt a st) (hp : st.pat = a.length) :
    Accepts (a ++ r) n { st with sos := true } ↔ Accepts (a ++ r) n st := by
  have hd : (a ++ r).drop st.pat = r := by rw [hp, List.drop_left]
  by_cases hr : r = [cStar, cStar] ∨ [cStar, cStar, cSlash] <+: r
  · have : st.sos = true := by
      refine hA.sos ?_
      unfold Starts
      rw [hp]
      rcases hc.seg hr with rfl | h
      · exact .inl rfl
      · right; rw [← h, List.getLast?_eq_getElem?]
    rw [show { st with sos := true } = st by rw [← this]]
  · unfold Accepts
    simp only [matchLoop_sos (p := a ++ r) (st := st) (by rw [hd]; exact hr)]

section
variable {a t s n : Bytes} (ht : WellFormed Innocent t)
include ht

/-- A match of a pattern with a group is a match with one of the alternatives in its place. -/
theorem group_some (hc : ∀ u, AltOf t u → Clear a (u ++ s)) : ∀ (k K : Nat) (st : MatchState), AltAt a st →
    matchLoop (doMatch n K) (a ++ cLeft :: (t ++ cRight :: s)) n k st = .ok true → ∃ u, AltOf t u ∧ Accepts (a ++ (u ++ s)) n st := by
  intro k
  induction k with
  | zero => intro K st _ h; cases h
  | succ k ih =>
    intro K st hA h
    unfold matchLoop at h
    by_cases hn : st.name < n.length
    · rw [if_pos hn] at h
      by_cases hp : st.pat < a.length
      · rcases item_same (n := n) hA hp with ⟨st', h1, h2⟩ | h1
        · rw [h2 _ _ (tail_group a _)] at h
          obtain ⟨u, hu, K', k', h3⟩ := ih K st' h1 h
          refine ⟨u, hu, K', k' + 1, ?_⟩
          unfold matchLoop
          rw [if_pos hn, h2 _ _ (tail_clear (hc u hu))]
          exact h3
        · obtain ⟨q, hq⟩ := h1 (doMatch n K) _ (tail_group a (t ++ cRight :: s))
          rw [hq] at h
          simp only at h
          cases hb : backtrack n st with
          | none => rw [hb] at h; simp only at h; split at h <;> cases h
          | some st' =>
            rw [hb] at h
            obtain ⟨u, hu, K', k', h3⟩ := ih K st' (at_backtrack hA hb) h
            refine ⟨u, hu, K', k' + 1, ?_⟩
            unfold matchLoop
            obtain ⟨q', hq'⟩ := h1 (doMatch n K') _ (tail_clear (hc u hu))
            rw [if_pos hn, hq']
            simp only [hb]
            exact h3
      · have hp : st.pat = a.length := by have := hA.pat; omega
        rw [show (a ++ cLeft :: (t ++ cRight :: s)).drop st.pat = _ by rw [hp, List.drop_left], matchItem_group ht] at h
        simp only at h
        obtain ⟨u, hu, h1⟩ := tryAlts_some _ _ ht h
        rw [show (a ++ cLeft :: (t ++ cRight :: s)).take st.pat = a by rw [hp, List.take_left]] at h1
        refine ⟨u, hu, (accepts_sos (hc u hu) hA hp).1 ?_⟩
        cases K with
        | zero => cases h1
        | succ K => rw [List.append_assoc] at h1; exact ⟨K, _, h1⟩
    · rw [if_neg hn] at h
      by_cases hp : st.pat < a.length
      · exfalso
        rw [drop_tail hA.pat] at h
        cases hd : a.drop st.pat with
        | nil => simp at hd; omega
        | cons b s' =>
          rw [hd, List.cons_append] at h
          refine zeroLength_no ?_ ?_ h
          · rintro rfl
            have := hA.here
            rw [hd] at this
            exact (plain_cons this (by decide) (by decide)).1 rfl
          · rw [← List.cons_append]
            intro hm
            have : cLeft ∈ (b :: s') ++ cLeft :: (t ++ cRight :: s) := by simp
            simp only [List.mem_cons, List.not_mem_nil, or_false] at hm
            rcases hm with hm | hm | hm | hm | hm <;> (rw [hm] at this; revert this; decide)
      · have hp : st.pat = a.length := by have := hA.pat; omega
        rw [hp, List.drop_left, zeroLength_group ht] at h
        obtain ⟨u, hu, h1⟩ := tryAlts_some _ _ ht h
        refine ⟨u, hu, 0, 1, ?_⟩
        unfold matchLoop
        rw [if_neg hn, hp, List.drop_left]
        exact zeroLength_true h1 (by simp; omega)

/-- And the other way round. -/
theorem group_any {u : Bytes} (hu : AltOf t u) (hs : WellFormed Innocent s) (hc : ∀ u, AltOf t u → Clear a (u ++ s)) : ∀ (k K : Nat) (st : MatchState), AltAt a st →
    Whole (a ++ cLeft :: (t ++ cRight :: s)) n st → (∃ cur, RoundInv (a ++ cLeft :: (t ++ cRight :: s)) n cur st) →
    matchLoop (doMatch n K) (a ++ (u ++ s)) n k st = .ok true → Accepts (a ++ cLeft :: (t ++ cRight :: s)) n st := by
  intro k
  induction k with
  | zero => intro K st _ _ _ h; cases h
  | succ k ih =>
    intro K st hA hW hR h
    unfold matchLoop at h
    have hcl := tail_clear (hc u hu)
    by_cases hn : st.name < n.length
    · rw [if_pos hn] at h
      by_cases hp : st.pat < a.length
      · rcases item_same (n := n) hA hp with ⟨st', h1, h2⟩ | h1
        · rw [h2 _ _ hcl] at h
          obtain ⟨cur, hR⟩ := hR
          have hstep := h2 (doMatch n 0) _ (tail_group a (t ++ cRight :: s))
          obtain ⟨K', k', h3⟩ := ih K st' h1 (whole_next hW hn hstep) ((matchItem_next hR hn hstep).imp fun _ h => h.1) h
          refine ⟨K', k' + 1, ?_⟩
          unfold matchLoop
          rw [if_pos hn, h2 _ _ (tail_group a _)]
          exact h3
        · obtain ⟨q, hq⟩ := h1 (doMatch n K) _ hcl
          rw [hq] at h
          simp only at h
          cases hb : backtrack n st with
          | none => rw [hb] at h; simp only at h; split at h <;> cases h
          | some st' =>
            rw [hb] at h
            obtain ⟨cur, hR⟩ := hR
            obtain ⟨K', k', h3⟩ := ih K st' (at_backtrack hA hb) (whole_backtrack hW hb) ((backtrack_next hR hn hb).imp fun _ h => h.1) h
            refine ⟨K', k' + 1, ?_⟩
            unfold matchLoop
            obtain ⟨q', hq'⟩ := h1 (doMatch n K') _ (tail_group a (t ++ cRight :: s))
            rw [if_pos hn, hq']
            simp only [hb]
            exact h3
      · have hp : st.pat = a.length := by have := hA.pat; omega
        have hacc : Accepts (a ++ (u ++ s)) n st := by
          refine ⟨K, k + 1, ?_⟩
          unfold matchLoop
          rw [if_pos hn]
          exact h
        rw [← accepts_sos (hc u hu) hA hp] at hacc
        have htake : (a ++ cLeft :: (t ++ cRight :: s)).take st.pat = a := by rw [hp, List.take_left]
        have hret : ∀ v, AltOf t v → (doMatch n ((a ++ cLeft :: (t ++ cRight :: s)).length + 1) (a ++ v ++ s) { st with sos := true }).Returns := by
          intro v hv
          have hl := altOf_length hv
          obtain ⟨cur, hR⟩ := hR
          refine doMatch_returns n _ _ _ (by simp; omega) ⟨cur, ⟨?_, hR.name, hR.ds, hR.star, hR.dead⟩⟩
          show st.pat ≤ _
          rw [hp]; simp
        refine ⟨(a ++ cLeft :: (t ++ cRight :: s)).length + 1, 1, ?_⟩
        unfold matchLoop
        rw [if_pos hn, show (a ++ cLeft :: (t ++ cRight :: s)).drop st.pat = _ by rw [hp, List.drop_left], matchItem_group ht]
        simp only [htake]
        refine tryAlts_any hu _ (Nat.lt_succ_self _) ht ?_ ?_
        · intro v hv
          have hw : Whole (a ++ v ++ s) n { st with sos := true } := by
            have := whole_alt hW (part_wellFormed (altOf_part hv)) hs
            rwa [htake] at this
          have h1 := doMatch_fine n ((a ++ cLeft :: (t ++ cRight :: s)).length + 1) _ _ hw
          have h2 := hret v hv
          cases hr : doMatch n ((a ++ cLeft :: (t ++ cRight :: s)).length + 1) (a ++ v ++ s) { st with sos := true } with
          | ok b => exact ⟨b, rfl⟩
          | err e => exact absurd hr (h1 e)
          | panic w => rw [hr] at h2; exact absurd h2 id
          | diverge => rw [hr] at h2; exact absurd h2 id
        · rw [← List.append_assoc] at hacc
          exact accepts_run hacc (returns_ne (hret u hu))
    · rw [if_neg hn] at h
      by_cases hp : st.pat < a.length
      · exfalso
        rw [drop_tail hA.pat] at h
        cases hd : a.drop st.pat with
        | nil => simp at hd; omega
        | cons b s' =>
          rw [hd, List.cons_append] at h
          refine zeroLength_no ?_ ?_ h
          · rintro rfl
            have := hA.here
            rw [hd] at this
            exact (plain_cons this (by decide) (by decide)).1 rfl
          · rw [← List.cons_append]
            exact (hc u hu).ending _ (by simp) (hd ▸ List.drop_suffix _ _)
      · have hp : st.pat = a.length := by have := hA.pat; omega
        rw [hp, List.drop_left] at h
        refine ⟨0, 1, ?_⟩
        unfold matchLoop
        rw [if_neg hn, hp, List.drop_left, zeroLength_group ht]
        refine tryAlts_any hu _ (Nat.lt_succ_self _) ht ?_ ?_
        · intro v hv
          have hl := altOf_length hv
          have h1 := zeroLength_fine (a ++ cLeft :: (t ++ cRight :: s)).length (v ++ s) (wellFormed_append (part_wellFormed (altOf_part hv)) hs)
          have h2 := zeroLength_returns (a ++ cLeft :: (t ++ cRight :: s)).length (v ++ s) (by simp; omega)
          cases hr : zeroLength (a ++ cLeft :: (t ++ cRight :: s)).length (v ++ s) with
          | ok b => exact ⟨b, rfl⟩
          | err e => exact absurd hr (h1 e)
          | panic w => rw [hr] at h2; exact absurd h2 id
          | diverge => rw [hr] at h2; exact absurd h2 id
        · have hl := altOf_length hu
          exact zeroLength_true h (by simp; omega)

/-- The whole match. -/
theorem match_group (ha : Plain a) (hs : WellFormed Innocent s) (hc : ∀ u, AltOf t u → Clear a (u ++ s)) :
    matchPattern (a ++ cLeft :: (t ++ cRight :: s)) n = .ok true ↔ ∃ u, AltOf t u ∧ matchPattern (a ++ (u ++ s)) n = .ok true := by
  have hA : AltAt a start := ⟨Nat.zero_le _, ha, fun _ => rfl, fun _ _ h => (nomatch h), fun _ _ h => (nomatch h)⟩
  simp only [match_accepts]
  constructor
  · rintro ⟨K, k, h⟩
    exact group_some ht hc k K start hA h
  · rintro ⟨u, hu, K, k, h⟩
    refine group_any ht hu hs hc k K start hA ?_ ⟨false, ?_⟩ h
    · exact ⟨Nat.zero_le _, plain_wellFormed ha (.alt ht hs), fun _ _ h => (nomatch h), .inl fun _ _ h => (nomatch h)⟩
    · exact ⟨Nat.zero_le _, Nat.zero_le _, fun _ _ h => (nomatch h), fun h => (nomatch h), fun _ _ _ h => (nomatch h)⟩
end

/-! ## All groups -/

theorem plain_or_group {p : Bytes} (h : WellFormed Innocent p) : Plain p ∨ ∃ a t s, p = a ++ cLeft :: (t ++ cRight :: s) ∧ Plain a ∧ WellFormed Innocent t ∧
    WellFormed Innocent s := by
  induction h with
  | nil => exact .inl .nil
  | @byte b s h1 h2 h3 h4 h5 ih =>
    rcases ih with ih | ⟨a, t, u, rfl, i1, i2, i3⟩
    · exact .inl (.byte h1 h2 h3 h4 ih)
    · exact .inr ⟨b :: a, t, u, rfl, .byte h1 h2 h3 h4 i1, i2, i3⟩
  | @esc b s h5 ih =>
    rcases ih with ih | ⟨a, t, u, rfl, i1, i2, i3⟩
    · exact .inl (.esc ih)
    · exact .inr ⟨cEsc :: b :: a, t, u, rfl, .esc i1, i2, i3⟩
  | @cls b t s h1 h2 h3 h4 ih =>
    rcases ih with ih | ⟨a, t', u, rfl, i1, i2, i3⟩
    · exact .inl (.cls h1 h2 h3 ih)
    · exact .inr ⟨cOpen :: b :: (t ++ cClose :: a), t', u, by simp, .cls h1 h2 h3 i1, i2, i3⟩
  | @negated c b t s h1 h3 h4 ih =>
    rcases ih with ih | ⟨a, t', u, rfl, i1, i2, i3⟩
    · exact .inl (.negated h1 h3 ih)
    · exact .inr ⟨cOpen :: c :: b :: (t ++ cClose :: a), t', u, by simp, .negated h1 h3 i1, i2, i3⟩
  | @alt t s h1 h2 _ _ => exact .inr ⟨[], t, s, rfl, .nil, h1, h2⟩

theorem choose_shorter {p q : Bytes} (h : Choose p q) : q.length < p.length := by
  cases h with
  | mk h1 h2 _ h3 =>
    have := altOf_length h3
    simp; omega

theorem choose_wellFormed {p q : Bytes} (h : Choose p q) : WellFormed Innocent q := by
  cases h with
  | mk h1 _ h2 h3 => exact plain_wellFormed h1 (wellFormed_append (part_wellFormed (altOf_part h3)) h2)

theorem separate_choose {p q : Bytes} (h : Separate p) (hc : Choose p q) : Separate q := fun a t u s hr => h a t u s (.head hc hr)

/-- A pattern with groups matches what one of the patterns it stands for matches. -/
theorem match_expands {n : Bytes} : ∀ (k : Nat) {p : Bytes}, p.length ≤ k → WellFormed Innocent p → Separate p →
    (matchPattern p n = .ok true ↔ ∃ q, Expands p q ∧ matchPattern q n = .ok true) := by
  intro k
  induction k with
  | zero =>
    intro p hk _ _
    rw [List.length_eq_zero_iff.1 (by omega : p.length = 0)]
    constructor
    · exact fun h => ⟨[], ⟨.refl, .nil⟩, h⟩
    · rintro ⟨q, ⟨h1, -⟩, h2⟩
      rcases Relation.ReflTransGen.cases_head h1 with rfl | ⟨p', h3, -⟩
      · exact h2
      · have := choose_shorter h3; simp at this
  | succ k ih =>
    intro p hk hw hs
    have step : ∀ {q}, Choose p q → (matchPattern q n = .ok true ↔ ∃ q', Expands q q' ∧ matchPattern q' n = .ok true) := by
      intro q hq
      have := choose_shorter hq
      exact ih (by omega) (choose_wellFormed hq) (separate_choose hs hq)
    constructor
    · intro h
      rcases plain_or_group hw with hp | ⟨a, t, s, rfl, h1, h2, h3⟩
      · exact ⟨p, ⟨.refl, hp⟩, h⟩
      · obtain ⟨u, hu, hm⟩ := (match_group h2 h1 h3 fun u hu => hs a t u s .refl h1 h2 hu).1 h
        have hc : Choose (a ++ cLeft :: (t ++ cRight :: s)) (a ++ (u ++ s)) := .mk h1 h2 h3 hu
        obtain ⟨q, ⟨g1, g2⟩, g3⟩ := (step hc).1 hm
        exact ⟨q, ⟨.head hc g1, g2⟩, g3⟩
    · rintro ⟨q, ⟨h1, hq⟩, h2⟩
      rcases Relation.ReflTransGen.cases_head h1 with rfl | ⟨p', h3, h4⟩
      · exact h2
      · have h5 := (step h3).2 ⟨q, ⟨h4, hq⟩, h2⟩
        cases h3 with
        | mk g1 g2 g3 g4 => exact (match_group g2 g1 g3 fun u hu => hs _ _ u _ .refl g1 g2 hu).2 ⟨_, g4, h5⟩

/-- Text without groups has items. -/
theorem plain_parses : ∀ (k : Nat) {s : Bytes} (sos : Bool), s.length ≤ k → Plain s → ∃ g, Parses sos s g := by
  intro k
  induction k with
  | zero => intro s sos hk _; rw [List.length_eq_zero_iff.1 (by omega : s.length = 0)]; exact ⟨[], .nil⟩
  | succ k ih =>
    intro s sos hk h
    cases s with
    | nil => exact ⟨[], .nil⟩
    | cons b s =>
      simp only [List.length_cons] at hk
      have rune : ∀ {c : UInt8} {u : Bytes} (sos : Bool), u.length ≤ k → Plain u → ∃ g, Parses sos ((c :: u).drop (decodeRune (c :: u)).2) g := by
        intro c u sos hk hu
        obtain ⟨t, h1, h2⟩ := decodeRune_tail c u
        refine ih sos ?_ (plain_skip h2 (h1 ▸ hu))
        have := congrArg List.length h1
        simp only [List.length_append] at this
        omega
      by_cases c1 : b = cStar
      · subst c1
        have hs := (plain_cons h (by decide) (by decide)).2
        cases s with
        | nil => exact ⟨_, .star (by simp) .nil⟩
        | cons c s =>
          by_cases c2 : c = cStar
          · subst c2
            have hs := (plain_cons hs (by decide) (by decide)).2
            simp only [List.length_cons] at hk
            by_cases hno : sos = false ∨ (s ≠ [] ∧ s.head? ≠ some cSlash)
            · obtain ⟨g, hg⟩ := ih false (by omega) hs
              exact ⟨_, .star2 hno hg⟩
            · rw [not_or] at hno
              have hsos : sos = true := by simpa using hno.1
              subst hsos
              cases s with
              | nil => exact ⟨_, .rest⟩
              | cons d s =>
                have : d = cSlash := by have := hno.2; simpa using this
                subst this
                obtain ⟨g, hg⟩ := ih true (by simp at hk; omega) (plain_cons hs (by decide) (by decide)).2
                exact ⟨_, .dirs hg⟩
          · obtain ⟨g, hg⟩ := ih false (by omega) hs
            exact ⟨_, .star (by simpa using c2) hg⟩
      · by_cases c2 : b = cQuest
        · subst c2
          obtain ⟨g, hg⟩ := ih false (by omega) (plain_cons h (by decide) (by decide)).2
          exact ⟨_, .any hg⟩
        · by_cases c3 : b = cOpen
          · subst c3
            obtain ⟨neg, rs, s0, k1, k2⟩ := plain_class h
            have := (classText_suffix k1).length_le
            obtain ⟨g, hg⟩ := ih false (by omega) k2
            exact ⟨_, .cls k1 hg⟩
          · by_cases c5 : b = cEsc
            · subst c5
              cases h with
              | byte h => exact absurd rfl h
              | @esc c s hs =>
                simp only [List.length_cons] at hk
                obtain ⟨g, hg⟩ := rune (c := c) (decide ((decodeRune (c :: s)).1 = sepRune)) (by omega) hs
                exact ⟨_, .esc (by simp) hg⟩
            · obtain ⟨c4, hs⟩ := plain_cons h c5 c3
              obtain ⟨g, hg⟩ := rune (c := b) (decide ((decodeRune (b :: s)).1 = sepRune)) (by omega) hs
              exact ⟨_, .chr c1 c2 c3 c4 c5 hg⟩

/-! ## Groups are found in one way -/

theorem classChars_unique {u u' x y : Bytes} (h : ClassChars Innocent u) (h' : ClassChars Innocent u') (he : u ++ cClose :: x = u' ++ cClose :: y) : u = u' ∧ x = y := by
  have h1 := (validateClass_iff (s := u ++ cClose :: x) (s0 := x)).2 ⟨u, classChars_true h, rfl⟩
  have h2 := (validateClass_iff (s := u' ++ cClose :: y) (s0 := y)).2 ⟨u', classChars_true h', rfl⟩
  rw [he, h2] at h1
  cases h1
  exact ⟨List.append_cancel_right he, rfl⟩

theorem plain_not {x : Bytes} {b : UInt8} (h : b = cLeft ∨ b = cRight) : ¬ Plain (b :: x) := by
  intro hp
  cases hp with
  | byte _ _ h1 h2 => rcases h with h | h <;> contradiction
  | esc => revert h; decide
  | cls => revert h; decide
  | negated => revert h; decide

theorem plain_unique {a x : Bytes} (h : Plain a) : ∀ {a' y : Bytes}, Plain a' → a ++ cLeft :: x = a' ++ cLeft :: y → a = a' ∧ x = y := by
  induction h with
  | nil =>
    intro a' y h' he
    cases a' with
    | nil => simpa using he
    | cons c a' =>
      simp only [List.nil_append, List.cons_append, List.cons.injEq] at he
      exact absurd h' (plain_not (.inl he.1.symm))
  | @byte b s h1 h2 h3 h4 _ ih =>
    intro a' y h' he
    cases h' with
    | nil => simp only [List.nil_append, List.cons_append, List.cons.injEq] at he; exact absurd he.1 h3
    | byte _ _ _ _ h5 =>
      simp only [List.cons_append, List.cons.injEq] at he
      obtain ⟨rfl, rfl⟩ := ih h5 he.2
      exact ⟨by rw [he.1], rfl⟩
    | esc => simp only [List.cons_append, List.cons.injEq] at he; exact absurd he.1 h1
    | cls => simp only [List.cons_append, List.cons.injEq] at he; exact absurd he.1 h2
    | negated => simp only [List.cons_append, List.cons.injEq] at he; exact absurd he.1 h2
  | @esc b s _ ih =>
    intro a' y h' he
    cases h' with
    | nil => simp only [List.nil_append, List.cons_append, List.cons.injEq] at he; exact absurd he.1 (by decide)
    | byte h1 => simp only [List.cons_append, List.cons.injEq] at he; exact absurd he.1.symm h1
    | esc h5 =>
      simp only [List.cons_append, List.cons.injEq, true_and] at he
      obtain ⟨rfl, rfl⟩ := ih h5 he.2
      exact ⟨by rw [he.1], rfl⟩
    | cls => simp only [List.cons_append, List.cons.injEq] at he; exact absurd he.1 (by decide)
    | negated => simp only [List.cons_append, List.cons.injEq] at he; exact absurd he.1 (by decide)
  | @cls b t s h1 h2 h3 _ ih =>
    intro a' y h' he
    cases h' with
    | nil => simp only [List.nil_append, List.cons_append, List.cons.injEq] at he; exact absurd he.1 (by decide)
    | byte _ h1 => simp only [List.cons_append, List.cons.injEq] at he; exact absurd he.1.symm h1
    | esc h5 => simp only [List.cons_append, List.cons.injEq] at he; exact absurd he.1 (by decide)
    | @cls b' t' s' _ _ h5 h6 =>
      have he : b :: t ++ cClose :: (s ++ cLeft :: x) = b' :: t' ++ cClose :: (s' ++ cLeft :: y) := by simpa using he
      obtain ⟨e1, e2⟩ := classChars_unique h3 h5 he
      cases e1
      obtain ⟨rfl, rfl⟩ := ih h6 e2
      exact ⟨rfl, rfl⟩
    | @negated c b' t' s' hc h5 h6 =>
      simp only [List.cons_append, List.cons.injEq, true_and] at he
      rcases hc with hc | hc
      · exact absurd (he.1.trans hc) h1
      · exact absurd (he.1.trans hc) h2
  | @negated c b t s hc h3 _ ih =>
    intro a' y h' he
    cases h' with
    | nil => simp only [List.nil_append, List.cons_append, List.cons.injEq] at he; exact absurd he.1 (by decide)
    | byte _ h1 => simp only [List.cons_append, List.cons.injEq] at he; exact absurd he.1.symm h1
    | esc h5 => simp only [List.cons_append, List.cons.injEq] at he; exact absurd he.1 (by decide)
    | @cls b' t' s' h1 h2 h5 h6 =>
      simp only [List.cons_append, List.cons.injEq, true_and] at he
      rcases hc with hc | hc
      · exact absurd (he.1.symm.trans hc) h1
      · exact absurd (he.1.symm.trans hc) h2
    | @negated c' b' t' s' hc' h5 h6 =>
      have he : c = c' ∧ b :: t ++ cClose :: (s ++ cLeft :: x) = b' :: t' ++ cClose :: (s' ++ cLeft :: y) := by simpa using he
      obtain ⟨rfl, he'⟩ := he
      obtain ⟨e1, e2⟩ := classChars_unique h3 h5 he'
      cases e1
      obtain ⟨rfl, rfl⟩ := ih h6 e2
      exact ⟨rfl, rfl⟩

theorem plain_no_group {a x : Bytes} (h : Plain a) : ¬ Plain (a ++ cLeft :: x) := by
  intro hy
  have := (plain_unique (x := x ++ [cLeft]) h hy (y := []) (by simp)).1
  have := congrArg List.length this
  simp at this

theorem group_unique {t t' s s' : Bytes} (h : WellFormed Innocent t) (h' : WellFormed Innocent t') (he : t ++ cRight :: s = t' ++ cRight :: s') : t = t' ∧ s = s' := by
  have h1 := indexClosing_alt (s := s) h
  have h2 := indexClosing_alt (s := s') h'
  rw [he, h2] at h1
  simp only [Option.some.injEq] at h1
  obtain ⟨e1, e2⟩ := List.append_inj he h1.symm
  exact ⟨e1, by simpa using e2⟩

theorem altOf_part_iff {t u : Bytes} (h : Part t) : AltOf t u ↔ u = t := by
  constructor
  · intro hu
    have h1 := part_none h
    cases hu with
    | last => rfl
    | here h2 => rw [part_comma h2] at h1; cases h1
    | there h2 => rw [part_comma h2] at h1; cases h1
  · rintro rfl; exact .last h

theorem altOf_comma_iff {t s u : Bytes} (h : Part t) : AltOf (t ++ cComma :: s) u ↔ u = t ∨ AltOf s u := by
  constructor
  · intro hu
    have h1 := part_comma h s
    generalize he : t ++ cComma :: s = x at hu h1
    cases hu with
    | last h2 => rw [part_none h2] at h1; cases h1
    | @here t' s' h2 =>
      rw [part_comma h2] at h1
      simp only [Option.some.injEq] at h1
      obtain ⟨rfl, -⟩ := List.append_inj he h1.symm
      exact .inl rfl
    | @there t' s' _ h2 h3 =>
      rw [part_comma h2] at h1
      simp only [Option.some.injEq] at h1
      obtain ⟨-, e⟩ := List.append_inj he h1.symm
      cases e
      exact .inr h3
  · rintro (rfl | hu)
    · exact .here h
    · exact .there h hu

theorem separate_plain {p : Bytes} (h : Plain p) : Separate p := by
  intro a t u s hr ha
  rcases Relation.ReflTransGen.cases_head hr with rfl | ⟨p', hc, -⟩
  · exact absurd h (plain_no_group ha)
  · cases hc with
    | mk h1 => exact absurd h (plain_no_group h1)

theorem separate_group {a t s : Bytes} (ha : Plain a) (ht : WellFormed Innocent t) (h : ∀ u, AltOf t u → Clear a (u ++ s) ∧ Separate (a ++ (u ++ s))) :
    Separate (a ++ cLeft :: (t ++ cRight :: s)) := by
  intro a' t' u' s' hr ha' ht' hu'
  rcases Relation.ReflTransGen.cases_head hr with he | ⟨p', hc, hr'⟩
  · obtain ⟨rfl, e⟩ := plain_unique ha ha' he
    obtain ⟨rfl, rfl⟩ := group_unique ht ht' e
    exact (h u' hu').1
  · generalize hp : a ++ cLeft :: (t ++ cRight :: s) = p at hc
    cases hc with
    | mk h1 h2 h3 h4 =>
      obtain ⟨rfl, e⟩ := plain_unique ha h1 hp
      obtain ⟨rfl, rfl⟩ := group_unique ht h2 e
      exact (h _ h4).2 a' t' u' s' hr' ha' ht' hu'

/-- The patterns that a pattern with a group stands for. -/
theorem expands_group {a t s q : Bytes} (ha : Plain a) (ht : WellFormed Innocent t) (hs : WellFormed Innocent s) :
    Expands (a ++ cLeft :: (t ++ cRight :: s)) q ↔ ∃ u, AltOf t u ∧ Expands (a ++ (u ++ s)) q := by
  constructor
  · rintro ⟨hr, hq⟩
    rcases Relation.ReflTransGen.cases_head hr with he | ⟨p', hc, hr'⟩
    · rw [← he] at hq
      exact absurd hq (plain_no_group ha)
    · generalize hp : a ++ cLeft :: (t ++ cRight :: s) = p at hc
      cases hc with
      | mk h1 h2 h3 h4 =>
        obtain ⟨rfl, e⟩ := plain_unique ha h1 hp
        obtain ⟨rfl, rfl⟩ := group_unique ht h2 e
        exact ⟨_, h4, hr', hq⟩
  · rintro ⟨u, hu, hr, hq⟩
    exact ⟨.head (.mk ha ht hs hu) hr, hq⟩

theorem expands_plain {p q : Bytes} (h : Plain p) : Expands p q ↔ q = p := by
  constructor
  · rintro ⟨hr, -⟩
    rcases Relation.ReflTransGen.cases_head hr with rfl | ⟨p', hc, -⟩
    · rfl
    · cases hc with
      | mk h1 => exact absurd h (plain_no_group h1)
  · rintro rfl
    exact ⟨.refl, h⟩

/-- A test for `Clear`. -/
def clearTest (a r : Bytes) : Bool :=
  !(a.getLast? == some cStar && r.head? == some cStar) && !([cStar, cStar].isSuffixOf a && r.head? == some cSlash) &&
  (r.head?.all fun b => decide (b < 0x80) || decide (0xC0 ≤ b)) &&
  (!(r == [cStar, cStar] || [cStar, cStar, cSlash].isPrefixOf r) || (a == [] || a.getLast? == some cSlash)) &&
  ((List.range a.length).all fun i => !([[cStar], [cStar, cStar], [cSlash, cStar, cStar], [cStar, cStar, cSlash], [cSlash, cStar, cStar, cSlash]].contains (a.drop i ++ r)))

theorem clear_of_test {a r : Bytes} (h : clearTest a r = true) : Clear a r := by
  unfold clearTest at h
  simp only [Bool.and_eq_true] at h
  obtain ⟨⟨⟨⟨h1, h2⟩, h3⟩, h4⟩, h5⟩ := h
  refine ⟨?_, ?_, ?_, ?_, ?_⟩
  · intro e1 e2; simp [e1, e2] at h1
  · intro e1 e2; simp [e2] at h2; rw [← List.isSuffixOf_iff_suffix, h2] at e1; cases e1
  · intro b hb
    rw [hb] at h3
    simpa using h3
  · intro e
    simp only [Bool.or_eq_true, Bool.not_eq_true', Bool.or_eq_false_iff, beq_iff_eq, beq_eq_false_iff_ne] at h4
    rcases h4 with ⟨f1, f2⟩ | h4
    · rcases e with e | e
      · exact absurd e f1
      · rw [← List.isPrefixOf_iff_prefix, f2] at e; cases e
    · exact h4
  · intro u hu hs hm
    rw [List.all_eq_true] at h5
    have hl := hs.length_le
    have hp := List.length_pos_iff.2 hu
    have := h5 (a.length - u.length) (List.mem_range.2 (by omega))
    rw [← List.suffix_iff_eq_drop.1 hs, Bool.not_eq_true', ← Bool.not_eq_true] at this
    exact this (List.contains_iff_mem.2 hm)

end Vtp
