import Verif.Lemmas.PatternBraces
import Verif.Props.Pattern
/-!
# C60: patterns with alternatives
-/

namespace Vtp.Props

open Spec

/-- C60: a pattern with groups `{…,…}` matches exactly the names that one of the patterns matches that it stands for, those with an alternative chosen in each group. Partial: the
text of an alternative must not make up an item or an ending together with the text before its group, see `match_groups_limits`. -/
theorem match_groups_partial {p : Bytes} (hw : WellFormed Innocent p) (hs : Separate p) (n : Bytes) :
    matchPattern p n = .ok true ↔ ∃ q, Expands p q ∧ matchPattern q n = .ok true := match_expands _ (Nat.le_refl _) hw hs

/-- C60: a pattern that does not match is reported as such, not as malformed. -/
theorem match_groups_false_partial {p : Bytes} (hw : WellFormed Innocent p) (hs : Separate p) (n : Bytes) :
    matchPattern p n = .ok false ↔ ∀ q, Expands p q → matchPattern q n = .ok false := by
  have hq : ∀ {q}, Expands p q → WellFormed Innocent q := fun h => by simpa using plain_wellFormed h.2 .nil
  obtain ⟨b, hb⟩ := matchPattern_fine hw n
  constructor
  · intro h q he
    obtain ⟨c, hc⟩ := matchPattern_fine (hq he) n
    cases c with
    | false => exact hc
    | true => rw [(match_groups_partial hw hs n).2 ⟨q, he, hc⟩] at h; cases h
  · intro h
    cases b with
    | false => exact hb
    | true =>
      obtain ⟨q, he, hm⟩ := (match_groups_partial hw hs n).1 hb
      rw [h q he] at hm
      cases hm

/-- C60: a name that a pattern matches is in its language, also if there are groups. Partial: as `match_sound_partial` and `match_groups_partial`. -/
theorem match_groups_sound_partial {p n : Bytes} {m : List Nat} (hw : WellFormed Innocent p) (hs : Separate p) (hn : Runes n m)
    (hg : ∀ q g, Expands p q → Parses true q g → NoMidDirs g) (h : matchPattern p n = .ok true) : LangOf p m := by
  obtain ⟨q, he, hm⟩ := (match_groups_partial hw hs n).1 h
  obtain ⟨g, hp⟩ := plain_parses _ true (Nat.le_refl _) he.2
  exact ⟨q, g, he, hp, match_sound_partial hp hn (hg q g he hp) hm⟩

/-- C60: a name in the language of a pattern is matched, also if there are groups. Partial: as `match_complete_partial` and `match_groups_partial`. -/
theorem match_groups_complete_partial {p n : Bytes} {m : List Nat} (hw : WellFormed Innocent p) (hs : Separate p) (hn : Runes n m)
    (hg : ∀ q g, Expands p q → Parses true q g → NoSepClass g ∧ g.getLast? ≠ some .dirs ∧ NoRuns g) (hm : m ≠ []) (hl : m.getLast? ≠ some sepRune)
    (h : LangOf p m) : matchPattern p n = .ok true := by
  obtain ⟨q, g, he, hp, h⟩ := h
  obtain ⟨h1, h2, h3⟩ := hg q g he hp
  exact (match_groups_partial hw hs n).2 ⟨q, he, match_complete_partial hp hn h1 h2 h3 hm hl h⟩

/-- C60: for such patterns `Match` decides the language. -/
theorem match_groups_decides_partial {p n : Bytes} {m : List Nat} (hw : WellFormed Innocent p) (hs : Separate p) (hn : Runes n m)
    (hg : ∀ q g, Expands p q → Parses true q g → NoSepClass g ∧ g.getLast? ≠ some .dirs ∧ NoMidDirs g ∧ NoRuns g) (hm : m ≠ []) (hl : m.getLast? ≠ some sepRune) :
    (LangOf p m ∧ matchPattern p n = .ok true) ∨ (¬ LangOf p m ∧ matchPattern p n = .ok false) := by
  obtain ⟨b, hb⟩ := matchPattern_fine hw n
  cases b with
  | true => exact .inl ⟨match_groups_sound_partial hw hs hn (fun q g h1 h2 => (hg q g h1 h2).2.2.1) hb, hb⟩
  | false =>
    refine .inr ⟨fun h => ?_, hb⟩
    rw [match_groups_complete_partial hw hs hn (fun q g h1 h2 => ⟨(hg q g h1 h2).1, (hg q g h1 h2).2.1, (hg q g h1 h2).2.2.2⟩) hm hl h] at hb
    cases hb

/-! ## The hypotheses can be met -/

/-- `v/{a,b{c,}*}x`. -/
def groups : Bytes := txt ['v', '/', '{', 'a', ',', 'b', '{', 'c', ',', '}', '*', '}', 'x']

theorem groups_wellFormed : WellFormed Innocent groups := by
  refine .byte (by decide) (by decide) (by decide) (by decide) (.byte (by decide) (by decide) (by decide) (by decide) (.alt (t := txt ['a', ',', 'b', '{', 'c', ',', '}', '*']) ?_ ?_))
  · refine .byte (by decide) (by decide) (by decide) (by decide) (.byte (by decide) (by decide) (by decide) (by decide) (.byte (by decide) (by decide) (by decide) (by decide)
      (.alt (t := txt ['c', ',']) ?_ ?_)))
    all_goals repeat' first | exact .nil | refine .byte (by decide) (by decide) (by decide) (by decide) ?_
  · repeat' first | exact .nil | refine .byte (by decide) (by decide) (by decide) (by decide) ?_

macro "plain_text" : tactic => `(tactic| repeat' first | exact Plain.nil | refine Plain.byte (by decide) (by decide) (by decide) (by decide) ?_)
macro "part_text" : tactic => `(tactic| repeat' first | exact Part.nil | refine Part.byte (by decide) (by decide) (by decide) (by decide) (by decide) ?_)
macro "formed_text" : tactic => `(tactic| repeat' first | exact WellFormed.nil | refine WellFormed.byte (by decide) (by decide) (by decide) (by decide) ?_)

theorem groups_outer {u : Bytes} : AltOf (txt ['a', ',', 'b', '{', 'c', ',', '}', '*']) u ↔ u = txt ['a'] ∨ u = txt ['b', '{', 'c', ',', '}', '*'] := by
  rw [show txt ['a', ',', 'b', '{', 'c', ',', '}', '*'] = txt ['a'] ++ cComma :: txt ['b', '{', 'c', ',', '}', '*'] from rfl, altOf_comma_iff (by part_text), altOf_part_iff]
  refine .byte (by decide) (by decide) (by decide) (by decide) (by decide) (.group (t := txt ['c', ',']) (by formed_text) (by part_text))

theorem groups_inner {u : Bytes} : AltOf (txt ['c', ',']) u ↔ u = txt ['c'] ∨ u = [] := by
  rw [show txt ['c', ','] = txt ['c'] ++ cComma :: [] from rfl, altOf_comma_iff (by part_text), altOf_part_iff (by part_text)]

theorem groups_separate : Separate groups := by
  refine separate_group (a := txt ['v', '/']) (t := txt ['a', ',', 'b', '{', 'c', ',', '}', '*']) (s := txt ['x']) (by plain_text) ?_ ?_
  · exact .byte (by decide) (by decide) (by decide) (by decide) (.byte (by decide) (by decide) (by decide) (by decide) (.byte (by decide) (by decide) (by decide) (by decide)
      (.alt (t := txt ['c', ',']) (by formed_text) (by formed_text))))
  · intro u hu
    rcases groups_outer.1 hu with rfl | rfl
    · exact ⟨clear_of_test (by decide), separate_plain (by plain_text)⟩
    · refine ⟨clear_of_test (by decide), ?_⟩
      refine separate_group (a := txt ['v', '/', 'b']) (t := txt ['c', ',']) (s := txt ['*', 'x']) (by plain_text) (by formed_text) ?_
      intro u hu
      rcases groups_inner.1 hu with rfl | rfl
      · exact ⟨clear_of_test (by decide), separate_plain (by plain_text)⟩
      · exact ⟨clear_of_test (by decide), separate_plain (by plain_text)⟩

theorem groups_expands {q : Bytes} : Expands groups q ↔ q = txt ['v', '/', 'a', 'x'] ∨ q = txt ['v', '/', 'b', 'c', '*', 'x'] ∨ q = txt ['v', '/', 'b', '*', 'x'] := by
  have h1 : WellFormed Innocent (txt ['a', ',', 'b', '{', 'c', ',', '}', '*']) :=
    .byte (by decide) (by decide) (by decide) (by decide) (.byte (by decide) (by decide) (by decide) (by decide) (.byte (by decide) (by decide) (by decide) (by decide)
      (.alt (t := txt ['c', ',']) (by formed_text) (by formed_text))))
  rw [show groups = txt ['v', '/'] ++ cLeft :: (txt ['a', ',', 'b', '{', 'c', ',', '}', '*'] ++ cRight :: txt ['x']) from rfl,
    expands_group (by plain_text) h1 (by formed_text)]
  simp only [groups_outer, exists_eq_or_imp, exists_eq_left]
  rw [show txt ['v', '/'] ++ (txt ['b', '{', 'c', ',', '}', '*'] ++ txt ['x']) = txt ['v', '/', 'b'] ++ cLeft :: (txt ['c', ','] ++ cRight :: txt ['*', 'x']) from rfl,
    expands_group (by plain_text) (by formed_text) (by formed_text)]
  simp only [groups_inner, exists_eq_or_imp, exists_eq_left]
  rw [expands_plain (by plain_text), expands_plain (by plain_text), expands_plain (by plain_text)]
  rfl

example (n : Bytes) : matchPattern groups n = .ok true ↔ matchPattern (txt ['v', '/', 'a', 'x']) n = .ok true ∨
    matchPattern (txt ['v', '/', 'b', 'c', '*', 'x']) n = .ok true ∨ matchPattern (txt ['v', '/', 'b', '*', 'x']) n = .ok true := by
  rw [match_groups_partial groups_wellFormed groups_separate]
  simp only [groups_expands, or_and_right, exists_or, exists_eq_left]

example : matchPattern groups (txt ['v', '/', 'b', 'y', 'y', 'x']) = .ok true := by decide
example : matchPattern groups (txt ['v', '/', 'a', 'y', 'x']) = .ok false := by decide

/-- The items of the patterns it stands for meet the conditions of the other theorems. -/
theorem groups_items {q : Bytes} {g : List Glob} (h : Expands groups q) (hp : Parses true q g) : NoSepClass g ∧ g.getLast? ≠ some .dirs ∧ NoMidDirs g ∧ NoRuns g := by
  have one : ∀ {sos : Bool} {b : UInt8} {s : Bytes} {g : List Glob}, b < 0x80 → b ≠ cStar → b ≠ cQuest → b ≠ cOpen → b ≠ cEsc → Parses sos (b :: s) g →
      ∃ sos' g', g = .chr false b.toNat :: g' ∧ Parses sos' s g' := by
    intro sos b s g h0 h1 h2 h3 h4 h
    cases h with
    | star => exact absurd rfl h1
    | star2 => exact absurd rfl h1
    | dirs => exact absurd rfl h1
    | rest => exact absurd rfl h1
    | any => exact absurd rfl h2
    | cls => exact absurd rfl h3
    | esc => exact absurd rfl h4
    | chr _ _ _ _ _ h =>
      rw [decodeRune_ascii h0] at h ⊢
      exact ⟨_, _, rfl, h⟩
  have star : ∀ {sos : Bool} {b : UInt8} {s : Bytes} {g : List Glob}, b ≠ cStar → Parses sos (cStar :: b :: s) g → ∃ sos' g', g = .star :: g' ∧ Parses sos' (b :: s) g' := by
    intro sos b s g hb h
    cases h with
    | star _ h => exact ⟨_, _, rfl, h⟩
    | star2 => exact absurd rfl hb
    | dirs => exact absurd rfl hb
    | rest => exact absurd rfl hb
    | chr h => exact absurd rfl h
  have fin : ∀ {sos : Bool} {g : List Glob}, Parses sos [] g → g = [] := fun h => parses_text_nil h
  have runs : ∀ {g : List Glob}, (∀ i h, i :: h <:+ g → i = .star ∨ i = .star2 → h = [.chr false 120]) → NoRuns g := by
    intro g hh i h hs hi
    rw [hh i h hs hi]
    simp [Glob.wide]
  rcases groups_expands.1 h with rfl | rfl | rfl
  · obtain ⟨_, _, rfl, h1⟩ := one (by decide) (by decide) (by decide) (by decide) (by decide) hp
    obtain ⟨_, _, rfl, h2⟩ := one (by decide) (by decide) (by decide) (by decide) (by decide) h1
    obtain ⟨_, _, rfl, h3⟩ := one (by decide) (by decide) (by decide) (by decide) (by decide) h2
    obtain ⟨_, _, rfl, h4⟩ := one (by decide) (by decide) (by decide) (by decide) (by decide) h3
    cases fin h4
    refine ⟨fun neg rs h => by simp at h, by decide, by unfold NoMidDirs; decide, runs ?_⟩
    intro i h hs hi
    simp [List.suffix_cons_iff] at hs
    rcases hi with rfl | rfl <;> simp at hs
  · obtain ⟨_, _, rfl, h1⟩ := one (by decide) (by decide) (by decide) (by decide) (by decide) hp
    obtain ⟨_, _, rfl, h2⟩ := one (by decide) (by decide) (by decide) (by decide) (by decide) h1
    obtain ⟨_, _, rfl, h3⟩ := one (by decide) (by decide) (by decide) (by decide) (by decide) h2
    obtain ⟨_, _, rfl, h4⟩ := one (by decide) (by decide) (by decide) (by decide) (by decide) h3
    obtain ⟨_, _, rfl, h5⟩ := star (by decide) h4
    obtain ⟨_, _, rfl, h6⟩ := one (by decide) (by decide) (by decide) (by decide) (by decide) h5
    cases fin h6
    refine ⟨fun neg rs h => by simp at h, by decide, by unfold NoMidDirs; decide, runs ?_⟩
    intro i h hs hi
    simp [List.suffix_cons_iff] at hs
    rcases hi with rfl | rfl <;> simp at hs
    exact hs
  · obtain ⟨_, _, rfl, h1⟩ := one (by decide) (by decide) (by decide) (by decide) (by decide) hp
    obtain ⟨_, _, rfl, h2⟩ := one (by decide) (by decide) (by decide) (by decide) (by decide) h1
    obtain ⟨_, _, rfl, h3⟩ := one (by decide) (by decide) (by decide) (by decide) (by decide) h2
    obtain ⟨_, _, rfl, h4⟩ := star (by decide) h3
    obtain ⟨_, _, rfl, h5⟩ := one (by decide) (by decide) (by decide) (by decide) (by decide) h4
    cases fin h5
    refine ⟨fun neg rs h => by simp at h, by decide, by unfold NoMidDirs; decide, runs ?_⟩
    intro i h hs hi
    simp [List.suffix_cons_iff] at hs
    rcases hi with rfl | rfl <;> simp at hs
    exact hs

example {n : Bytes} {m : List Nat} (hn : Runes n m) (hm : m ≠ []) (hl : m.getLast? ≠ some sepRune) :=
  match_groups_decides_partial groups_wellFormed groups_separate hn (fun _ _ => groups_items) hm hl

/-! ## Where alternatives are more or less than the patterns written out -/

/-- Each condition of `Clear` is needed: `a/*{*/b,c}` does not match `a/x/y/b` though `a/**/b` does; `**{/b,c}` does not match `x/y/b` though `**/b` does; a character that is cut in two
matches two bad bytes; `a{**/b,c}` matches `ax/y/b` though neither `a**/b` nor `ac` does; `a/{**,b}` does not match `a` though `a/**` does. -/
theorem match_groups_limits :
    (matchPattern (txt ['a', '/', '*', '{', '*', '/', 'b', ',', 'c', '}']) (txt ['a', '/', 'x', '/', 'y', '/', 'b']) = .ok false ∧
      matchPattern (txt ['a', '/', '*', '*', '/', 'b']) (txt ['a', '/', 'x', '/', 'y', '/', 'b']) = .ok true) ∧
    (matchPattern (txt ['*', '*', '{', '/', 'b', ',', 'c', '}']) (txt ['x', '/', 'y', '/', 'b']) = .ok false ∧
      matchPattern (txt ['*', '*', '/', 'b']) (txt ['x', '/', 'y', '/', 'b']) = .ok true) ∧
    (matchPattern ([0xC3, cLeft, 0xA9, cComma, 0x62, cRight]) [0xFF, 0xA9] = .ok true ∧ matchPattern [0xC3, 0xA9] [0xFF, 0xA9] = .ok false ∧
      matchPattern [0xC3, 0x62] [0xFF, 0xA9] = .ok false) ∧
    (matchPattern (txt ['a', '{', '*', '*', '/', 'b', ',', 'c', '}']) (txt ['a', 'x', '/', 'y', '/', 'b']) = .ok true ∧
      matchPattern (txt ['a', '*', '*', '/', 'b']) (txt ['a', 'x', '/', 'y', '/', 'b']) = .ok false ∧
      matchPattern (txt ['a', 'c']) (txt ['a', 'x', '/', 'y', '/', 'b']) = .ok false) ∧
    (matchPattern (txt ['a', '/', '{', '*', '*', ',', 'b', '}']) (txt ['a']) = .ok false ∧ matchPattern (txt ['a', '/', '*', '*']) (txt ['a']) = .ok true) := by
  refine ⟨⟨by decide, by decide⟩, ⟨by decide, by decide⟩, ⟨by decide, by decide, by decide⟩, ⟨by decide, by decide, by decide⟩, by decide, by decide⟩

end Vtp.Props
