import Verif.Lemmas.PatternValid
/-!
# C60, C61: the pattern matcher of the command line flags
-/

namespace Vtp.Props

open Spec

/-- ASCII text. -/
def txt (s : List Char) : Bytes := s.map fun c => UInt8.ofNat c.toNat

/-! ## C60 -/

/-- `Match` comes to an end, whatever the pattern and the name, and never panics. -/
theorem match_returns (p n : Bytes) : (matchPattern p n).Returns := matchPattern_returns p n

/-- C60: a name that a pattern without alternatives matches is in its language. Partial: `a**/` and the like are excluded, see
`match_mid_dirs`; alternatives are not treated here. -/
theorem match_sound_partial {p n : Bytes} {g : List Glob} {m : List Nat} (hp : Parses true p g) (hn : Runes n m) (hg : NoMidDirs g)
    (h : matchPattern p n = .ok true) : Lang g m :=
  matches_lang ((matchPattern_matches hp hn).1 hg h)

/-- C60: a name in the language of a pattern without alternatives is matched. Partial: patterns that end with `**/`, classes that contain the
separator, and stars that follow each other are excluded, see the witnesses below; the name is not empty and does not end with a separator. -/
theorem match_complete_partial {p n : Bytes} {g : List Glob} {m : List Nat} (hp : Parses true p g) (hn : Runes n m) (hc : NoSepClass g)
    (hd : g.getLast? ≠ some .dirs) (hr : NoRuns g) (hm : m ≠ []) (hl : m.getLast? ≠ some sepRune) (h : Lang g m) : matchPattern p n = .ok true :=
  (matchPattern_matches hp hn).2 ⟨hc, hd⟩ (lang_matches h hr (parses_dirsOK hp).1 hc hl fun h => absurd h hm)

/-- C60: for such patterns `Match` decides the language. -/
theorem match_decides_partial {p n : Bytes} {g : List Glob} {m : List Nat} (hp : Parses true p g) (hw : WellFormed Innocent p) (hn : Runes n m) (hc : NoSepClass g)
    (hd : g.getLast? ≠ some .dirs) (hd' : NoMidDirs g) (hr : NoRuns g) (hm : m ≠ []) (hl : m.getLast? ≠ some sepRune) :
    (Lang g m ∧ matchPattern p n = .ok true) ∨ (¬ Lang g m ∧ matchPattern p n = .ok false) := by
  obtain ⟨b, hb⟩ := matchPattern_fine hw n
  cases b with
  | true => exact .inl ⟨match_sound_partial hp hn hd' hb, hb⟩
  | false =>
    refine .inr ⟨fun h => ?_, hb⟩
    rw [match_complete_partial hp hn hc hd hr hm hl h] at hb
    cases hb

/-- Every well-formed pattern without braces has items, so the theorems above apply to it. -/
theorem match_items {p : Bytes} (hw : WellFormed Innocent p) (hb : cLeft ∉ p) : ∃ g, Parses true p g := parses_exists _ true (Nat.le_refl _) hw hb

/-- Every name has runes. -/
theorem match_runes (n : Bytes) : ∃ m, Runes n m := runes_exists _ n (Nat.le_refl _)

/-- The case of a flag like `vtproto/**/x.Ba?*`: its items, and that it meets all conditions. -/
example : let p := txt ['v', '/', '*', '*', '/', 'x', '.', 'B', '?', '*']
    ∃ g, Parses true p g ∧ g = [.chr false 118, .chr false 47, .dirs, .chr false 120, .chr false 46, .chr false 66, .any, .star] ∧
      NoSepClass g ∧ g.getLast? ≠ some .dirs ∧ NoMidDirs g ∧ NoRuns g ∧ WellFormed Innocent p := by
  intro p
  refine ⟨_, ?_, rfl, ?_, by decide, ?_, ?_, ?_⟩
  · exact .chr (by decide) (by decide) (by decide) (by decide) (by decide) (.chr (by decide) (by decide) (by decide) (by decide) (by decide)
      (.dirs (.chr (by decide) (by decide) (by decide) (by decide) (by decide) (.chr (by decide) (by decide) (by decide) (by decide) (by decide)
      (.chr (by decide) (by decide) (by decide) (by decide) (by decide) (.any (.star (by decide) .nil)))))))
  · intro neg rs h; simp at h
  · unfold NoMidDirs; decide
  · intro i h hs hi
    simp [List.suffix_cons_iff] at hs
    rcases hi with rfl | rfl <;> simp at hs
    subst hs
    simp
  · repeat' first | exact .nil | refine .byte (by decide) (by decide) (by decide) (by decide) ?_

example : matchPattern (txt ['v', '/', '*', '*', '/', 'x', '.', 'B', '?', '*']) (txt ['v', '/', 'a', '/', 'b', '/', 'x', '.', 'B', 'a', 'z']) = .ok true := by decide
example : matchPattern (txt ['v', '/', '*', '*', '/', 'x', '.', 'B', '?', '*']) (txt ['v', '/', 'a', '/', 'x', '.', 'B']) = .ok false := by decide
example : matchPattern (txt ['[', '^', 'a', '-', 'c', ']', '{', 'x', ',', 'y', '*', '}', '/']) (txt ['d', 'y', 'y', '/']) = .ok true := by decide

/-! ### Where the code and the language differ -/

/-- `a**/` matches `a`, which is not in its language: the test for an empty rest does not know that `**/` is inside a segment. -/
theorem match_mid_dirs : matchPattern (txt ['a', '*', '*', '/']) (txt ['a']) = .ok true ∧ ¬ Lang [.chr false 97, .star2, .chr false sepRune] [97] := by
  refine ⟨by decide, ?_⟩
  intro h
  generalize hm : ([97] : List Nat) = m at h
  cases h with
  | rune h1 h2 =>
    cases hm
    generalize hm : ([] : List Nat) = m at h2
    cases h2 with
    | @star i g d n _ _ h3 =>
      obtain ⟨rfl, rfl⟩ := List.append_eq_nil_iff.1 hm.symm
      have := lang_nil h3
      simp [Glob.wide] at this
    | rune h => cases hm
  | star h => simp at h

/-- A class that contains the separator: `*[^x]*c` does not match `a/c`, which is in its language. -/
theorem match_sep_class : matchPattern (txt ['*', '[', '^', 'x', ']', '*', 'c']) (txt ['a', '/', 'c']) = .ok false ∧
    Lang [.star, .cls true [(120, 120)], .star, .chr false 99] [97, 47, 99] := by
  refine ⟨by decide, ?_⟩
  refine Lang.star (d := [97]) (n := [47, 99]) (.inl rfl) (by simp [NoSep]) (.rune ?_ (Lang.star (d := []) (.inl rfl) (by simp [NoSep]) (.rune rfl .nil)))
  simp [Glob.Fits, InRanges]

/-- Stars that follow each other: `a***` does not match `a`. -/
theorem match_star_run : matchPattern (txt ['a', '*', '*', '*']) (txt ['a']) = .ok false ∧ Lang [.chr false 97, .star2, .star] [97] :=
  ⟨by decide, .rune rfl (Lang.star (d := []) (.inr rfl) (by simp [NoSep]) (Lang.star (d := []) (.inl rfl) (by simp [NoSep]) .nil))⟩

/-- `a*/**` does not match `a`, though `a/**` does. -/
theorem match_star_rest : matchPattern (txt ['a', '*', '/', '*', '*']) (txt ['a']) = .ok false ∧ Lang [.chr false 97, .star, .chr false sepRune, .rest] [97] ∧
    matchPattern (txt ['a', '/', '*', '*']) (txt ['a']) = .ok true :=
  ⟨by decide, .rune rfl (Lang.star (d := []) (.inl rfl) (by simp [NoSep]) .slashRest), by decide⟩

/-- A pattern that ends with `**/`: `**/a/**/` does not match `a/x/a`, which is in its language since `a/**/` stands for `a` too. -/
theorem match_end_dirs : matchPattern (txt ['*', '*', '/', 'a', '/', '*', '*', '/']) (txt ['a', '/', 'x', '/', 'a']) = .ok false ∧
    Lang [.dirs, .chr false 97, .chr false sepRune, .dirs] [97, 47, 120, 47, 97] :=
  ⟨by decide, Lang.dirs (d := [97, 47, 120, 47]) (.inr rfl) (.rune rfl .slashDirs)⟩

/-- Alternatives are not the same as writing the pattern once for each: `a*{,b}` does not match `a` though `a*` does, and `a{**/b,c}` matches
`ax/y/b` though neither `a**/b` nor `ac` does. -/
theorem match_alternatives :
    (matchPattern (txt ['a', '*', '{', ',', 'b', '}']) (txt ['a']) = .ok false ∧ matchPattern (txt ['a', '*']) (txt ['a']) = .ok true) ∧
    (matchPattern (txt ['a', '{', '*', '*', '/', 'b', ',', 'c', '}']) (txt ['a', 'x', '/', 'y', '/', 'b']) = .ok true ∧
      matchPattern (txt ['a', '*', '*', '/', 'b']) (txt ['a', 'x', '/', 'y', '/', 'b']) = .ok false ∧
      matchPattern (txt ['a', 'c']) (txt ['a', 'x', '/', 'y', '/', 'b']) = .ok false) := by
  refine ⟨⟨by decide, by decide⟩, by decide, by decide, by decide⟩

/-! ## C61 -/

/-- `ValidatePattern` accepts exactly the well-formed patterns. -/
theorem validate_iff (p : Bytes) : validatePattern p = true ↔ WellFormed (fun _ => True) p := validatePattern_iff p

/-- C61: a well-formed pattern never makes `Match` return an error. Partial: no class may contain an unescaped `[`, `{`, `}` or `,`, see
`match_valid_fails`. -/
theorem match_valid_partial {p : Bytes} (h : WellFormed Innocent p) (n : Bytes) : validatePattern p = true ∧ ∃ b, matchPattern p n = .ok b :=
  ⟨(validate_iff p).2 (wellFormed_true h), matchPattern_fine h n⟩

/-- `[^a]{x,y*}\{` is such a pattern. -/
example : WellFormed Innocent (txt ['[', '^', 'a', ']', '{', 'x', ',', 'y', '*', '}', '\\', '{']) :=
  .negated (t := []) (.inr rfl) (.byte (by decide) (by decide) (by unfold Innocent; decide) .nil)
    (.alt (t := txt ['x', ',', 'y', '*']) (.byte (by decide) (by decide) (by decide) (by decide) (.byte (by decide) (by decide) (by decide) (by decide)
      (.byte (by decide) (by decide) (by decide) (by decide) (.byte (by decide) (by decide) (by decide) (by decide) .nil)))) (.esc .nil))

/-- C61 fails in general: `[^a{]` and `{[,a]}` are accepted by `ValidatePattern`, and `Match` rejects them. -/
theorem match_valid_fails :
    (validatePattern (txt ['[', '^', 'a', '{', ']']) = true ∧ matchPattern (txt ['[', '^', 'a', '{', ']']) (txt ['a']) = .err .badPattern) ∧
    (validatePattern (txt ['{', '[', ',', 'a', ']', '}']) = true ∧ matchPattern (txt ['{', '[', ',', 'a', ']', '}']) (txt ['x']) = .err .badPattern) := by
  refine ⟨⟨by decide, by decide⟩, by decide, by decide⟩

end Vtp.Props
