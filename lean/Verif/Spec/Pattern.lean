import Verif.Model.Pattern
/-!
# What a pattern means

The syntax of patterns without alternatives as a relation between text and a list of items, and the set of names (as runes) each list of items
stands for. Of the model only the decoding of UTF-8 and the names of characters are used.
-/

namespace Vtp.Spec

/-- Parts of a pattern. -/
inductive Glob where
  /-- a character, written with a backslash or without -/
  | chr (esc : Bool) (r : Nat)
  /-- `?` -/
  | any
  /-- `[…]`, `[^…]`: ranges of characters -/
  | cls (neg : Bool) (ranges : List (Nat × Nat))
  /-- `*` -/
  | star
  /-- `**` that is not between separators -/
  | star2
  /-- `**/` at the beginning of a segment -/
  | dirs
  /-- `**` as the last segment -/
  | rest
  deriving DecidableEq, Repr

/-- The runes of a string. -/
inductive Runes : Bytes → List Nat → Prop where
  | nil : Runes [] []
  | cons {s : Bytes} {rs : List Nat} : s ≠ [] → Runes (s.drop (decodeRune s).2) rs → Runes s ((decodeRune s).1 :: rs)

/-- `ClassChar s c s'`: `s` begins with the character `c` of a class, written as such or after a backslash, and goes on with `s'`. -/
inductive ClassChar : Bytes → Nat → Bytes → Prop where
  | plain {b : UInt8} {s : Bytes} : b ≠ cEsc → b ≠ cClose → ClassChar (b :: s) (decodeRune (b :: s)).1 ((b :: s).drop (decodeRune (b :: s)).2)
  | escaped {s : Bytes} : s ≠ [] → ClassChar (cEsc :: s) (decodeRune s).1 (s.drop (decodeRune s).2)

/-- `ClassBody s rs s'`: `s` begins with the ranges `rs` and a closing bracket, and goes on with `s'`. -/
inductive ClassBody : Bytes → List (Nat × Nat) → Bytes → Prop where
  | close {s : Bytes} : ClassBody (cClose :: s) [] s
  /-- a single character: the largest rune, or one not followed by a dash and another character -/
  | one {s s' s'' : Bytes} {c : Nat} {rs : List (Nat × Nat)} : ClassChar s c s' →
      (c < maxRune → ∀ s2, s' = cDash :: s2 → s2 = [] ∨ s2.head? = some cClose) → ClassBody s' rs s'' → ClassBody s ((c, c) :: rs) s''
  /-- `lo-hi` -/
  | range {s s' s2 s'' : Bytes} {lo hi : Nat} {rs : List (Nat × Nat)} : ClassChar s lo (cDash :: s') → lo < maxRune → ClassChar s' hi s2 →
      ClassBody s2 rs s'' → ClassBody s ((lo, hi) :: rs) s''

/-- A class after its opening bracket: not empty, negated or not. -/
inductive ClassText : Bytes → Bool → List (Nat × Nat) → Bytes → Prop where
  | plain {b : UInt8} {s s' : Bytes} {rs : List (Nat × Nat)} : b ≠ cBang → b ≠ cCaret → b ≠ cClose → ClassBody (b :: s) rs s' → ClassText (b :: s) false rs s'
  | negated {c b : UInt8} {s s' : Bytes} {rs : List (Nat × Nat)} : c = cBang ∨ c = cCaret → b ≠ cClose → ClassBody (b :: s) rs s' →
      ClassText (c :: b :: s) true rs s'

/-- `Parses sos s g`: the text `s` of a pattern without alternatives consists of the items `g`. `sos`: it begins a segment. -/
inductive Parses : Bool → Bytes → List Glob → Prop where
  | nil {sos : Bool} : Parses sos [] []
  | star {sos : Bool} {s : Bytes} {g : List Glob} : s.head? ≠ some cStar → Parses false s g → Parses sos (cStar :: s) (.star :: g)
  | star2 {sos : Bool} {s : Bytes} {g : List Glob} : sos = false ∨ (s ≠ [] ∧ s.head? ≠ some cSlash) → Parses false s g →
      Parses sos (cStar :: cStar :: s) (.star2 :: g)
  | dirs {s : Bytes} {g : List Glob} : Parses true s g → Parses true (cStar :: cStar :: cSlash :: s) (.dirs :: g)
  | rest : Parses true [cStar, cStar] [.rest]
  | any {sos : Bool} {s : Bytes} {g : List Glob} : Parses false s g → Parses sos (cQuest :: s) (.any :: g)
  | cls {sos neg : Bool} {s s' : Bytes} {rs : List (Nat × Nat)} {g : List Glob} : ClassText s neg rs s' → Parses false s' g → Parses sos (cOpen :: s) (.cls neg rs :: g)
  | chr {sos : Bool} {b : UInt8} {s : Bytes} {g : List Glob} : b ≠ cStar → b ≠ cQuest → b ≠ cOpen → b ≠ cLeft → b ≠ cEsc →
      Parses (decide ((decodeRune (b :: s)).1 = sepRune)) ((b :: s).drop (decodeRune (b :: s)).2) g → Parses sos (b :: s) (.chr false (decodeRune (b :: s)).1 :: g)
  | esc {sos : Bool} {s : Bytes} {g : List Glob} : s ≠ [] →
      Parses (decide ((decodeRune s).1 = sepRune)) (s.drop (decodeRune s).2) g → Parses sos (cEsc :: s) (.chr true (decodeRune s).1 :: g)

/-- The ranges contain the rune; the lower end of a range always counts. -/
def InRanges (rs : List (Nat × Nat)) (r : Nat) : Prop := ∃ x ∈ rs, r = x.1 ∨ (x.1 ≤ r ∧ r ≤ x.2)

/-- The item stands for single runes and the rune is one of them. -/
def Glob.Fits : Glob → Nat → Prop
  | .chr _ c, r => r = c
  | .any, r => r ≠ sepRune
  | .cls neg rs, r => if neg then ¬ InRanges rs r else InRanges rs r
  | _, _ => False

/-- No separators. -/
def NoSep (n : List Nat) : Prop := ∀ r ∈ n, r ≠ sepRune

/-- Whole segments, each with its separator. -/
def Segments (n : List Nat) : Prop := n = [] ∨ n.getLast? = some sepRune

/-- The names a list of items stands for. -/
inductive Lang : List Glob → List Nat → Prop where
  | nil : Lang [] []
  | rune {i : Glob} {r : Nat} {g : List Glob} {n : List Nat} : i.Fits r → Lang g n → Lang (i :: g) (r :: n)
  | star {i : Glob} {g : List Glob} {d n : List Nat} : i = .star ∨ i = .star2 → NoSep d → Lang g n → Lang (i :: g) (d ++ n)
  | dirs {g : List Glob} {d n : List Nat} : Segments d → Lang g n → Lang (.dirs :: g) (d ++ n)
  | rest {n : List Nat} : Lang [.rest] n
  /-- `a/**` and `a/**/` stand for `a` too -/
  | slashRest : Lang [.chr false sepRune, .rest] []
  | slashDirs : Lang [.chr false sepRune, .dirs] []

/-- No class of the pattern has the separator in it. -/
def NoSepClass (g : List Glob) : Prop := ∀ neg rs, Glob.cls neg rs ∈ g → ¬ (Glob.cls neg rs).Fits sepRune

/-- The pattern does not end with a `**/` inside a segment, as in `a**/`. -/
def NoMidDirs (g : List Glob) : Prop := ¬ [Glob.star2, .chr false sepRune] <:+ g

/-- `*` and `**` in any position. -/
def Glob.wide : Glob → Bool
  | .star | .star2 | .dirs | .rest => true
  | _ => false

/-- No `*` or `**` inside a segment is followed directly by another, or by `/**` or `/**/` at the end of the pattern. -/
def NoRuns (g : List Glob) : Prop := ∀ i h, i :: h <:+ g → i = .star ∨ i = .star2 →
  (∀ j, h.head? = some j → j.wide = false) ∧ h ≠ [.chr false sepRune, .rest] ∧ h ≠ [.chr false sepRune, .dirs]

/-- Characters of a class up to its end: a backslash goes with the next byte. `Q` holds of those not after a backslash. -/
inductive ClassChars (Q : UInt8 → Prop) : Bytes → Prop where
  | nil : ClassChars Q []
  | byte {b : UInt8} {s : Bytes} : b ≠ cEsc → b ≠ cClose → Q b → ClassChars Q s → ClassChars Q (b :: s)
  | esc {b : UInt8} {s : Bytes} : ClassChars Q s → ClassChars Q (cEsc :: b :: s)

/-- Well-formed patterns: classes are closed and not empty, braces are balanced, no backslash is last. `Q` holds of the bytes in classes that
are not after a backslash. -/
inductive WellFormed (Q : UInt8 → Prop) : Bytes → Prop where
  | nil : WellFormed Q []
  | byte {b : UInt8} {s : Bytes} : b ≠ cEsc → b ≠ cOpen → b ≠ cLeft → b ≠ cRight → WellFormed Q s → WellFormed Q (b :: s)
  | esc {b : UInt8} {s : Bytes} : WellFormed Q s → WellFormed Q (cEsc :: b :: s)
  | cls {b : UInt8} {t s : Bytes} : b ≠ cBang → b ≠ cCaret → ClassChars Q (b :: t) → WellFormed Q s → WellFormed Q (cOpen :: b :: (t ++ cClose :: s))
  | negated {c b : UInt8} {t s : Bytes} : c = cBang ∨ c = cCaret → ClassChars Q (b :: t) → WellFormed Q s →
      WellFormed Q (cOpen :: c :: b :: (t ++ cClose :: s))
  | alt {t s : Bytes} : WellFormed Q t → WellFormed Q s → WellFormed Q (cLeft :: (t ++ cRight :: s))

/-- The byte has no meaning outside classes that a class could hide. -/
def Innocent (b : UInt8) : Prop := b ≠ cOpen ∧ b ≠ cLeft ∧ b ≠ cRight ∧ b ≠ cComma

end Vtp.Spec
