import Verif.Spec.Pattern
import Mathlib.Logic.Relation
/-!
# What alternatives in a pattern mean

A pattern with groups `{…,…}` stands for the patterns that result from choosing one alternative in each group, from left to right. Choosing is a rewriting of the
text. Of the model only the names of characters are used.
-/

namespace Vtp.Spec

/-- Well-formed text without groups. -/
inductive Plain : Bytes → Prop where
  | nil : Plain []
  | byte {b : UInt8} {s : Bytes} : b ≠ cEsc → b ≠ cOpen → b ≠ cLeft → b ≠ cRight → Plain s → Plain (b :: s)
  | esc {b : UInt8} {s : Bytes} : Plain s → Plain (cEsc :: b :: s)
  | cls {b : UInt8} {t s : Bytes} : b ≠ cBang → b ≠ cCaret → ClassChars Innocent (b :: t) → Plain s → Plain (cOpen :: b :: (t ++ cClose :: s))
  | negated {c b : UInt8} {t s : Bytes} : c = cBang ∨ c = cCaret → ClassChars Innocent (b :: t) → Plain s → Plain (cOpen :: c :: b :: (t ++ cClose :: s))

/-- Well-formed text without a comma outside of groups and classes. -/
inductive Part : Bytes → Prop where
  | nil : Part []
  | byte {b : UInt8} {s : Bytes} : b ≠ cEsc → b ≠ cOpen → b ≠ cLeft → b ≠ cRight → b ≠ cComma → Part s → Part (b :: s)
  | esc {b : UInt8} {s : Bytes} : Part s → Part (cEsc :: b :: s)
  | cls {b : UInt8} {t s : Bytes} : b ≠ cBang → b ≠ cCaret → ClassChars Innocent (b :: t) → Part s → Part (cOpen :: b :: (t ++ cClose :: s))
  | negated {c b : UInt8} {t s : Bytes} : c = cBang ∨ c = cCaret → ClassChars Innocent (b :: t) → Part s → Part (cOpen :: c :: b :: (t ++ cClose :: s))
  | group {t s : Bytes} : WellFormed Innocent t → Part s → Part (cLeft :: (t ++ cRight :: s))

/-- `AltOf t u`: `u` is one of the alternatives of a group with the text `t` between its braces. -/
inductive AltOf : Bytes → Bytes → Prop where
  | last {t : Bytes} : Part t → AltOf t t
  | here {t s : Bytes} : Part t → AltOf (t ++ cComma :: s) t
  | there {t s u : Bytes} : Part t → AltOf s u → AltOf (t ++ cComma :: s) u

/-- An alternative is chosen in the first group. -/
inductive Choose : Bytes → Bytes → Prop where
  | mk {a t u s : Bytes} : Plain a → WellFormed Innocent t → WellFormed Innocent s → AltOf t u → Choose (a ++ cLeft :: (t ++ cRight :: s)) (a ++ (u ++ s))

/-- `q` is one of the patterns that `p` stands for: an alternative has been chosen in each group. -/
def Expands (p q : Bytes) : Prop := Relation.ReflTransGen Choose p q ∧ Plain q

/-- The text `r` that takes the place of a group after the text `a` makes up no item with `a`, nor one of the endings that stand for nothing. -/
structure Clear (a r : Bytes) : Prop where
  /-- no `**` out of two parts -/
  star : a.getLast? = some cStar → r.head? ≠ some cStar
  /-- no `**/` out of two parts -/
  dirs : [cStar, cStar] <:+ a → r.head? ≠ some cSlash
  /-- no character out of two parts -/
  rune : ∀ b, r.head? = some b → b < 0x80 ∨ 0xC0 ≤ b
  /-- `**` and `**/` do not begin an alternative in the middle of a segment -/
  seg : r = [cStar, cStar] ∨ [cStar, cStar, cSlash] <+: r → a = [] ∨ a.getLast? = some cSlash
  /-- no `*`, `**`, `/**`, `**/` or `/**/` at the end of the pattern out of two parts -/
  ending : ∀ u, u ≠ [] → u <:+ a →
    u ++ r ∉ [[cStar], [cStar, cStar], [cSlash, cStar, cStar], [cStar, cStar, cSlash], [cSlash, cStar, cStar, cSlash]]

/-- That holds of all alternatives of all groups. -/
def Separate (p : Bytes) : Prop := ∀ a t u s, Relation.ReflTransGen Choose p (a ++ cLeft :: (t ++ cRight :: s)) → Plain a → WellFormed Innocent t → AltOf t u →
  Clear a (u ++ s)

/-- The names a pattern with groups stands for. -/
def LangOf (p : Bytes) (m : List Nat) : Prop := ∃ q g, Expands p q ∧ Parses true q g ∧ Lang g m

end Vtp.Spec
