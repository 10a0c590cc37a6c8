import Verif.Model.Base
/-!
# The pattern matcher of the command line flags, `generator/pattern/match.go`

`Match` calls `doMatchWithSeparator` with `separator = '/'` and `validate = true`, and these are the only values the parameters ever have,
so they are constants here. An index into the pattern is often represented by the rest of the pattern from there; index expressions of the
code that would be out of range have no counterpart: each is guarded in the code, or the index has been advanced by the width of a
rune, which is at most what is left (`decodeRune_le`).
-/

namespace Vtp

/-- `utf8.MaxRune`. (`generator/pattern/match.go:131`) -/
def maxRune : Nat := 0x10FFFF

/-- `utf8.RuneError`.
Go semantics, as used by the code at `generator/pattern/match.go:82,102,228-229`. -/
def runeError : Nat := 0xFFFD

/-- The table `first` of `unicode/utf8` for leading bytes from `0x80`: the length of the encoding and the range of its second byte.
Go semantics, as used by the code at `generator/pattern/match.go:82,102,228-229`. -/
def leadByte (b : UInt8) : Option (Nat × UInt8 × UInt8) :=
  if b < 0xC2 then none
  else if b < 0xE0 then some (2, 0x80, 0xBF)
  else if b = 0xE0 then some (3, 0xA0, 0xBF)
  else if b = 0xED then some (3, 0x80, 0x9F)
  else if b < 0xF0 then some (3, 0x80, 0xBF)
  else if b = 0xF0 then some (4, 0x90, 0xBF)
  else if b < 0xF4 then some (4, 0x80, 0xBF)
  else if b = 0xF4 then some (4, 0x80, 0x8F)
  else none

/-- Continuation bytes.
Go semantics, as used by the code at `generator/pattern/match.go:82,102,228-229`. -/
def isCont (b : UInt8) : Bool := 0x80 ≤ b && b ≤ 0xBF

/-- `utf8.DecodeRuneInString` of the standard library: rune and width.
Go semantics, as used by the code at `generator/pattern/match.go:82,102,228-229`. -/
def decodeRune : Bytes → Nat × Nat
  | [] => (runeError, 0)
  | b0 :: s =>
    if b0 < 0x80 then (b0.toNat, 1)
    else match leadByte b0, s with
      | some (2, lo, hi), b1 :: _ => if lo ≤ b1 && b1 ≤ hi then ((b0.toNat % 32) * 64 + b1.toNat % 64, 2) else (runeError, 1)
      | some (3, lo, hi), b1 :: b2 :: _ =>
        if (lo ≤ b1 && b1 ≤ hi) && isCont b2 then ((b0.toNat % 16) * 4096 + (b1.toNat % 64) * 64 + b2.toNat % 64, 3) else (runeError, 1)
      | some (4, lo, hi), b1 :: b2 :: b3 :: _ =>
        if ((lo ≤ b1 && b1 ≤ hi) && isCont b2) && isCont b3 then
          ((b0.toNat % 8) * 262144 + (b1.toNat % 64) * 4096 + (b2.toNat % 64) * 64 + b3.toNat % 64, 4)
        else (runeError, 1)
      | _, _ => (runeError, 1)

/-- `'/'`, `'*'`, and the other characters with a meaning. (`generator/pattern/match.go:53-61`) -/
abbrev cSlash : UInt8 := 47
/-- `'*'`. (`generator/pattern/match.go:70-98`) -/
abbrev cStar : UInt8 := 42
/-- `'?'`. (`generator/pattern/match.go:100`) -/
abbrev cQuest : UInt8 := 63
/-- `'['`. (`generator/pattern/match.go:112`) -/
abbrev cOpen : UInt8 := 91
/-- `']'`. (`generator/pattern/match.go:126`) -/
abbrev cClose : UInt8 := 93
/-- `'!'`. (`generator/pattern/match.go:121`) -/
abbrev cBang : UInt8 := 33
/-- `'^'`. (`generator/pattern/match.go:121`) -/
abbrev cCaret : UInt8 := 94
/-- `'-'`. (`generator/pattern/match.go:137`) -/
abbrev cDash : UInt8 := 45
/-- The backslash. (`generator/pattern/match.go:138,217`) -/
abbrev cEsc : UInt8 := 92
/-- `'{'`. (`generator/pattern/match.go:190`) -/
abbrev cLeft : UInt8 := 123
/-- `'}'`. (`generator/pattern/match.go:381`) -/
abbrev cRight : UInt8 := 125
/-- `','`. (`generator/pattern/match.go:348`) -/
abbrev cComma : UInt8 := 44

/-- The separator as a rune. (`generator/pattern/match.go:53-61`) -/
abbrev sepRune : Nat := 47

/-- `indexUnescapedByte(s, c, true)`, `generator/pattern/match.go:356-368`. -/
def indexUnescaped (c : UInt8) : Bytes → Option Nat
  | [] => none
  | b :: s =>
    if b = cEsc then match s with
      | [] => none
      | _ :: s' => (indexUnescaped c s').map (· + 2)
    else if b = c then some 0
    else (indexUnescaped c s).map (· + 1)

/-- `indexNextAlt(s, true)`, `generator/pattern/match.go:337-353`. `alts` is an `int` there: braces closed before they are opened make it
negative. -/
def indexNextAltFrom : Int → Bytes → Option Nat
  | _, [] => none
  | alts, b :: s =>
    if b = cEsc then match s with
      | [] => none
      | _ :: s' => (indexNextAltFrom alts s').map (· + 2)
    else if b = cLeft then (indexNextAltFrom (alts + 1) s).map (· + 1)
    else if b = cRight then (indexNextAltFrom (alts - 1) s).map (· + 1)
    else if b = cComma ∧ alts = 1 then some 0
    else (indexNextAltFrom alts s).map (· + 1)

/-- `indexNextAlt`. (`generator/pattern/match.go:335-353`) -/
def indexNextAlt (s : Bytes) : Option Nat := indexNextAltFrom 1 s

/-- `indexMatchedClosingAlt(s, true)`, `generator/pattern/match.go:372-389`. `alts` is at least one here. -/
def indexClosingFrom : Nat → Bytes → Option Nat
  | _, [] => none
  | alts, b :: s =>
    if b = cEsc then match s with
      | [] => none
      | _ :: s' => (indexClosingFrom alts s').map (· + 2)
    else if b = cLeft then (indexClosingFrom (alts + 1) s).map (· + 1)
    else if b = cRight then if alts = 1 then some 0 else (indexClosingFrom (alts - 1) s).map (· + 1)
    else (indexClosingFrom alts s).map (· + 1)

/-- `indexMatchedClosingAlt`. (`generator/pattern/match.go:369-388`) -/
def indexClosing (s : Bytes) : Option Nat := indexClosingFrom 1 s

/-- The inner loop of `doValidatePattern` over a class, `generator/pattern/match.go:429-439`: what comes after the class. -/
def validateClass : Bytes → Option Bytes
  | [] => none
  | b :: s =>
    if b = cEsc then match s with
      | [] => none
      | _ :: s' => validateClass s'
    else if b = cClose then some s
    else validateClass s

/-- The text of a class after the sign of negation, if there is one, `generator/pattern/match.go:417-423`. -/
def classBodyText : Bytes → Bytes
  | [] => []
  | c :: s => if c = cCaret ∨ c = cBang then s else c :: s

/-- `doValidatePattern`, `generator/pattern/match.go:401-457`, from some position with `altDepth` braces open. -/
def validateFrom : Nat → Nat → Bytes → Bool
  | 0, _, _ => false
  | _ + 1, d, [] => d == 0
  | k + 1, d, b :: s =>
    if b = cEsc then match s with
      | [] => false
      | _ :: s' => validateFrom k d s'
    else if b = cOpen then
      match classBodyText s with
      | [] => false
      | c :: s1 =>
        if c = cClose then false
        else match validateClass (c :: s1) with
          | none => false
          | some s2 => validateFrom k d s2
    else if b = cLeft then validateFrom k (d + 1) s
    else if b = cRight then if d = 0 then false else validateFrom k (d - 1) s
    else validateFrom k d s

/-- `ValidatePattern`, `generator/pattern/match.go:397-399`. -/
def validatePattern (s : Bytes) : Bool := validateFrom (s.length + 1) 0 s

/-- The loop over the elements of a class, `generator/pattern/match.go:131-169`: whether one matched, and what is left of the pattern.
`last` is the last character that may begin a range. -/
def classLoop (r : Nat) : Nat → Nat → Bytes → Bool × Bytes
  | 0, _, s => (false, s)
  | k + 1, last, s => match s with
    | [] => (false, s)
    | b :: _ =>
      if b = cClose then (false, s)
      else
        let (c, w) := decodeRune s
        let s1 := s.drop w
        if last < maxRune ∧ c = cDash.toNat ∧ s1 ≠ [] ∧ s1.head? ≠ some cClose then
          let s2 := if s1.head? = some cEsc then s1.drop 1 else s1
          let (hi, w2) := decodeRune s2
          if last ≤ r ∧ r ≤ hi then (true, s2.drop w2) else classLoop r k maxRune (s2.drop w2)
        else
          let (c', s1') := if c = cEsc.toNat then ((decodeRune s1).1, s1.drop (decodeRune s1).2) else (c, s1)
          if c' = r then (true, s1') else classLoop r k c' s1'

/-- What a class does with a rune. (`generator/pattern/match.go:112-188`) -/
inductive ClassOut where
  /-- the pattern is malformed -/
  | bad
  /-- no match; the pattern index after the failure is that of `rest` -/
  | no (rest : Bytes)
  /-- match; the pattern goes on with `rest` -/
  | yes (rest : Bytes)
  deriving DecidableEq, Repr

/-- The class of which `s` is the text after `[`, against a rune, `generator/pattern/match.go:112-188`. -/
def matchClass (r : Nat) (s : Bytes) : ClassOut :=
  match s with
  | [] => .bad
  | c :: s' =>
    let negate := decide (c = cBang ∨ c = cCaret)
    let s1 := if negate then s' else s
    if s1 = [] ∨ s1.head? = some cClose then .bad
    else
      let (m, s2) := classLoop r s1.length maxRune s1
      if m = negate then if s2 = [] then .bad else .no s2
      else match indexUnescaped cClose s2 with
        | none => .bad
        | some i => .yes (s2.drop (i + 1))

/-- The variables of the loop of `doMatchWithSeparator`, `generator/pattern/match.go:61-64`. `ds` is the pair of `doublestarPatternBacktrack` and
`doublestarNameBacktrack`, `star` that of `starPatternBacktrack` and `starNameBacktrack`; the two of a pair are always both set or both -1. -/
structure MatchState where
  ds : Option (Nat × Nat)
  star : Option (Nat × Nat)
  pat : Nat
  name : Nat
  sos : Bool
  deriving DecidableEq, Repr

/-- How the `switch` in the loop is left. (`generator/pattern/match.go:61-277`) -/
inductive Step where
  /-- `continue` -/
  | next (st : MatchState)
  /-- `break`, with `patIdx` set to `pat` -/
  | stop (pat : Nat)
  /-- `return` -/
  | ret (r : Res Bool)
  deriving DecidableEq, Repr

/-- The loop over alternatives, `generator/pattern/match.go:201-215,310-325`. -/
def tryAlts (f : Bytes → Res Bool) : Nat → Bytes → Res Bool
  | 0, _ => .diverge
  | k + 1, s => match indexNextAlt s with
    | none => f s
    | some c => match f (s.take c) with
      | .ok false => tryAlts f k (s.drop (c + 1))
      | r => r

/-- `case '*'`, `generator/pattern/match.go:69-98`. `s` is the pattern after the star. -/
def starItem (st : MatchState) (s : Bytes) : Step :=
  let one := Step.next { st with star := some (st.pat + 1, st.name), pat := st.pat + 1, sos := false }
  let two := Step.next { st with star := some (st.pat + 2, st.name), pat := st.pat + 2, sos := false }
  match s with
  | c :: s2 =>
    if c = cStar then
      if st.sos then
        if s2 = [] then .ret (.ok true)
        else if (decodeRune s2).1 = sepRune then
          let q := st.pat + 2 + (decodeRune s2).2
          .next { st with ds := some (q, st.name), star := none, pat := q }
        else two
      else two
    else one
  | [] => one

/-- `case '?'`, `generator/pattern/match.go:100-110`. `nr` and `nw` are the next rune of the name and its width, also below. -/
def questItem (st : MatchState) (nr nw : Nat) : Step :=
  if nr = sepRune then .stop st.pat else .next { st with pat := st.pat + 1, name := st.name + nw, sos := false }

/-- `case '['`, `generator/pattern/match.go:112-188`. `s` is the pattern after the bracket. -/
def classItem (p : Bytes) (st : MatchState) (nr nw : Nat) (s : Bytes) : Step :=
  match matchClass nr s with
  | .bad => .ret (.err .badPattern)
  | .no rest => .stop (p.length - rest.length)
  | .yes rest => .next { st with pat := p.length - rest.length, name := st.name + nw, sos := false }

/-- `case '{'`, `generator/pattern/match.go:190-215`. `s` is the pattern after the brace, `rec` the recursive call. -/
def altItem (rec : Bytes → MatchState → Res Bool) (p : Bytes) (st : MatchState) (s : Bytes) : Step :=
  match indexClosing s with
  | none => .ret (.err .badPattern)
  | some i => .ret (tryAlts (fun alt => rec (p.take st.pat ++ alt ++ s.drop (i + 1)) { st with sos := true }) (i + 1) (s.take i))

/-- The code of `default`, `generator/pattern/match.go:227-242`, with `patIdx = q`. -/
def charItem (p : Bytes) (st : MatchState) (nr nw q : Nat) (s : Bytes) : Step :=
  if (decodeRune s).1 ≠ nr then .stop (if 0 < q ∧ p[q - 1]? = some cEsc then q - 1 else q)
  else .next { st with pat := q + (decodeRune s).2, name := st.name + nw, sos := decide ((decodeRune s).1 = sepRune) }

/-- The `switch` on the next byte of the pattern, `generator/pattern/match.go:68-243`. `s` is the pattern from `patIdx`. -/
def matchItem (rec : Bytes → MatchState → Res Bool) (p n : Bytes) (st : MatchState) (s : Bytes) : Step :=
  match s with
  | [] => .stop st.pat
  | b :: s1 =>
    let nr := (decodeRune (n.drop st.name)).1
    let nw := (decodeRune (n.drop st.name)).2
    if b = cStar then starItem st s1
    else if b = cQuest then questItem st nr nw
    else if b = cOpen then classItem p st nr nw s1
    else if b = cLeft then altItem rec p st s1
    else if b = cEsc then if s1 = [] then .ret (.err .badPattern) else charItem p st nr nw (st.pat + 1) s1
    else charItem p st nr nw st.pat s

/-- `for nameIdx < nameLen { …; if nameRune == separator { … } }`, `generator/pattern/match.go:260-270`: the position after the next separator. -/
def afterSep (n : Bytes) : Nat → Nat → Option Nat
  | 0, _ => none
  | k + 1, i =>
    if i < n.length then
      let (r, w) := decodeRune (n.drop i)
      if r = sepRune then some (i + w) else afterSep n k (i + w)
    else none

/-- Backtracking, `generator/pattern/match.go:246-271`. -/
def backtrackDs (n : Bytes) (st : MatchState) : Option MatchState :=
  match st.ds with
  | none => none
  | some (q, i) => match afterSep n (n.length + 1) i with
    | none => none
    | some j => some { st with ds := some (q, j), pat := q, name := j, sos := true }

/-- What is done when the `switch` is left without a `continue`.
(`generator/pattern/match.go:246-276`) -/
def backtrack (n : Bytes) (st : MatchState) : Option MatchState :=
  match st.star with
  | none => backtrackDs n st
  | some (q, i) =>
    let (r, w) := decodeRune (n.drop i)
    if r ≠ sepRune then some { st with star := some (q, i + w), pat := q, name := i + w, sos := false } else backtrackDs n st

/-- `isZeroLengthPattern`, `generator/pattern/match.go:290-333`; the recursion is limited to a depth. -/
def zeroLength : Nat → Bytes → Res Bool
  | 0, _ => .diverge
  | k + 1, s =>
    if s = [] ∨ s = [cStar] ∨ s = [cStar, cStar] ∨ s = [cSlash, cStar, cStar] ∨ s = [cStar, cStar, cSlash] ∨ s = [cSlash, cStar, cStar, cSlash] then .ok true
    else match s with
      | [] => .ok true
      | b :: s1 =>
        if b = cLeft then
          match indexClosing s1 with
          | none => .err .badPattern
          | some i => tryAlts (fun alt => zeroLength k (alt ++ s1.drop (i + 1))) (i + 1) (s1.take i)
        else if validatePattern s then .ok false else .err .badPattern

/-- The loop of `doMatchWithSeparator`, `generator/pattern/match.go:65-288`, limited to a number of rounds. -/
def matchLoop (rec : Bytes → MatchState → Res Bool) (p n : Bytes) : Nat → MatchState → Res Bool
  | 0, _ => .diverge
  | k + 1, st =>
    if st.name < n.length then
      match matchItem rec p n st (p.drop st.pat) with
      | .next st' => matchLoop rec p n k st'
      | .ret r => r
      | .stop q => match backtrack n st with
        | some st' => matchLoop rec p n k st'
        | none => if q < p.length ∧ ¬ validatePattern (p.drop q) then .err .badPattern else .ok false
    else zeroLength (p.length + 1) (p.drop st.pat)

/-- Rounds enough for any run. (`generator/pattern/match.go:61-277`) -/
def matchRounds (p n : Bytes) : Nat := (n.length + 1) * (p.length + 2) * (p.length + 2) * (n.length + 1) * (p.length + 1)

/-- `doMatchWithSeparator`, `generator/pattern/match.go:61`; the recursion through alternatives is limited to a depth. `startOfSegment` is set
at the beginning. -/
def doMatch (n : Bytes) : Nat → Bytes → MatchState → Res Bool
  | 0, _, _ => .diverge
  | k + 1, p, st => matchLoop (doMatch n k) p n (matchRounds p n) { st with sos := true }

/-- `Match`, `generator/pattern/match.go:53-59`. -/
def matchPattern (p n : Bytes) : Res Bool := doMatch n (p.length + 1) p { ds := none, star := none, pat := 0, name := 0, sos := true }

end Vtp
