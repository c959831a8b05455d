import Verif.Go.Unicode

/-! # Specification of pattern files

Stated on the lines of a file, as lists of runes. -/

namespace Verif.Spec
open Verif.Go

/-- The words of a line: what lies between white space. -/
noncomputable def words (line : List Rune) : List (List Rune) :=
  (line.splitOnP isSpace).filter (fun w => decide (w ≠ []))

/-- The value of an ASCII digit (other digits count 0). -/
def digitVal (r : Rune) : Int := if 0x30 ≤ r ∧ r ≤ 0x39 then r - 0x30 else 0

/-- Reads marks written between letters: each mark gives its value, and each letter that does not
follow a mark gives 0. -/
def gapMarks (isMark : Rune → Bool) (val : Rune → Int) (s : List Rune) : List Int :=
  ((false :: s.map isMark).zip s).filterMap fun (afterMark, c) =>
    if isMark c then some (val c) else if afterMark then none else some 0

/-- The letters of a pattern: its non-digits, in lower case. -/
def patternLetters (env : Env) (p : List Rune) : List Rune :=
  (p.filter (fun c => !env.isDigit c)).map env.toLower

/-- The values of a pattern. -/
def patternValues (env : Env) (p : List Rune) : List Int := gapMarks env.isDigit digitVal p

/-- A line that is neither a pattern nor an exception. -/
def isComment : List Rune → Bool
  | [] => true
  | c :: _ => c == 0x25 || c == 0x5C || c == 0x7D

/-- The line opens the section of exceptions: it starts with `\hyphenation{`. -/
def isMarker (line : List Rune) : Bool := (runesOf "\\hyphenation{").isPrefixOf line

/-- The patterns of a file: all words of its non-comment lines, up to the exceptions. -/
noncomputable def patternEntries (env : Env) (lines : List (List Rune)) :
    List (List Rune × List Int) :=
  (((lines.takeWhile (fun l => !isMarker l)).filter (fun l => !isComment l)).flatMap words).map
    fun p => (patternLetters env p, patternValues env p)

/-- The word and the break values of a line of the exceptions section (a comment line stands for
the empty word). -/
def exceptionEntry (env : Env) (line : List Rune) : List Rune × List Int :=
  if isComment line then ([], [])
  else ((line.filter (fun r => r ≠ 0x2D)).map env.toLower, gapMarks isHyphenRune (fun _ => 1) line)

/-- The exceptions of a file: all lines after the marker. -/
def exceptionEntries (env : Env) (lines : List (List Rune)) : List (List Rune × List Int) :=
  ((lines.dropWhile (fun l => !isMarker l)).drop 1).map (exceptionEntry env)

/-- The characters of the shipped patterns: digits, the letters of the supported languages in lower case
(a to z, ß to ÿ, œ), the full stop that stands for the ends of a word, and the apostrophe. -/
def PatternRune (r : Rune) : Prop :=
  (0x30 ≤ r ∧ r ≤ 0x39) ∨ (0x61 ≤ r ∧ r ≤ 0x7A) ∨ r = 0x2E ∨ r = 0x27 ∨ (0xDF ≤ r ∧ r ≤ 0xFF) ∨ r = 0x153

/-- What the theorems on the shipped patterns suppose of the Unicode functions: among these characters and
the closing brace, the digits are those of ASCII, and there is no capital letter. -/
def UsualRunes (env : Env) : Prop :=
  ∀ r, PatternRune r ∨ r = 0x7D → env.isDigit r = decide (0x30 ≤ r ∧ r ≤ 0x39) ∧ env.toLower r = r

/-- The last definition of a key. -/
def lastDef (entries : List (List Rune × List Int)) (k : List Rune) : Option (List Int) :=
  (entries.reverse.find? (fun e => e.1 == k)).map (·.2)

end Verif.Spec
