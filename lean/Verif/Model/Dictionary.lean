import Verif.Model.Trie
import Verif.Model.Fields

/-! # Model of `wordbreak/hyphenator/dictionary.go`

Strings are lists of runes (the files are valid UTF-8). -/

namespace Verif.Model
open Verif.Go

/-- `Dictionary` (wordbreak/hyphenator/dictionary.go:30-34). Values of type `[]int` are stored behind an
interface: a stored nil slice is a non-nil value, i.e. `some []`. -/
structure Dictionary where
  exceptions : Trie (List Int)
  patterns : Trie (List Int)
  identifier : List Rune

/-- `strings.HasPrefix` (Go library; hyphenator/dictionary.go:38-40, 111, 115). -/
def hasPrefix (line pre : List Rune) : Bool := pre.isPrefixOf line

/-- `isTeXComment` (dictionary.go:36-41): empty, or starts with `%`, `\` or `}`. -/
def isTeXComment (line : List Rune) : Bool :=
  line.length == 0 || hasPrefix line [0x25] || hasPrefix line [0x5C] || hasPrefix line [0x7D]

/-- `atoiRune` (dictionary.go:138-163). -/
def atoiRune (r : Rune) : Int :=
  if r = 0x30 then 0
  else if r = 0x31 then 1
  else if r = 0x32 then 2
  else if r = 0x33 then 3
  else if r = 0x34 then 4
  else if r = 0x35 then 5
  else if r = 0x36 then 6
  else if r = 0x37 then 7
  else if r = 0x38 then 8
  else if r = 0x39 then 9
  else 0

/-- The loop of readPattern (dictionary.go:171-187), with its state `wasdigit`, `pattern`, `positions`. -/
def readPatternLoop (env : Env) : List Rune → Bool → List Rune → List Int → List Rune × List Int
  | [], _, pattern, positions => (pattern, positions)
  | char :: rest, wasdigit, pattern, positions =>
    if env.isDigit char then
      readPatternLoop env rest true pattern (positions ++ [atoiRune char])
    else if wasdigit then
      readPatternLoop env rest false (pattern ++ [env.toLower char]) positions
    else
      readPatternLoop env rest false (pattern ++ [env.toLower char]) (positions ++ [0])

/-- `readPattern` (dictionary.go:166-190). -/
def readPattern (env : Env) (line : List Rune) : List Rune × List Int :=
  readPatternLoop env line false [] []

/-- The loop of readException (dictionary.go:207-217). -/
def readExceptionLoop : List Rune → Bool → List Int → List Int
  | [], _, positions => positions
  | char :: rest, washyphen, positions =>
    if isHyphenRune char then readExceptionLoop rest true (positions ++ [1])
    else if washyphen then readExceptionLoop rest false positions
    else readExceptionLoop rest false (positions ++ [0])

/-- `readException` (dictionary.go:199-221). `strings.ReplaceAll(line, "-", "")` removes the ASCII
hyphens; `strings.ToLower` maps `unicode.ToLower`. -/
def readException (env : Env) (line : List Rune) : List Rune × List Int :=
  if isTeXComment line then ([], [])
  else
    let positions := readExceptionLoop line false []
    let word := (line.filter (fun r => r ≠ 0x2D)).map env.toLower
    (word, positions)

/-- The literal `\message{` (dictionary.go:88). -/
def messageSection : List Rune := [0x5C, 0x6D, 0x65, 0x73, 0x73, 0x61, 0x67, 0x65, 0x7B]

/-- The literal `\hyphenation{` (dictionary.go:89). -/
def exceptionsSection : List Rune :=
  [0x5C, 0x68, 0x79, 0x70, 0x68, 0x65, 0x6E, 0x61, 0x74, 0x69, 0x6F, 0x6E, 0x7B]

/-- The inner loop over the exceptions section (dictionary.go:117-120): runs to the end of the file. -/
def loadExceptions (env : Env) : List (List Rune) → Dictionary → Dictionary
  | [], dict => dict
  | line :: rest, dict =>
    let (word, positions) := readException env line
    loadExceptions env rest
      { dict with exceptions := (dict.exceptions.put word (some positions)).1 }

/-- The loop over the patterns of a line (dictionary.go:129-131). -/
def putPatterns (env : Env) : List (List Rune) → Trie (List Int) → Trie (List Int)
  | [], t => t
  | p :: rest, t =>
    let (pattern, positions) := readPattern env p
    putPatterns env rest (t.put pattern (some positions)).1

/-- The scanning loop of LoadPatterns (dictionary.go:107-133), over the lines of the file.
`strings.Fields` is `FieldsFunc` with `unicode.IsSpace`. -/
def loadLines (env : Env) : List (List Rune) → Dictionary → Res Dictionary
  | [], dict => .ok dict
  | line :: rest, dict =>
    if hasPrefix line messageSection then
      loadLines env rest { dict with identifier := line.drop messageSection.length }
    else if hasPrefix line exceptionsSection then
      .ok (loadExceptions env rest dict)
    else if isTeXComment line then
      loadLines env rest dict
    else do
      let patterns ← fieldsFunc line isSpace
      loadLines env rest { dict with patterns := putPatterns env patterns dict.patterns }

/-- `LoadPatterns` (dictionary.go:86-136), from the lines of an existing file. File access,
`bufio.Scanner` (line splitting) are not modelled; the default identifier is a parameter. -/
def loadPatterns (env : Env) (defaultId : List Rune) (lines : List (List Rune)) : Res Dictionary :=
  loadLines env lines ⟨Trie.empty, Trie.empty, defaultId⟩

end Verif.Model
