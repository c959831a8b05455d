import Verif.Model.Scanner

/-! # Model of `wordbreak/hyphenator/languages/strip_comments.go`

This program makes the pattern files that come with the package out of the files of TeX. The file is UTF-8: a line
is the list of its runes. Opening, creating and walking files are not modelled. -/

namespace Verif.Model
open Verif.Go

/-- The class `\s` of Go's regular expressions (Go library `regexp/syntax`): `[\t\n\f\r ]`. -/
def reSpace (r : Rune) : Bool := r == 0x09 || r == 0x0A || r == 0x0C || r == 0x0D || r == 0x20

/-- The rest of a line matches `\s*%.*$` (strip_comments.go:16). There is no line feed in a line, so that `.*` matches
all that remains. -/
def matchesComment (l : List Rune) : Bool := (l.dropWhile reSpace).head? == some 0x25

/-- The group of `^(.+?)\s*%.*$` (strip_comments.go:16), after the runes `cur` have been tried: the least number of
runes, one at least, such that the rest matches. -/
def commentGroup : List Rune → List Rune → Option (List Rune)
  | _, [] => none
  | cur, c :: rest => if matchesComment rest then some (cur ++ [c]) else commentGroup (cur ++ [c]) rest

/-- `texComment.ReplaceAllString(line, "$1")` (strip_comments.go:56): a match is the whole line. -/
def replaceComment (line : List Rune) : List Rune := (commentGroup [] line).getD line

/-- `strings.TrimSpace` (Go library). -/
def trimSpace (l : List Rune) : List Rune := ((l.dropWhile isSpace).reverse.dropWhile isSpace).reverse

/-- `isTeXComment` of this program (strip_comments.go:64-67). -/
def isTeXCommentLine (line : List Rune) : Bool := line.length == 0 || hasPrefix line [0x25]

/-- The loop of strip (strip_comments.go:48-59): the bytes written. The first argument bounds the number of lines. -/
def stripLoop : Nat → Scanner → List Nat → List Nat
  | 0, _, out => out
  | fuel + 1, s, out =>
    match scan s with
    | (none, _) => out
    | (some token, s) =>
      let line := stringRunes token
      if isTeXCommentLine line then stripLoop fuel s out
      else stripLoop fuel s (out ++ (trimSpace (replaceComment line)).flatMap encodeRune ++ [0x0A])

/-- `strip` (strip_comments.go:30-62): from the bytes of the file to those of the new one. -/
def stripFile (data : List Nat) : List Nat := stripLoop (data.length + 1) (newScanner data) []

end Verif.Model
