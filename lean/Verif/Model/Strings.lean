import Verif.Model.Writer
import Verif.Model.Fields
import Verif.Model.Linebreak

/-! # Calls on strings

`LeftAlignUniform` and `BreakWordString` take strings. The other definitions are about the runes they are
converted to. -/

namespace Verif.Model
open Verif.Go

/-- `(*Tokenizer).BreakWordString` (wordbreak/tokenizer/tokenizer.go:28-30). -/
def tokenizerBreakWordString (s : List Nat) : Res (List (List Rune)) := tokenizerBreakWord (stringRunes s)

namespace LB

/-- `LeftAlignUniform` (linebreak/linebreaker.go:80-95) on strings: tokens are converted to runes
(linebreak/linebreaker.go:320, 330), and each line is a `strings.Builder` written through a rune writer
(linebreak/linebreaker.go:155-156, 188). The texts of a line are written by several calls of WriteRunes; in
the model there is one, which writes the same bytes. -/
def leftAlignStrings [Arith F] (rt : Runtime) (env : Env) (l : LineBreaker F) (tokens : List (List Nat)) (maxWidth : F) :
    Res (Option (List (List Nat)) × LineBreaker F) := do
  let p ← leftAlignUniform rt env l (tokens.map stringRunes) maxWidth
  return (p.1.map (fun lines => lines.map (fun line => writeRunesLoop line [])), p.2)

end LB

end Verif.Model
