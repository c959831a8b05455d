import Verif.Go.Unicode

/-! # Model of `wordbreak/punctuator/punctuator.go` -/

namespace Verif.Model
open Verif.Go

/-- The `for i, r := range word` loop of breakAtFunc (wordbreak/punctuator/punctuator.go:49-57), from
index `i` on. Returns the final `result` and `previous`. The same loop is repeated in
wordbreak/hyphenator/hyphenator.go:216-224 (SplitWord). -/
def breakAtLoop (isBreak : Rune → Bool) (word : List Rune) :
    List Rune → Nat → Nat → List (List Rune) → Res (List (List Rune) × Nat)
  | [], _, previous, result => .ok (result, previous)
  | r :: rest, i, previous, result =>
    if isBreak r then
      if i > 0 ∧ previous < word.length ∧ previous < i then do
        let part ← slice word previous i
        breakAtLoop isBreak word rest (i + 1) (i + 1) (result ++ [part] ++ [[r]])
      else
        breakAtLoop isBreak word rest (i + 1) (i + 1) (result ++ [[r]])
    else
      breakAtLoop isBreak word rest (i + 1) previous result

/-- `breakAtFunc` (wordbreak/punctuator/punctuator.go:45-64). Capacity hints are not modelled. -/
def breakAtFunc (word : List Rune) (isBreak : Rune → Bool) : Res (List (List Rune)) := do
  let (result, previous) ← breakAtLoop isBreak word word 0 0 []
  if previous < word.length then do
    let last ← slice word previous word.length
    return result ++ [last]
  else
    return result

/-- `punctSplitFunc` (wordbreak/punctuator/punctuator.go:40-42). `hyphens` is the set
`unicode.Hyphen`. -/
def punctSplitFunc (env : Env) (r : Rune) : Bool :=
  r == 0x7C || (env.isPunct r && !isHyphenRune r)

/-- `(*Punctuator).BreakWord` (wordbreak/punctuator/punctuator.go:36-38). -/
def punctuatorBreakWord (env : Env) (word : List Rune) : Res (List (List Rune)) :=
  breakAtFunc word (punctSplitFunc env)

/-- `IsPunctuation` (wordbreak/punctuator/punctuator.go:66-72). -/
def isPunctuation (env : Env) (word : List Rune) : Bool :=
  if word.length ≠ 1 then false
  else match word with
    | r :: _ => punctSplitFunc env r
    | [] => false

end Verif.Model
