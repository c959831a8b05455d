import Verif.Go.Unicode

/-! # Model of `terminal/runes/fields.go` and `wordbreak/tokenizer/tokenizer.go` -/

namespace Verif.Model
open Verif.Go

/-- One run of the `for end, r := range in` loop of FieldsFunc
(terminal/runes/fields.go:8-21), from index `e` on; `rest` is what remains to range over. The result
is the final value of `tokens` and `start`. The capacity given to `make` is not modelled. -/
def fieldsLoop (f : Rune → Bool) (inp : List Rune) :
    List Rune → Nat → Int → List (List Rune) → Res (List (List Rune) × Int)
  | [], _, start, tokens => .ok (tokens, start)
  | r :: rest, e, start, tokens =>
    if f r then
      if start ≥ 0 then do
        let part ← slice inp start e
        fieldsLoop f inp rest (e + 1) (compl start) (tokens ++ [part])
      else
        fieldsLoop f inp rest (e + 1) start tokens
    else if start < 0 then
      fieldsLoop f inp rest (e + 1) e tokens
    else
      fieldsLoop f inp rest (e + 1) start tokens

/-- `runes.FieldsFunc` (terminal/runes/fields.go:4-29). The final re-slicing of `tokens` only limits
its capacity and is not modelled. -/
def fieldsFunc (inp : List Rune) (f : Rune → Bool) : Res (List (List Rune)) := do
  let (tokens, start) ← fieldsLoop f inp inp 0 (-1) []
  if start ≥ 0 then do
    let last ← slice inp start inp.length
    return tokens ++ [last]
  else
    return tokens

/-- `(*Tokenizer).BreakWord` (wordbreak/tokenizer/tokenizer.go:23-25). -/
def tokenizerBreakWord (word : List Rune) : Res (List (List Rune)) :=
  fieldsFunc word isSpace

end Verif.Model
