import Verif.Model.Fields
import Verif.Model.Hyphenator
import Verif.Model.Ansi

/-! # Where the parts of a text lie in memory

The functions of fields.go, tokenizer.go, punctuator.go and hyphenator.go that divide a slice of runes, once
more: here the argument is a window of an array `mem` which ends where the capacity of the argument ends, and
so are the parts. None of these functions writes to the array. The files `Model/Fields`, `Model/Punctuator`
and `Model/Hyphenator` have the same functions for a slice without unused capacity, where a part is the list of
its runes. -/

namespace Verif.Model
open Verif.Go Verif.Model.Ansi

/-- The loop of FieldsFunc (terminal/runes/fields.go:8-21), as `fieldsLoop`. -/
def fieldsLoopW (f : Rune → Bool) (mem : List Rune) (inp : View) :
    List Rune → Nat → Int → List View → Res (List View × Int)
  | [], _, start, tokens => .ok (tokens, start)
  | r :: rest, e, start, tokens =>
    if f r then
      if start ≥ 0 then do
        let part ← inp.sub mem start e
        fieldsLoopW f mem inp rest (e + 1) (compl start) (tokens ++ [part])
      else
        fieldsLoopW f mem inp rest (e + 1) start tokens
    else if start < 0 then
      fieldsLoopW f mem inp rest (e + 1) e tokens
    else
      fieldsLoopW f mem inp rest (e + 1) start tokens

/-- `runes.FieldsFunc` (terminal/runes/fields.go:4-29). -/
def fieldsFuncW (mem : List Rune) (inp : View) (f : Rune → Bool) : Res (List View) := do
  let (tokens, start) ← fieldsLoopW f mem inp (inp.elems mem) 0 (-1) []
  if start ≥ 0 then do
    let last ← inp.sub mem start inp.len
    return tokens ++ [last]
  else
    return tokens

/-- `(*Tokenizer).BreakWord` (wordbreak/tokenizer/tokenizer.go:23-25). -/
def tokenizerBreakWordW (mem : List Rune) (word : View) : Res (List View) := fieldsFuncW mem word isSpace

/-- The loop of breakAtFunc (wordbreak/punctuator/punctuator.go:49-57) and of SplitWord
(wordbreak/hyphenator/hyphenator.go:216-224), as `breakAtLoop`: `[]rune{r}` is a new slice. -/
def breakAtLoopW (isBreak : Rune → Bool) (mem : List Rune) (word : View) :
    List Rune → Nat → Nat → List Sl → Res (List Sl × Nat)
  | [], _, previous, result => .ok (result, previous)
  | r :: rest, i, previous, result =>
    if isBreak r then
      if i > 0 ∧ previous < word.len ∧ previous < i then do
        let part ← word.sub mem previous i
        breakAtLoopW isBreak mem word rest (i + 1) (i + 1) (result ++ [.view part] ++ [.fresh [r]])
      else
        breakAtLoopW isBreak mem word rest (i + 1) (i + 1) (result ++ [.fresh [r]])
    else
      breakAtLoopW isBreak mem word rest (i + 1) previous result

/-- `breakAtFunc` (wordbreak/punctuator/punctuator.go:45-64). -/
def breakAtFuncW (mem : List Rune) (word : View) (isBreak : Rune → Bool) : Res (List Sl) := do
  let (result, previous) ← breakAtLoopW isBreak mem word (word.elems mem) 0 0 []
  if previous < word.len then do
    let last ← word.sub mem previous word.len
    return result ++ [.view last]
  else
    return result

/-- `(*Punctuator).BreakWord` (wordbreak/punctuator/punctuator.go:36-38). -/
def punctuatorBreakWordW (env : Env) (mem : List Rune) (word : View) : Res (List Sl) :=
  breakAtFuncW mem word (punctSplitFunc env)

/-- `SplitWord` (wordbreak/hyphenator/hyphenator.go:212-231). -/
def splitWordW (mem : List Rune) (word : View) : Res (List Sl) := breakAtFuncW mem word isHyphenRune

/-- The loop of splitAtPositions (hyphenator.go:168-179), as `splitLoop`. -/
def splitLoopW (o : HOptions) (mem : List Rune) (word : View) (length : Nat) :
    List Int → Nat → Nat → List View → Res (List View × Nat)
  | [], _, previous, parts => .ok (parts, previous)
  | pos :: rest, i, previous, parts =>
    if pos = 0 ∨ Int.tmod pos 2 = 0 then
      splitLoopW o mem word length rest (i + 1) previous parts
    else if (i : Int) - previous < o.minLeft ∨ (length : Int) - i < o.minRight then
      splitLoopW o mem word length rest (i + 1) previous parts
    else do
      let part ← word.sub mem previous i
      splitLoopW o mem word length rest (i + 1) i (parts ++ [part])

/-- `splitAtPositions` (hyphenator.go:164-184). -/
def splitAtPositionsW (o : HOptions) (mem : List Rune) (word : View) (length : Nat) (positions : List Int) :
    Res (List View) := do
  let (parts, previous) ← splitLoopW o mem word length positions 0 0 []
  let last ← word.sub mem previous word.len
  return parts ++ [last]

/-- `BreakWord` (hyphenator.go:46-84), as `hyphenatorBreakWord`. -/
def hyphenatorBreakWordW (env : Env) (dict : Dictionary) (o : HOptions) (mem : List Rune) (word : View) :
    Res (List View) :=
  let runes := word.elems mem
  let wordLength := word.len
  if containsHyphen runes ∨ (wordLength : Int) < o.minLength then
    .ok [word]
  else match dict.exceptions.get runes with
    | some breakPoints => splitAtPositionsW o mem word wordLength breakPoints
    | none => do
      let positions ← patternLoop env dict.patterns runes wordLength 0 (List.replicate 30 0)
      let positions ← slice positions 1 ((positions.length : Int) - 1)
      let positions ← clearEdges wordLength positions
      splitAtPositionsW o mem word wordLength positions

/-- `append(s, rs...)` (Go language) for a window `s` of the array: the slice and the array after the call. The
runes are written in place if the capacity allows, otherwise all is copied to a new array. -/
def appendRunes (mem : List Rune) (v : View) (rs : List Rune) : Sl × List Rune :=
  if v.off + v.len + rs.length ≤ mem.length then
    (.view ⟨v.off, v.len + rs.length⟩,
      mem.take (v.off + v.len) ++ rs ++ mem.drop (v.off + v.len + rs.length))
  else (.fresh (v.elems mem ++ rs), mem)

end Verif.Model
