import Verif.Model.Dictionary
import Verif.Model.Punctuator

/-! # Model of `wordbreak/hyphenator/hyphenator.go` -/

namespace Verif.Model
open Verif.Go

/-- The numerical `options` of a hyphenator (wordbreak/hyphenator/options.go:11-16). -/
structure HOptions where
  minLength : Int
  minLeft : Int
  minRight : Int

/-- `defaultOptions(nil)` (wordbreak/hyphenator/options.go:72-85). -/
def HOptions.default : HOptions := ⟨4, 2, 2⟩

/-- `containsHyphen` (hyphenator.go:186-194). -/
def containsHyphen : List Rune → Bool
  | [] => false
  | r :: rest => if isHyphenRune r then true else containsHyphen rest

/-- `IsHyphen` (hyphenator.go:196-202). -/
def isHyphen (word : List Rune) : Bool :=
  if word.length ≠ 1 then false
  else match word with
    | r :: _ => isHyphenRune r
    | [] => false

/-- `SplitWord` (hyphenator.go:212-231): its body is, word for word, the one of `breakAtFunc`
(punctuator.go:45-64) with the predicate `hyphens.Contains`. -/
def splitWord (word : List Rune) : Res (List (List Rune)) := breakAtFunc word isHyphenRune

/-- The loop `for i := start; i < len(word); i++` of isPattern (hyphenator.go:111-121) over the remaining
letters, returning the final `fragment` and `result`. -/
def isPatternLoop (env : Env) (patterns : Trie (List Int)) :
    List Rune → List Rune → List (List Int) → List Rune × List (List Int)
  | [], fragment, result => (fragment, result)
  | c :: rest, fragment, result =>
    let fragment := fragment ++ [env.toLower c]
    match patterns.get fragment with
    | none => isPatternLoop env patterns rest fragment result
    | some positions => isPatternLoop env patterns rest fragment (result ++ [positions])

/-- `isPattern` (hyphenator.go:95-131): the position arrays of the patterns that occur at `index` in
".word.". The boolean result is `len(result) > 0`. Buffer reuse (hyphenator.go:102-103) is not
modelled: buffers are emptied at each call. -/
def isPattern (env : Env) (patterns : Trie (List Int)) (index : Nat) (word : List Rune) :
    List (List Int) × Bool :=
  let (fragment, start) := if index = 0 then ([0x2E], 0) else (([] : List Rune), index - 1)
  let (fragment, result) := isPatternLoop env patterns (word.drop start) fragment []
  let fragment := fragment ++ [0x2E]
  let result := match patterns.get fragment with
    | none => result
    | some positions => result ++ [positions]
  (result, decide (result.length > 0))

/-- Growing of `positions` (hyphenator.go:147-152). -/
def growPositions (positions : List Int) (missing : Int) : List Int :=
  if missing > 0 then positions ++ List.replicate missing.toNat 0 else positions

/-- The inner loop of mergeBreakPoints (hyphenator.go:146-157) from `relativeAt` on. -/
def mergeOne (at_ : Nat) : List Int → Nat → List Int → Res (List Int)
  | [], _, positions => .ok positions
  | num :: rest, relativeAt, positions => do
    let positions := growPositions positions (at_ + relativeAt - positions.length + 1)
    let current ← index positions ((at_ + relativeAt : Nat) : Int)
    if num > current then
      mergeOne at_ rest (relativeAt + 1) (positions.set (at_ + relativeAt) num)
    else
      mergeOne at_ rest (relativeAt + 1) positions

/-- `mergeBreakPoints` (hyphenator.go:144-161). -/
def mergeBreakPoints : List Int → List (List Int) → Nat → Res (List Int)
  | positions, [], _ => .ok positions
  | positions, p :: rest, at_ => do
    let positions ← mergeOne at_ p 0 positions
    mergeBreakPoints positions rest at_

/-- The loop `for i := 0; i < wordLength; i++` of BreakWord (hyphenator.go:65-70), for `n` more rounds
starting at `i`. -/
def patternLoop (env : Env) (patterns : Trie (List Int)) (word : List Rune) :
    Nat → Nat → List Int → Res (List Int)
  | 0, _, positions => .ok positions
  | n + 1, i, positions =>
    let (allBreakPoints, hasPatterns) := isPattern env patterns i word
    if hasPatterns then do
      let positions ← mergeBreakPoints positions allBreakPoints i
      patternLoop env patterns word n (i + 1) positions
    else
      patternLoop env patterns word n (i + 1) positions

/-- The loop of splitAtPositions (hyphenator.go:168-179) from index `i` on. Go's `%` truncates. -/
def splitLoop (o : HOptions) (word : List Rune) (length : Nat) :
    List Int → Nat → Nat → List (List Rune) → Res (List (List Rune) × Nat)
  | [], _, previous, parts => .ok (parts, previous)
  | pos :: rest, i, previous, parts =>
    if pos = 0 ∨ Int.tmod pos 2 = 0 then
      splitLoop o word length rest (i + 1) previous parts
    else if (i : Int) - previous < o.minLeft ∨ (length : Int) - i < o.minRight then
      splitLoop o word length rest (i + 1) previous parts
    else do
      let part ← slice word previous i
      splitLoop o word length rest (i + 1) i (parts ++ [part])

/-- `splitAtPositions` (hyphenator.go:164-184). -/
def splitAtPositions (o : HOptions) (word : List Rune) (length : Nat) (positions : List Int) :
    Res (List (List Rune)) := do
  let (parts, previous) ← splitLoop o word length positions 0 0 []
  let last ← slice word previous word.length
  return parts ++ [last]

/-- The clean-up of positions (hyphenator.go:76-81). -/
def clearEdges (wordLength : Nat) (positions : List Int) : Res (List Int) := do
  let p0 ← index positions 0
  if p0 > 0 then return positions.set 0 0
  else if positions.length > wordLength then do
    let pl ← index positions (wordLength : Int)
    if pl > 0 then return positions.set wordLength 0 else return positions
  else return positions

/-- `BreakWord` (hyphenator.go:46-84), including `isException` (hyphenator.go:86-93). -/
def hyphenatorBreakWord (env : Env) (dict : Dictionary) (o : HOptions) (word : List Rune) :
    Res (List (List Rune)) :=
  let wordLength := word.length
  if containsHyphen word ∨ (wordLength : Int) < o.minLength then
    .ok [word]
  else match dict.exceptions.get word with
    | some breakPoints => splitAtPositions o word wordLength breakPoints
    | none => do
      let positions ← patternLoop env dict.patterns word wordLength 0 (List.replicate 30 0)
      let positions ← slice positions 1 ((positions.length : Int) - 1)
      let positions ← clearEdges wordLength positions
      splitAtPositions o word wordLength positions

end Verif.Model
