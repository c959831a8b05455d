import Verif.Model.Hyphenator
import Verif.Model.Steps

/-! # Steps taken to hyphenate a word

The functions of wordbreak/hyphenator/hyphenator.go once more, with a count of the rounds of all their loops, those of
the lookups in tries included. `Proofs/HyphSteps` proves that the results are those of `Model/Hyphenator`. -/

namespace Verif.Model
open Verif.Go
open Verif.Model.LB (Counted)

/-- `Get` (internal/trie/rune_trie.go:19-29), with the rounds of its loop. -/
def Trie.getC {V : Type} : List Rune → Trie V → Nat × Option V
  | [], t => (0, t.value)
  | r :: key, t =>
    match childGet r t.children with
    | none => (1, none)
    | some child => ((getC key child).1 + 1, (getC key child).2)

/-- `containsHyphen` (hyphenator.go:186-194), with its rounds. -/
def containsHyphenC : List Rune → Nat × Bool
  | [] => (0, false)
  | r :: rest => if isHyphenRune r then (1, true) else ((containsHyphenC rest).1 + 1, (containsHyphenC rest).2)

/-- `isPatternLoop`, the loop of isPattern (hyphenator.go:111-121), with its rounds. -/
def isPatternLoopC (env : Env) (patterns : Trie (List Int)) :
    List Rune → List Rune → List (List Int) → Nat × List Rune × List (List Int)
  | [], fragment, result => (0, fragment, result)
  | c :: rest, fragment, result =>
    let fragment := fragment ++ [env.toLower c]
    let g := patterns.getC fragment
    let r := match g.2 with
      | none => isPatternLoopC env patterns rest fragment result
      | some positions => isPatternLoopC env patterns rest fragment (result ++ [positions])
    (1 + g.1 + r.1, r.2)

/-- `isPattern` (hyphenator.go:95-131), with its rounds. -/
def isPatternC (env : Env) (patterns : Trie (List Int)) (index : Nat) (word : List Rune) :
    Nat × List (List Int) × Bool :=
  let f : List Rune × Nat := if index = 0 then ([0x2E], 0) else ([], index - 1)
  let r := isPatternLoopC env patterns (word.drop f.2) f.1 []
  let g := patterns.getC (r.2.1 ++ [0x2E])
  let result := match g.2 with
    | none => r.2.2
    | some positions => r.2.2 ++ [positions]
  (r.1 + g.1, result, decide (result.length > 0))

/-- `mergeOne`, the inner loop of mergeBreakPoints (hyphenator.go:146-157), with its rounds and those of the loop that
grows the positions (hyphenator.go:149-151). -/
def mergeOneC (at_ : Nat) : List Int → Nat → List Int → Counted (List Int)
  | [], _, positions => .of (.ok positions)
  | num :: rest, relativeAt, positions =>
    let missing : Int := at_ + relativeAt - positions.length + 1
    let positions := growPositions positions missing
    let r := (Counted.of (index positions ((at_ + relativeAt : Nat) : Int))).andThen (fun current =>
      if num > current then mergeOneC at_ rest (relativeAt + 1) (positions.set (at_ + relativeAt) num)
      else mergeOneC at_ rest (relativeAt + 1) positions)
    ⟨1 + missing.toNat + r.steps, r.res⟩

/-- `mergeBreakPoints` (hyphenator.go:144-161), with its rounds. -/
def mergeBreakPointsC : List Int → List (List Int) → Nat → Counted (List Int)
  | positions, [], _ => .of (.ok positions)
  | positions, p :: rest, at_ =>
    ((mergeOneC at_ p 0 positions).andThen (fun positions => mergeBreakPointsC positions rest at_)).round

/-- `patternLoop`, the loop of BreakWord (hyphenator.go:65-70), with its rounds. -/
def patternLoopC (env : Env) (patterns : Trie (List Int)) (word : List Rune) :
    Nat → Nat → List Int → Counted (List Int)
  | 0, _, positions => .of (.ok positions)
  | n + 1, i, positions =>
    let p := isPatternC env patterns i word
    let r := if p.2.2 then
        (mergeBreakPointsC positions p.2.1 i).andThen (fun positions => patternLoopC env patterns word n (i + 1) positions)
      else patternLoopC env patterns word n (i + 1) positions
    ⟨1 + p.1 + r.steps, r.res⟩

/-- `splitLoop`, the loop of splitAtPositions (hyphenator.go:168-179), with its rounds. -/
def splitLoopC (o : HOptions) (word : List Rune) (length : Nat) :
    List Int → Nat → Nat → List (List Rune) → Counted (List (List Rune) × Nat)
  | [], _, previous, parts => .of (.ok (parts, previous))
  | pos :: rest, i, previous, parts =>
    (if pos = 0 ∨ Int.tmod pos 2 = 0 then splitLoopC o word length rest (i + 1) previous parts
    else if (i : Int) - previous < o.minLeft ∨ (length : Int) - i < o.minRight then
      splitLoopC o word length rest (i + 1) previous parts
    else (Counted.of (slice word previous i)).andThen (fun part =>
      splitLoopC o word length rest (i + 1) i (parts ++ [part]))).round

/-- `splitAtPositions` (hyphenator.go:164-184), with its rounds. -/
def splitAtPositionsC (o : HOptions) (word : List Rune) (length : Nat) (positions : List Int) :
    Counted (List (List Rune)) :=
  (splitLoopC o word length positions 0 0 []).andThen (fun r =>
    .of (do
      let last ← slice word r.2 word.length
      return r.1 ++ [last]))

/-- `BreakWord` (hyphenator.go:46-84), with the rounds of all loops. -/
def hyphenatorBreakWordC (env : Env) (dict : Dictionary) (o : HOptions) (word : List Rune) :
    Counted (List (List Rune)) :=
  let h := containsHyphenC word
  if h.2 ∨ (word.length : Int) < o.minLength then ⟨h.1, .ok [word]⟩
  else
    let e := dict.exceptions.getC word
    match e.2 with
    | some breakPoints =>
      let r := splitAtPositionsC o word word.length breakPoints
      ⟨h.1 + e.1 + r.steps, r.res⟩
    | none =>
      let r := (patternLoopC env dict.patterns word word.length 0 (List.replicate 30 0)).andThen (fun positions =>
        (Counted.of (do
          let positions ← slice positions 1 ((positions.length : Int) - 1)
          clearEdges word.length positions)).andThen (fun positions => splitAtPositionsC o word word.length positions))
      ⟨h.1 + e.1 + r.steps, r.res⟩

end Verif.Model
