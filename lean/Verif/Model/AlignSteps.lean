import Verif.Model.AnsiSteps
import Verif.Model.HyphSteps
import Verif.Model.RenderSteps

/-! # Steps of a call of LeftAlignUniform

The functions of linebreak/linebreaker.go that make nodes of words, and the ones that divide words at a rune, once
more, with a count of the rounds of their loops. `Proofs/AlignSteps` proves that the results are those of
`Model/Linebreak`. -/

namespace Verif.Model
open Verif.Go
open Verif.Model.LB (Counted)

/-- `breakAtLoop`, the loop of breakAtFunc (wordbreak/punctuator/punctuator.go:49-57) and of SplitWord
(wordbreak/hyphenator/hyphenator.go:216-224), with its rounds. -/
def breakAtLoopC (isBreak : Rune → Bool) (word : List Rune) :
    List Rune → Nat → Nat → List (List Rune) → Counted (List (List Rune) × Nat)
  | [], _, previous, result => .of (.ok (result, previous))
  | r :: rest, i, previous, result =>
    (if isBreak r then
      if i > 0 ∧ previous < word.length ∧ previous < i then
        (Counted.of (slice word previous i)).andThen fun part =>
          breakAtLoopC isBreak word rest (i + 1) (i + 1) (result ++ [part] ++ [[r]])
      else
        breakAtLoopC isBreak word rest (i + 1) (i + 1) (result ++ [[r]])
    else
      breakAtLoopC isBreak word rest (i + 1) previous result).round

/-- `breakAtFunc` (wordbreak/punctuator/punctuator.go:45-64), with its rounds. -/
def breakAtFuncC (word : List Rune) (isBreak : Rune → Bool) : Counted (List (List Rune)) :=
  (breakAtLoopC isBreak word word 0 0 []).andThen fun r =>
    .of (if r.2 < word.length then do
      let last ← slice word r.2 word.length
      return r.1 ++ [last]
    else
      return r.1)

namespace LB
variable {F : Type} [Arith F]

/-- Split functions (called in linebreak/linebreaker.go:221, 265) that count their rounds. -/
abbrev SplitFuncC := List Rune → Counted (List (List Rune))

/-- `wordNodes` (linebreak/linebreaker.go:249-281), with a round for each part but the last. `hc` is the hyphenator. -/
def wordNodesC (hc : SplitFuncC) (l : LineBreaker F) (word : List Rune) (s : TokState) :
    Counted (List (Node F) × TokState) :=
  if isHyphen word then .of (.ok (markNodes l l.hardHyphenPenalty word s))
  else
    (hc word).andThen fun hyphenated =>
      (Counted.of (slice hyphenated 0 ((hyphenated.length : Int) - 1))).andThen fun parts =>
        ⟨parts.length, do
          let p := softLoop l parts s
          let lastPart ← index hyphenated ((hyphenated.length : Int) - 1)
          let s := p.2.push lastPart
          return (p.1 ++ [s.box l lastPart], s)⟩

/-- `wordsLoop` (linebreak/linebreaker.go:249-281), with its rounds. -/
def wordsLoopC (hc : SplitFuncC) (l : LineBreaker F) : List (List Rune) → TokState → Counted (List (Node F) × TokState)
  | [], s => .of (.ok ([], s))
  | word :: rest, s =>
    ((wordNodesC hc l word s).andThen fun p =>
      (wordsLoopC hc l rest p.2).andThen fun q =>
        .of (.ok (p.1 ++ q.1, q.2))).round

/-- `partNodes` (linebreak/linebreaker.go:221-282), with its rounds, those of SplitWord included. -/
def partNodesC (hc : SplitFuncC) (env : Env) (l : LineBreaker F) (part : List Rune) (s : TokState) :
    Counted (List (Node F) × TokState) :=
  if isPunctuation env part then .of (.ok (markNodes l l.punctuationPenalty part s))
  else if !l.wordBreak || decide ((part.length : Int) ≤ l.minHyphenate) then
    let s := s.push part
    .of (.ok ([s.box l part], s))
  else
    (breakAtFuncC part isHyphenRune).andThen fun words => wordsLoopC hc l words s

/-- `partsLoop` (linebreak/linebreaker.go:221-282), with its rounds. -/
def partsLoopC (hc : SplitFuncC) (env : Env) (l : LineBreaker F) :
    List (List Rune) → TokState → Counted (List (Node F) × TokState)
  | [], s => .of (.ok ([], s))
  | part :: rest, s =>
    ((partNodesC hc env l part s).andThen fun p =>
      (partsLoopC hc env l rest p.2).andThen fun q =>
        .of (.ok (p.1 ++ q.1, q.2))).round

/-- `strippedLoop` (linebreak/linebreaker.go:216-285), with its rounds. `pc` is the punctuator. -/
def strippedLoopC (pc hc : SplitFuncC) (env : Env) (l : LineBreaker F) (mem : List Rune) :
    List Ansi.StrippedToken → AState → Counted (List (Node F) × AState)
  | [], attrs => .of (.ok ([], attrs))
  | stripped :: rest, attrs =>
    ((pc (textRunes mem stripped.text)).andThen fun parts =>
      (partsLoopC hc env l parts ⟨false, none, fieldRunes mem stripped.start, fieldRunes mem stripped.stop, attrs⟩).andThen fun p =>
        (strippedLoopC pc hc env l mem rest p.2.close).andThen fun q =>
          .of (.ok (p.1 ++ q.1, q.2))).round

/-- `boxNodes` (linebreak/linebreaker.go:213-288), with its rounds, those of StripToken included. -/
def boxNodesC (pc hc : SplitFuncC) (rt : Runtime) (env : Env) (l : LineBreaker F) (token : List Rune) (attrs : AState) :
    Counted (List (Node F) × AState) :=
  (Ansi.stripTokenC env (token ++ rt.spare token) ⟨0, token.length⟩).andThen fun r =>
    strippedLoopC pc hc env l r.2 r.1 attrs

/-- `tokensLoop` (linebreak/linebreaker.go:311-335), with its rounds. -/
def tokensLoopC (pc hc : SplitFuncC) (rt : Runtime) (env : Env) (l : LineBreaker F) :
    List (List Rune) → AState → Counted (List (Node F) × AState)
  | [], attrs => .of (.ok ([], attrs))
  | [word], attrs =>
    ((boxNodesC pc hc rt env l word attrs).andThen fun p => .of (.ok (p.1 ++ endNodes, p.2))).round
  | word :: rest, attrs =>
    ((boxNodesC pc hc rt env l word attrs).andThen fun p =>
      (tokensLoopC pc hc rt env l rest p.2).andThen fun q =>
        .of (.ok (p.1 ++ gapNodes l ++ q.1, q.2))).round

/-- `leftAlignUniform` (linebreak/linebreaker.go:80-95), with the rounds of all loops. Calls of the measurer are not
counted. -/
def alignC (pc hc : SplitFuncC) (rt : Runtime) (env : Env) (l : LineBreaker F) (tokens : List (List Rune))
    (maxWidth : F) : Counted (Option (List (List Rune)) × LineBreaker F) :=
  (tokensLoopC pc hc rt env l tokens l.attrList).andThen fun p =>
    (breakPointsC rt l.toOptions p.1 (l.scale maxWidth)).andThen fun breakList =>
      match breakList with
      | none => .of (.ok (none, { l with attrList := p.2 }))
      | some chain =>
        (renderC l.toOptions p.2 p.1 chain).andThen fun lines => .of (.ok (some lines, { l with attrList := p.2 }))

/-- The default punctuator (linebreak/linebreaker.go:63-67), with its rounds. -/
def punctuatorC (env : Env) : SplitFuncC := fun word => breakAtFuncC word (punctSplitFunc env)

/-- The default hyphenator (linebreak/linebreaker.go:54-61), with its rounds. -/
def hyphenatorC (env : Env) (dict : Dictionary) (l : LineBreaker F) : SplitFuncC :=
  hyphenatorBreakWordC env dict { HOptions.default with minLength := l.minHyphenate }

end LB
end Verif.Model
