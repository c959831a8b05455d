import Verif.Model.Linebreak

/-! # What a panic leaves behind

The functions of linebreak/linebreaker.go that push renderers once more, with the renderers that are in the list when
they return or panic: a caller may recover from the panic, for instance of a split function of theirs, and use the line
breaker again. The other fields that a call changes (`nodes`, `lineWidths`) are set again by the next call before they
are read (linebreak/linebreaker.go:82, 85). `Proofs/LBPanics` proves that the results are those of
`Model/Linebreak`. -/

namespace Verif.Model.LB
open Verif.Go Verif.Model

variable {F : Type} [Arith F]

/-- The renderers at the end of a call, and its result or panic (`attrList`, linebreak/linebreaker.go:217). -/
structure Left (α : Type) where
  attrs : AState
  res : Res α

/-- What comes next, after a call that returns: `;` of linebreak/linebreaker.go, where a panic ends the function. -/
def Left.andThen {α β : Type} (x : Left α) (f : α → Left β) : Left β :=
  match x.res with
  | .error e => ⟨x.attrs, .error e⟩
  | .ok a => f a

/-- `wordNodes` (linebreak/linebreaker.go:249-281). The calls that may panic come before any renderer is pushed: the
hyphenator, and `hyphenated[:len(hyphenated)-1]` when there is no part. -/
def wordNodesL (l : LineBreaker F) (word : List Rune) (s : TokState) : Left (List (Node F) × TokState) :=
  match wordNodes l word s with
  | .error e => ⟨s.list, .error e⟩
  | .ok p => ⟨p.2.list, .ok p⟩

/-- `wordsLoop` (linebreak/linebreaker.go:249-281). -/
def wordsLoopL (l : LineBreaker F) : List (List Rune) → TokState → Left (List (Node F) × TokState)
  | [], s => ⟨s.list, .ok ([], s)⟩
  | word :: rest, s =>
    (wordNodesL l word s).andThen fun p =>
      (wordsLoopL l rest p.2).andThen fun q => ⟨q.2.list, .ok (p.1 ++ q.1, q.2)⟩

/-- `partNodes` (linebreak/linebreaker.go:221-282). -/
def partNodesL (env : Env) (l : LineBreaker F) (part : List Rune) (s : TokState) : Left (List (Node F) × TokState) :=
  if isPunctuation env part then
    let p := markNodes l l.punctuationPenalty part s
    ⟨p.2.list, .ok p⟩
  else if !l.wordBreak || decide ((part.length : Int) ≤ l.minHyphenate) then
    let s := s.push part
    ⟨s.list, .ok ([s.box l part], s)⟩
  else match splitWord part with
    | .error e => ⟨s.list, .error e⟩
    | .ok words => wordsLoopL l words s

/-- `partsLoop` (linebreak/linebreaker.go:221-282). -/
def partsLoopL (env : Env) (l : LineBreaker F) : List (List Rune) → TokState → Left (List (Node F) × TokState)
  | [], s => ⟨s.list, .ok ([], s)⟩
  | part :: rest, s =>
    (partNodesL env l part s).andThen fun p =>
      (partsLoopL env l rest p.2).andThen fun q => ⟨q.2.list, .ok (p.1 ++ q.1, q.2)⟩

/-- `strippedLoop` (linebreak/linebreaker.go:216-285). A panic comes before the stop sequence of the token is given to
its last renderer (linebreak/linebreaker.go:284). -/
def strippedLoopL (env : Env) (l : LineBreaker F) (mem : List Rune) :
    List Ansi.StrippedToken → AState → Left (List (Node F) × AState)
  | [], attrs => ⟨attrs, .ok ([], attrs)⟩
  | stripped :: rest, attrs =>
    match callSplit l.punctuator (textRunes mem stripped.text) with
    | .error e => ⟨attrs, .error e⟩
    | .ok parts =>
      (partsLoopL env l parts ⟨false, none, fieldRunes mem stripped.start, fieldRunes mem stripped.stop, attrs⟩).andThen fun p =>
        (strippedLoopL env l mem rest p.2.close).andThen fun q => ⟨q.2, .ok (p.1 ++ q.1, q.2)⟩

/-- `boxNodes` (linebreak/linebreaker.go:213-288). -/
def boxNodesL (rt : Runtime) (env : Env) (l : LineBreaker F) (token : List Rune) (attrs : AState) :
    Left (List (Node F) × AState) :=
  match Ansi.stripToken env (token ++ rt.spare token) ⟨0, token.length⟩ with
  | .error e => ⟨attrs, .error e⟩
  | .ok r => strippedLoopL env l r.2 r.1 attrs

/-- `tokensLoop` (linebreak/linebreaker.go:311-335). -/
def tokensLoopL (rt : Runtime) (env : Env) (l : LineBreaker F) : List (List Rune) → AState → Left (List (Node F) × AState)
  | [], attrs => ⟨attrs, .ok ([], attrs)⟩
  | [word], attrs => (boxNodesL rt env l word attrs).andThen fun p => ⟨p.2, .ok (p.1 ++ endNodes, p.2)⟩
  | word :: rest, attrs =>
    (boxNodesL rt env l word attrs).andThen fun p =>
      (tokensLoopL rt env l rest p.2).andThen fun q => ⟨q.2, .ok (p.1 ++ gapNodes l ++ q.1, q.2)⟩

/-- `LeftAlignUniform` (linebreak/linebreaker.go:80-95): the line breaker after the call, which returns or panics, and
the lines. The search of break points and the rendering do not touch the list of renderers. -/
def alignL (rt : Runtime) (env : Env) (l : LineBreaker F) (tokens : List (List Rune)) (maxWidth : F) :
    LineBreaker F × Res (Option (List (List Rune))) :=
  let x := tokensLoopL rt env l tokens l.attrList
  ({ l with attrList := x.attrs }, do
    let p ← x.res
    let breakList ← breakPoints rt l.toOptions p.1 (l.scale maxWidth)
    match breakList with
    | none => return none
    | some chain => do
      let lines ← render l.toOptions p.2 p.1 chain
      return some lines)

end Verif.Model.LB
