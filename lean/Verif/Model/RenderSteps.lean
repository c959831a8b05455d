import Verif.Model.Steps

/-! # Steps taken to render lines

The functions of attributes/state.go that write the sequences around lines, and `render` of linebreak/linebreaker.go,
once more, with a count of the rounds of all their loops. `Proofs/RenderSteps` proves that the results are those of
`Model/Attributes` and `Model/Linebreak`. What the writer does for each rune is not counted. -/

namespace Verif.Model
open Verif.Go

/-- `backtrackLoop`, the loop of backtrack (attributes/state.go:112-124), with its rounds. -/
def backtrackLoopC (s : AState) (level : Int) : Nat → Nat × Nat
  | 0 => (1, 0)
  | k + 1 => match s[k]? with
    | none => (1, k + 1)
    | some attr => if attr.level < level then (1, k + 1)
      else ((backtrackLoopC s level k).1 + 1, (backtrackLoopC s level k).2)

/-- `startLoop`, the loop of StartOfLine (attributes/state.go:148-158), with its rounds. -/
def startLoopC (s : AState) : Nat → Nat → List Rune → Nat × List Rune
  | n, k, out => match s[k]? with
    | none => (0, out)
    | some attr =>
      let out := attr.writeStart out
      match n with
      | 0 => (1, out)
      | n + 1 => ((startLoopC s n (k + 1) out).1 + 1, (startLoopC s n (k + 1) out).2)

/-- `StartOfLine` (attributes/state.go:130-159), with its rounds and those of backtrack. -/
def AIter.startOfLineC (s : AState) (i : AIter) (out : List Rune) : Nat × List Rune :=
  match i.current with
  | none => (0, out)
  | some k => match s[k]? with
    | none => (0, out)
    | some attr =>
      let currentLevel := if attr.hasStop then attr.level - 1 else attr.level
      let b := backtrackLoopC s currentLevel k
      if currentLevel = 0 then (b.1, out)
      else
        let r := startLoopC s (k - b.2) b.2 out
        (b.1 + r.1, r.2)

/-- `stopLoop`, the loop of EndOfLine (attributes/state.go:181-192), with its rounds. -/
def stopLoopC (currentLevel : Int) : List Attribute → List Rune → Nat × List Rune
  | [], out => (0, out)
  | attr :: rest, out =>
    if attr.level < currentLevel then (1, out)
    else ((stopLoopC currentLevel rest (attr.writeStop out)).1 + 1, (stopLoopC currentLevel rest (attr.writeStop out)).2)

/-- `EndOfLine` (attributes/state.go:162-193), with its rounds and those of backtrack. -/
def AIter.endOfLineC (s : AState) (i : AIter) (out : List Rune) : Nat × List Rune :=
  match i.current with
  | none => (0, out)
  | some k => match s[k]? with
    | none => (0, out)
    | some attr =>
      let currentLevel := if attr.hasStop then attr.level - 1 else attr.level
      let b := backtrackLoopC s currentLevel k
      if currentLevel = 0 then (b.1, out)
      else
        let r := stopLoopC currentLevel (s.drop b.2) out
        (b.1 + r.1, r.2)

namespace LB

variable {F : Type} [Arith F]

/-- `skipLoop`, the loop of skipNodes (linebreak/linebreaker.go:118-129), with its rounds. -/
def skipLoopC : List (Node F) → Nat → Nat × Option Nat
  | [], _ => (0, none)
  | node :: rest, j => if node.kind = .box || node.isForcedBreak then (1, some j)
    else ((skipLoopC rest (j + 1)).1 + 1, (skipLoopC rest (j + 1)).2)

/-- `skipNodes` (linebreak/linebreaker.go:118-129), with its rounds. -/
def skipNodesC (start : Nat) (nodes : List (Node F)) : Counted Nat :=
  (Counted.of (slice nodes start nodes.length)).andThen fun tail =>
    let r := skipLoopC tail 0
    ⟨r.1, .ok (match r.2 with | none => start | some j => start + j)⟩

/-- `linesLoop`, the first loop of render (linebreak/linebreaker.go:140-151), with its rounds and those of skipNodes. -/
def linesLoopC (nodes : List (Node F)) : List (Point F) → Nat → Counted (List (F × List (Node F)))
  | [], _ => .of (.ok [])
  | brk :: rest, lineStart => Counted.round (
    (skipNodesC lineStart nodes).andThen fun lineStart =>
    (Counted.of (slice nodes lineStart ((brk.position : Int) + 1))).andThen fun ns =>
    (linesLoopC nodes rest brk.position).andThen fun lines => .of (.ok ((brk.ratio, ns) :: lines)))

/-- `nodesLoop`, the loop over the nodes of a line (linebreak/linebreaker.go:158-185), with its rounds and those of
repeatRunes (linebreak/linebreaker.go:200-202), one for each space. -/
def nodesLoopC (l : Options F) (attrs : AState) (ratio : F) :
    List (Node F) → List Rune → AIter → Counted (List Rune × AIter)
  | [], out, it => .of (.ok (out, it))
  | node :: rest, out, it => Counted.round (match node.kind with
    | .box =>
      let out := renderBox attrs node out
      let it := if node.attr.isSome then (it.next attrs).2 else it
      nodesLoopC l attrs ratio rest out it
    | .glue =>
      (Counted.of (glueText l ratio node)).andThen fun spaces =>
        let r := nodesLoopC l attrs ratio rest (emit out spaces) it
        ⟨spaces.length + r.steps, r.res⟩
    | .penalty =>
      let out := if l.renderHyphens && Arith.eq node.penalty l.hyphenPenalty && rest.isEmpty then
        emit out hyphen else out
      nodesLoopC l attrs ratio rest out it)

/-- `renderLoop`, the second loop of render (linebreak/linebreaker.go:154-189), with the rounds of all loops. -/
def renderLoopC (l : Options F) (attrs : AState) :
    List (F × List (Node F)) → AIter → Counted (List (List Rune))
  | [], _ => .of (.ok [])
  | line :: rest, it =>
    let a := it.startOfLineC attrs []
    let r := (nodesLoopC l attrs line.1 line.2 a.2 it).andThen fun p =>
      let b := p.2.endOfLineC attrs p.1
      let q := (renderLoopC l attrs rest p.2).andThen fun lines => .of (.ok (b.2 :: lines))
      ⟨b.1 + q.steps, q.res⟩
    ⟨1 + a.1 + r.steps, r.res⟩

/-- `render` (linebreak/linebreaker.go:134-192), with the rounds of all loops. -/
def renderC (l : Options F) (attrs : AState) (nodes : List (Node F)) (breakList : List (Point F)) :
    Counted (List (List Rune)) :=
  (linesLoopC nodes breakList.tail 0).andThen fun lines => renderLoopC l attrs lines attrs.iterator

/-- The rounds made by `render` in a call of `LeftAlignUniform` (linebreak/linebreaker.go:80-95); none when it is not
called. -/
def renderSteps (rt : Runtime) (env : Env) (l : LineBreaker F) (tokens : List (List Rune)) (maxWidth : F) : Nat :=
  match leftAlignedNodes rt env l tokens with
  | .error _ => 0
  | .ok p => match breakPoints rt l.toOptions p.1 (l.scale maxWidth) with
    | .ok (some chain) => (renderC l.toOptions p.2 p.1 chain).steps
    | _ => 0

end LB
end Verif.Model
