import Verif.Model.Linebreak

/-! # Steps taken by the search for break points

The functions of linebreak/knuth_plass.go once more, with a count of the rounds of all their loops. `Proofs/Steps`
proves that the results are those of `Model/Linebreak`. -/

namespace Verif.Model.LB
open Verif.Go

variable {F : Type} [Arith F]

/-- A result, and the number of rounds that were made, including those before a panic
(loops of linebreak/knuth_plass.go). -/
structure Counted (α : Type) where
  steps : Nat
  res : Res α

/-- One thing after another: `;` of linebreak/knuth_plass.go, where a panic ends the function. -/
def Counted.andThen {α β : Type} (x : Counted α) (f : α → Counted β) : Counted β :=
  match x.res with
  | .ok a => ⟨x.steps + (f a).steps, (f a).res⟩
  | .error e => ⟨x.steps, .error e⟩

/-- One round more of a loop of linebreak/knuth_plass.go. -/
def Counted.round {α : Type} (x : Counted α) : Counted α := ⟨x.steps + 1, x.res⟩

/-- No round of a loop of linebreak/knuth_plass.go. -/
def Counted.of {α : Type} (r : Res α) : Counted α := ⟨0, r⟩

/-- `sumFromLoop`, the loop of sumFromNode (linebreak/knuth_plass.go:166-176), with its rounds. -/
def sumFromLoopC : Bool → List (Node F) → Sums F → Nat × Sums F
  | _, [], sum => (0, sum)
  | first, node :: rest, sum =>
    if node.kind = .glue then
      let r := sumFromLoopC false rest (sum.add node.sums)
      (r.1 + 1, r.2)
    else if node.kind = .box ∨ (node.isForcedBreak ∧ ¬ first) then (1, sum)
    else
      let r := sumFromLoopC false rest sum
      (r.1 + 1, r.2)

/-- `insertLoop`, the loop of insertNewActiveBreak (linebreak/knuth_plass.go:236-258), with its rounds. -/
def insertLoopC (l : Options F) (index : Nat) (lowestDemerits : F) (candidates : Candidates F)
    (sum : Sums F) (before : Bool) : List Class → Nat × List (BreakPoint F)
  | [] => (0, [])
  | class_ :: rest =>
    let candidate := candidates class_
    if Arith.le Arith.maxFloat candidate.totalDemerits ||
        Arith.lt (Arith.add lowestDemerits l.demeritsFitness) candidate.totalDemerits then
      let r := insertLoopC l index lowestDemerits candidates sum before rest
      (r.1 + 1, r.2)
    else if before then (1, [newBreak index class_ sum candidate])
    else
      let r := insertLoopC l index lowestDemerits candidates sum before rest
      (r.1 + 1, newBreak index class_ sum candidate :: r.2)

/-- `insertNew` (linebreak/knuth_plass.go:227-229, 233-259), with its rounds. -/
def insertNewC (rt : Runtime) (l : Options F) (nodes : List (Node F)) (sum : Sums F) (index n : Nat)
    (lowestDemerits : F) (candidates : Candidates F) : Nat × List (BreakPoint F) :=
  if Arith.lt lowestDemerits Arith.maxFloat then
    let s := sumFromLoopC true (nodes.drop index) sum
    let r := insertLoopC l index lowestDemerits candidates s.2 (decide (0 < n)) (rt.order index n)
    (s.1 + r.1, r.2)
  else (0, [])

/-- `mainLoopOn`, the loops of mainLoop (linebreak/knuth_plass.go:192-230), with the rounds of the inner one. The outer
one never makes a second round (see `mainLoopOn`). -/
def mainLoopOnC (rt : Runtime) (l : Options F) (nodes : List (Node F)) (ideal : F) (sum : Sums F)
    (index : Nat) (node : Node F) :
    List (BreakPoint F) → List (BreakPoint F) → Candidates F → F → Counted (List (BreakPoint F))
  | [], seen, _, _ => .of (.ok seen)
  | active :: rest, seen, candidates, lowestDemerits => Counted.round (
    let currentLine := active.line + 1
    let ratio := adjustmentRatio active.totals node sum ideal
    let seen := if Arith.lt ratio (Arith.ofInt (-1)) || node.isForcedBreak then seen
      else seen ++ [active]
    let feasible := Arith.le (Arith.ofInt (-1)) ratio && Arith.le ratio l.tolerance
    let r : Res (Candidates F × F) := if feasible then do
        let d ← demeritsAndClass l nodes active node ratio
        let candidates := if Arith.lt d.1 (candidates d.2).totalDemerits then
          candidates.set d.2 active else candidates
        pure (candidates, minf lowestDemerits d.1)
      else pure (candidates, lowestDemerits)
    (Counted.of r).andThen fun r =>
      if rest = [] ∨ active.line ≥ currentLine then
        let i := insertNewC rt l nodes sum index rest.length r.2 r.1
        let m := mainLoopOnC rt l nodes ideal sum index node rest (seen ++ i.2) defaultCandidates r.2
        ⟨i.1 + m.steps, m.res⟩
      else
        mainLoopOnC rt l nodes ideal sum index node rest seen r.1 r.2)

/-- `mainLoop` (linebreak/knuth_plass.go:182-231), with its rounds. -/
def mainLoopC (rt : Runtime) (l : Options F) (nodes : List (Node F)) (ideal : F) (sum : Sums F)
    (index : Nat) (node : Node F) (active : List (BreakPoint F)) : Counted (List (BreakPoint F)) :=
  mainLoopOnC rt l nodes ideal sum index node active [] defaultCandidates Arith.maxFloat

/-- `findStartNode` (linebreak/knuth_plass.go:129-145), with its rounds. -/
def findStartNodeC : List (Node F) → Nat → Nat × Nat
  | [], start => (0, start)
  | node :: rest, start => match node.kind with
    | .box => (1, start)
    | .penalty =>
      if Arith.eq node.penalty minusInfinity then (1, start)
      else
        let r := findStartNodeC rest start
        (r.1 + 1, r.2)
    | .glue =>
      let r := findStartNodeC rest (start + 1)
      (r.1 + 1, r.2)

/-- `breakLoop`, the loop of breakPoints (linebreak/knuth_plass.go:93-109), with its rounds. -/
def breakLoopC (rt : Runtime) (l : Options F) (nodes : List (Node F)) (ideal : F) :
    Option (Node F) → List (Node F) → Nat → Sums F → List (BreakPoint F) →
    Counted (List (BreakPoint F))
  | _, [], _, _, active => .of (.ok active)
  | prev, node :: rest, index, sum, active => Counted.round (
    match node.kind with
    | .box =>
      breakLoopC rt l nodes ideal (some node) rest (index + 1)
        { sum with width := Arith.add sum.width node.sums.width } active
    | .glue =>
      (if index > 0 ∧ prev.map Node.kind = some .box then
          mainLoopC rt l nodes ideal sum index node active else .of (.ok active)).andThen fun active =>
      breakLoopC rt l nodes ideal (some node) rest (index + 1) (sum.add node.sums) active
    | .penalty =>
      (if ¬ Arith.eq node.penalty infinity then
          mainLoopC rt l nodes ideal sum index node active else .of (.ok active)).andThen fun active =>
      breakLoopC rt l nodes ideal (some node) rest (index + 1) sum active)

/-- `findBestBreak` (linebreak/knuth_plass.go:147-161), with its rounds. -/
def findBestBreakC : List (BreakPoint F) → BreakPoint F → Nat × BreakPoint F
  | [], best => (0, best)
  | node :: rest, best =>
    let r := if Arith.lt node.totalDemerits best.totalDemerits then findBestBreakC rest node
      else findBestBreakC rest best
    (r.1 + 1, r.2)

/-- `breakPoints` (linebreak/knuth_plass.go:86-125), with its rounds: reverseBreakPoints makes one for each break point
of the chain (linebreak/knuth_plass.go:267-274). -/
def breakPointsC (rt : Runtime) (l : Options F) (nodes : List (Node F)) (ideal : F) :
    Counted (Option (List (Point F))) :=
  let start := findStartNodeC nodes 0
  let b := breakLoopC rt l nodes ideal (if start.2 = 0 then none else nodes[start.2 - 1]?)
    (nodes.drop start.2) start.2 Sums.zero [rootPoint]
  let c : Counted (Option (List (Point F))) := b.andThen fun active =>
    if active.length > 0 then
      let best := findBestBreakC active noBreak
      ⟨best.1 + (best.2.previous.length + 1), .ok (reverseBreakPoints best.2)⟩
    else .of (.ok none)
  ⟨start.1 + c.steps, c.res⟩

/-- The rounds made by the search for break points in a call of `LeftAlignUniform` (linebreak/linebreaker.go:80-95);
none when the nodes cannot be built. -/
def searchSteps (rt : Runtime) (env : Env) (l : LineBreaker F) (tokens : List (List Rune)) (maxWidth : F) : Nat :=
  match leftAlignedNodes rt env l tokens with
  | .error _ => 0
  | .ok p => (breakPointsC rt l.toOptions p.1 (l.scale maxWidth)).steps

end Verif.Model.LB
