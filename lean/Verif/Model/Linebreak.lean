import Verif.Go.Float
import Verif.Model.Ansi
import Verif.Model.Attributes
import Verif.Model.Hyphenator
import Verif.Model.Width

/-! # Model of package `linebreak`

`float64` is any type `F` with the operations of `Arith`. What is left open by the Go language is in
`Runtime`: the order in which a map is walked, and the unused capacity of `[]rune(word)`. A string is
modelled by its runes (C29 and C30 are about the conversions). Custom split functions and measurers are
functions: they may panic (split functions) but have no effects. -/

namespace Verif.Model.LB
open Verif.Go Verif.Model

variable {F : Type} [Arith F]

/-- `sums` (linebreak/knuth_plass_types.go:20-24). -/
structure Sums (F : Type) where
  width : F
  stretch : F
  shrink : F

/-- The zero value of `sums` (linebreak/knuth_plass_types.go:20-24). -/
def Sums.zero : Sums F := ⟨Arith.ofInt 0, Arith.ofInt 0, Arith.ofInt 0⟩

/-- `(*sums).Add` (linebreak/knuth_plass_types.go:159-163). -/
def Sums.add (s t : Sums F) : Sums F :=
  ⟨Arith.add s.width t.width, Arith.add s.stretch t.stretch, Arith.add s.shrink t.shrink⟩

/-- `nodeType` (linebreak/knuth_plass_types.go:69-75). -/
inductive Kind where
  | penalty | glue | box
  deriving DecidableEq, Repr

/-- `nodeT` (linebreak/knuth_plass_types.go:10-18). The renderer of a box is given by its position in
the list of attributes of the line breaker. -/
structure Node (F : Type) where
  kind : Kind
  penalty : F
  flagged : Bool
  value : List Rune
  attr : Option Nat
  sums : Sums F

/-- The constant `infinity` (linebreak/knuth_plass.go:9). -/
def infinity : F := Arith.ofInt 10000

/-- The constant `-infinity` (linebreak/knuth_plass.go:9, 56, 136). -/
def minusInfinity : F := Arith.ofInt (-10000)

/-- The constants `noWidth` and `noShrink` (linebreak/linebreaker.go:37-38), and the literal 0. -/
def zero : F := Arith.ofInt 0

/-- `newGlue` (linebreak/knuth_plass_types.go:99-108). -/
def newGlue (width stretch shrink : F) : Node F :=
  ⟨.glue, zero, false, [], none, ⟨width, stretch, shrink⟩⟩

/-- `newBox` (linebreak/knuth_plass_types.go:110-119). -/
def newBox (width : F) (value : List Rune) (attr : Option Nat) : Node F :=
  ⟨.box, zero, false, value, attr, ⟨width, zero, zero⟩⟩

/-- `newPenalty` (linebreak/knuth_plass_types.go:121-130). -/
def newPenalty (width penalty : F) (flagged : Bool) : Node F :=
  ⟨.penalty, penalty, flagged, [], none, ⟨width, zero, zero⟩⟩

/-- `isForcedBreak` (linebreak/knuth_plass_types.go:190-192). -/
def Node.isForcedBreak (n : Node F) : Bool :=
  decide (n.kind = .penalty) && Arith.eq n.penalty minusInfinity

/-- `fitnessClass` (linebreak/knuth_plass_types.go:77-84). -/
inductive Class where
  | zero | one | two | three
  deriving DecidableEq, Repr

/-- The number of a class (linebreak/knuth_plass_types.go:80-83). -/
def Class.toInt : Class → Int
  | .zero => 0 | .one => 1 | .two => 2 | .three => 3

/-- `isAwayFrom` (linebreak/knuth_plass_types.go:212-214), with `abs` (274-280). -/
def Class.isAwayFrom (f g : Class) : Bool :=
  let a := f.toInt - g.toInt
  decide ((if a < 0 then -a else a) > 1)

/-- `newFitnessClass` (linebreak/knuth_plass_types.go:133-144). -/
def newFitnessClass (ratio : F) : Class :=
  if Arith.lt ratio (Arith.tenths (-5)) then .zero
  else if Arith.le ratio (Arith.tenths 5) then .one
  else if Arith.le ratio (Arith.ofInt 1) then .two
  else .three

/-- `minf` (linebreak/knuth_plass_types.go:258-264). -/
def minf (a b : F) : F := if Arith.lt a b then a else b

/-- The fields of `breakPoint` (linebreak/knuth_plass_types.go:26-35) other than the links. -/
structure Point (F : Type) where
  position : Nat
  line : Nat
  fitness : Class
  totalDemerits : F
  totals : Sums F
  ratio : F

/-- `breakPoint` (linebreak/knuth_plass_types.go:26-35): `previous` lists the break points reached by
following the pointers `previous`, the nearest first. The pointers `next` are set at the very end:
see `reverseBreakPoints`. -/
structure BreakPoint (F : Type) extends Point F where
  previous : List (Point F)

/-- `wordbreaker.SplitFunc` (wordbreak/iface.go). -/
abbrev SplitFunc := List Rune → Res (List (List Rune))

/-- `options` and `formatterOptions` (linebreak/options.go:12-36). `space`, `glueShrink` and `looseness`
have no effect and are left out (`looseness` is read in linebreak/knuth_plass.go:117, where both branches
return nil). -/
structure Options (F : Type) where
  tolerance : F
  badness : F
  demeritsLine : F
  demeritsFlagged : F
  demeritsFitness : F
  measurer : List Rune → F
  scaleFactor : F
  wordBreak : Bool
  renderHyphens : Bool
  hyphenPenalty : F
  hardHyphenPenalty : F
  punctuationPenalty : F
  hyphenator : Option SplitFunc
  punctuator : Option SplitFunc
  minHyphenate : Int
  glueStretch : F

/-- The values of type `Option` (linebreak/options.go:38-112). A split function may be nil; a measurer is not
(`New` panics with a nil measurer). -/
inductive Opt (F : Type) where
  | tolerance (x : F)
  | scaleFactor (x : F)
  | wordBreak (b : Bool)
  | measurer (f : List Rune → F)
  | hyphenator (f : Option SplitFunc)
  | punctuator (f : Option SplitFunc)
  | hyphenPenalty (x : F)
  | renderHyphens (b : Bool)
  | looseness (n : Int)

/-- The functions built by the options (linebreak/options.go:43-112). -/
def Opt.apply (o : Options F) : Opt F → Options F
  | .tolerance x => { o with tolerance := x }
  | .scaleFactor x => { o with scaleFactor := x }
  | .wordBreak b => { o with wordBreak := b }
  | .measurer f => { o with measurer := f }
  | .hyphenator f => { o with wordBreak := true, hyphenator := f }
  | .punctuator f => { o with punctuator := f }
  | .hyphenPenalty x => { o with hyphenPenalty := x, demeritsFlagged := x }
  | .renderHyphens b => { o with renderHyphens := b }
  | .looseness _ => o

/-- The conversion of the result of `runes.Widths` (linebreak/options.go:141). -/
def widthAsFloat : Res (Int × WGlobals) → F
  | .ok p => Arith.ofInt p.1
  | .error _ => Arith.ofInt 0

/-- The default measurer (linebreak/options.go:141). `runes.Widths` panics on integers that are not code
points, which do not occur in a string: the model then gives 0. The lookup table is the one of the first
call. -/
def defaultMeasurer (rs : List Rune) : F :=
  widthAsFloat (widths .init rs [])

/-- `defaultOptions(nil)` (linebreak/options.go:114-155). -/
def defaults : Options F where
  tolerance := Arith.tenths 86
  badness := Arith.ofInt 100
  demeritsLine := Arith.ofInt 10
  demeritsFlagged := Arith.ofInt 100
  demeritsFitness := Arith.ofInt 200
  measurer := defaultMeasurer
  scaleFactor := Arith.ofInt 1
  wordBreak := true
  renderHyphens := true
  hyphenPenalty := Arith.ofInt 300
  hardHyphenPenalty := Arith.ofInt 200
  punctuationPenalty := Arith.ofInt 400
  hyphenator := none
  punctuator := none
  minHyphenate := 4
  glueStretch := Arith.ofInt 6

/-- `defaultOptions` (linebreak/options.go:114-127). -/
def defaultOptions (opts : List (Opt F)) : Options F := opts.foldl Opt.apply defaults

/-- `LineBreaker` (linebreak/linebreaker.go:19-31). The fields `nodes`, `lineWidths`, `sum` and
`activeNodes` are overwritten by each call before they are read: they are local values in the model. -/
structure LineBreaker (F : Type) extends Options F where
  spaceWidth : F
  hyphenWidth : F
  attrList : AState

/-- `scale` (linebreak/linebreaker.go:110-112). -/
def Options.scale (o : Options F) (x : F) : F := Arith.round (Arith.mul x o.scaleFactor)

/-- `downScale` (linebreak/linebreaker.go:114-116). -/
def Options.downScale (o : Options F) (x : F) : F := Arith.round (Arith.div x o.scaleFactor)

/-- The variable `space` (linebreak/linebreaker.go:42). -/
def space : List Rune := [0x20]

/-- The variable `hyphen` (linebreak/linebreaker.go:43). -/
def hyphen : List Rune := [0x2D]

/-- `New` (linebreak/linebreaker.go:47-74). `dict` is the dictionary of the default hyphenator. -/
def new (env : Env) (dict : Dictionary) (opts : List (Opt F)) : LineBreaker F :=
  let o := defaultOptions opts
  let hyphenator := match o.hyphenator with
    | some f => some f
    | none => if o.wordBreak then
        some (hyphenatorBreakWord env dict { HOptions.default with minLength := o.minHyphenate })
      else none
  let punctuator := match o.punctuator with
    | some f => some f
    | none => some (punctuatorBreakWord env)
  { toOptions := { o with hyphenator := hyphenator, punctuator := punctuator }
    spaceWidth := o.scale (o.measurer space)
    hyphenWidth := if o.wordBreak then o.scale (o.measurer hyphen) else zero
    attrList := [] }

/-- What the Go runtime chooses: `order index n` is the order of the walk of the map of candidates
(linebreak/knuth_plass.go:236) when the break points at `index` are inserted with `n` active ones left to see, `spare word` the contents of
the unused capacity of `[]rune(word)`. -/
structure Runtime where
  order : Nat → Nat → List Class
  spare : List Rune → List Rune

/-! ## Nodes of a paragraph -/

/-- The mutable state when nodes are built: the state of the current token, and the attributes
(`tokenState`, linebreak/knuth_plass_types.go:55-61, with the list it points to). -/
structure TokState where
  isStarted : Bool
  current : Option Nat
  start : List Rune
  stop : List Rune
  list : AState

/-- `tokenState.Start` (linebreak/knuth_plass_types.go:216-226). -/
def TokState.push (s : TokState) (text : List Rune) : TokState :=
  let renderer := if !s.isStarted then Attribute.new text s.start [] else Attribute.new text [] []
  { s with isStarted := true, current := some s.list.length, list := s.list.push (some renderer) }

/-- `tokenState.Stop` (linebreak/knuth_plass_types.go:228-235): the current renderer is the one that was
pushed last. -/
def TokState.close (s : TokState) : AState :=
  if s.current.isNone || decide (s.stop.length = 0) then s.list
  else s.list.setLastStop s.stop

/-- A box with the current renderer (linebreak/linebreaker.go:233, 244, 256, 271, 279). -/
def TokState.box (l : LineBreaker F) (s : TokState) (text : List Rune) : Node F :=
  newBox (l.scale (l.measurer text)) text s.current

/-- The nodes of a punctuation mark or an explicit hyphen
(linebreak/linebreaker.go:223-236 and 252-259). -/
def markNodes (l : LineBreaker F) (penalty : F) (text : List Rune) (s : TokState) :
    List (Node F) × TokState :=
  let s := s.push text
  ([newPenalty zero infinity false, newGlue zero l.glueStretch zero, s.box l text,
    newPenalty zero penalty true, newGlue zero (Arith.neg l.glueStretch) zero], s)

/-- `pushHyphen` (linebreak/linebreaker.go:290-308). -/
def pushHyphen (l : LineBreaker F) : List (Node F) :=
  if l.renderHyphens then
    [newPenalty zero infinity false, newGlue zero l.glueStretch zero,
      newPenalty l.hyphenWidth l.hyphenPenalty true, newGlue zero (Arith.neg l.glueStretch) zero]
  else [newPenalty zero l.hyphenPenalty true]

/-- The loop over the parts of a hyphenated word but the last (linebreak/linebreaker.go:268-274). -/
def softLoop (l : LineBreaker F) : List (List Rune) → TokState → List (Node F) × TokState
  | [], s => ([], s)
  | part :: rest, s =>
    let s := s.push part
    let p := softLoop l rest s
    (s.box l part :: (pushHyphen l ++ p.1), p.2)

/-- Call of a split function; a nil function panics (linebreak/linebreaker.go:221, 265). -/
def callSplit (f : Option SplitFunc) (word : List Rune) : Res (List (List Rune)) :=
  match f with
  | some f => f word
  | none => .error .explicit

/-- The body of the loop over the parts between explicit hyphens (linebreak/linebreaker.go:249-281). -/
def wordNodes (l : LineBreaker F) (word : List Rune) (s : TokState) :
    Res (List (Node F) × TokState) :=
  if isHyphen word then .ok (markNodes l l.hardHyphenPenalty word s)
  else do
    let hyphenated ← callSplit l.hyphenator word
    let parts ← slice hyphenated 0 ((hyphenated.length : Int) - 1)
    let p := softLoop l parts s
    let lastPart ← index hyphenated ((hyphenated.length : Int) - 1)
    let s := p.2.push lastPart
    return (p.1 ++ [s.box l lastPart], s)

/-- The loop over the parts between explicit hyphens (linebreak/linebreaker.go:249-281). -/
def wordsLoop (l : LineBreaker F) : List (List Rune) → TokState → Res (List (Node F) × TokState)
  | [], s => .ok ([], s)
  | word :: rest, s => do
    let p ← wordNodes l word s
    let q ← wordsLoop l rest p.2
    return (p.1 ++ q.1, q.2)

/-- The body of the loop over the parts between punctuation marks (linebreak/linebreaker.go:221-282). -/
def partNodes (env : Env) (l : LineBreaker F) (part : List Rune) (s : TokState) :
    Res (List (Node F) × TokState) :=
  if isPunctuation env part then .ok (markNodes l l.punctuationPenalty part s)
  else if !l.wordBreak || decide ((part.length : Int) ≤ l.minHyphenate) then
    let s := s.push part
    .ok ([s.box l part], s)
  else do
    let words ← splitWord part
    wordsLoop l words s

/-- The loop over the parts between punctuation marks (linebreak/linebreaker.go:221-282). -/
def partsLoop (env : Env) (l : LineBreaker F) :
    List (List Rune) → TokState → Res (List (Node F) × TokState)
  | [], s => .ok ([], s)
  | part :: rest, s => do
    let p ← partNodes env l part s
    let q ← partsLoop env l rest p.2
    return (p.1 ++ q.1, q.2)

/-- The runes of a field of a stripped token; none for nil (terminal/ansi/ansi.go:18-20). -/
def fieldRunes (mem : List Rune) : Option View → List Rune
  | none => []
  | some v => v.elems mem

/-- The runes of the text of a stripped token; none for nil (terminal/ansi/ansi.go:17). -/
def textRunes (mem : List Rune) : Option Ansi.Sl → List Rune
  | none => []
  | some s => s.elems mem

/-- The loop over the stripped tokens (linebreak/linebreaker.go:216-285). -/
def strippedLoop (env : Env) (l : LineBreaker F) (mem : List Rune) :
    List Ansi.StrippedToken → AState → Res (List (Node F) × AState)
  | [], attrs => .ok ([], attrs)
  | stripped :: rest, attrs => do
    let s : TokState := ⟨false, none, fieldRunes mem stripped.start, fieldRunes mem stripped.stop, attrs⟩
    let parts ← callSplit l.punctuator (textRunes mem stripped.text)
    let p ← partsLoop env l parts s
    let q ← strippedLoop env l mem rest p.2.close
    return (p.1 ++ q.1, q.2)

/-- `boxNodes` (linebreak/linebreaker.go:213-288). The argument is the conversion `[]rune(word)`
(linebreak/linebreaker.go:320, 330), which may have unused capacity. -/
def boxNodes (rt : Runtime) (env : Env) (l : LineBreaker F) (token : List Rune) (attrs : AState) :
    Res (List (Node F) × AState) := do
  let r ← Ansi.stripToken env (token ++ rt.spare token) ⟨0, token.length⟩
  strippedLoop env l r.2 r.1 attrs

/-- The nodes between two tokens (linebreak/linebreaker.go:324-326). -/
def gapNodes (l : LineBreaker F) : List (Node F) :=
  [newGlue zero l.glueStretch zero, newPenalty zero zero false,
    newGlue l.spaceWidth (Arith.neg l.glueStretch) zero]

/-- The nodes after the last token (linebreak/linebreaker.go:331-332). -/
def endNodes : List (Node F) := [newGlue zero infinity zero, newPenalty zero minusInfinity true]

/-- `leftAlignedNodes` (linebreak/linebreaker.go:311-335), for the last token and the ones before it. -/
def tokensLoop (rt : Runtime) (env : Env) (l : LineBreaker F) :
    List (List Rune) → AState → Res (List (Node F) × AState)
  | [], attrs => .ok ([], attrs)  -- linebreak/linebreaker.go:312-314: no tokens
  | [word], attrs => do
    let p ← boxNodes rt env l word attrs
    return (p.1 ++ endNodes, p.2)
  | word :: rest, attrs => do
    let p ← boxNodes rt env l word attrs
    let q ← tokensLoop rt env l rest p.2
    return (p.1 ++ gapNodes l ++ q.1, q.2)

/-- `leftAlignedNodes` (linebreak/linebreaker.go:311-335): the nodes, and the line breaker with its new
list of attributes. -/
def leftAlignedNodes (rt : Runtime) (env : Env) (l : LineBreaker F) (tokens : List (List Rune)) :
    Res (List (Node F) × AState) := tokensLoop rt env l tokens l.attrList

/-! ## Break points -/

/-- `adjustmentRatio` (linebreak/knuth_plass.go:13-46). -/
def adjustmentRatio (totals : Sums F) (toNode : Node F) (sum : Sums F) (idealWidth : F) : F :=
  let actualWidth := Arith.sub sum.width totals.width
  let actualWidth := if toNode.kind = .penalty then Arith.add actualWidth toNode.sums.width
    else actualWidth
  if Arith.lt actualWidth idealWidth then
    let stretch := Arith.sub sum.stretch totals.stretch
    if Arith.lt zero stretch then Arith.div (Arith.sub idealWidth actualWidth) stretch
    else infinity
  else if Arith.lt idealWidth actualWidth then
    let shrink := Arith.sub sum.shrink totals.shrink
    if Arith.lt zero shrink then Arith.div (Arith.sub idealWidth actualWidth) shrink
    else infinity
  else zero

/-- `demeritsForRatio` (linebreak/knuth_plass.go:49-61). -/
def demeritsForRatio (l : Options F) (node : Node F) (ratio : F) : F :=
  let badness := Arith.add l.demeritsLine (Arith.mul l.badness (Arith.pow (Arith.abs ratio) 3))
  if node.kind = .penalty ∧ Arith.lt zero node.penalty then
    Arith.pow (Arith.add badness node.penalty) 2
  else if node.kind = .penalty ∧ ¬ Arith.eq node.penalty minusInfinity then
    Arith.sub (Arith.pow badness 2) (Arith.pow node.penalty 2)
  else Arith.pow badness 2

/-- `demeritsAndClass` (linebreak/knuth_plass.go:64-83). -/
def demeritsAndClass (l : Options F) (nodes : List (Node F)) (from_ : BreakPoint F) (toNode : Node F)
    (ratio : F) : Res (F × Class) := do
  let demerits := demeritsForRatio l toNode ratio
  let previous ← index nodes (from_.position : Int)
  let demerits := if toNode.kind = .penalty ∧ toNode.flagged ∧ previous.kind = .penalty ∧
      previous.flagged then Arith.add demerits l.demeritsFlagged else demerits
  let currentClass := newFitnessClass ratio
  let demerits := if currentClass.isAwayFrom from_.fitness then
      Arith.add demerits l.demeritsFitness else demerits
  let demerits := Arith.add demerits from_.totalDemerits
  return (demerits, currentClass)

/-- The map of candidates (linebreak/knuth_plass.go:188), which has all classes as keys. -/
abbrev Candidates (F : Type) := Class → BreakPoint F

/-- `candidates[class] = value` (linebreak/knuth_plass.go:213). -/
def Candidates.set (c : Candidates F) (class_ : Class) (value : BreakPoint F) : Candidates F :=
  fun k => if k = class_ then value else c k

/-- `defaultCandidates` (linebreak/knuth_plass_types.go:146-153). -/
def defaultCandidates : Candidates F :=
  fun class_ => ⟨⟨0, 0, class_, Arith.maxFloat, Sums.zero, zero⟩, []⟩

/-- `sumFromNode` (linebreak/knuth_plass.go:163-179): the loop over the nodes from `index` on; `first`
tells that `i` is 0. -/
def sumFromLoop : Bool → List (Node F) → Sums F → Sums F
  | _, [], sum => sum
  | first, node :: rest, sum =>
    if node.kind = .glue then sumFromLoop false rest (sum.add node.sums)
    else if node.kind = .box ∨ (node.isForcedBreak ∧ ¬ first) then sum
    else sumFromLoop false rest sum

/-- `sumFromNode` (linebreak/knuth_plass.go:163-179). -/
def sumFromNode (nodes : List (Node F)) (sum : Sums F) (index : Nat) : Sums F :=
  sumFromLoop true (nodes.drop index) sum

/-- The break point built in insertNewActiveBreak (linebreak/knuth_plass.go:242-249). -/
def newBreak (index : Nat) (class_ : Class) (sum : Sums F) (candidate : BreakPoint F) : BreakPoint F :=
  ⟨⟨index, candidate.line + 1, class_, candidate.totalDemerits, sum, candidate.ratio⟩,
    candidate.toPoint :: candidate.previous⟩

/-- The loop of insertNewActiveBreak (linebreak/knuth_plass.go:236-258): the break points that are
inserted. With an active element left, only the first one is (`before`). -/
def insertLoop (l : Options F) (index : Nat) (lowestDemerits : F) (candidates : Candidates F)
    (sum : Sums F) (before : Bool) : List Class → List (BreakPoint F)
  | [] => []
  | class_ :: rest =>
    let candidate := candidates class_
    if Arith.le Arith.maxFloat candidate.totalDemerits ||
        Arith.lt (Arith.add lowestDemerits l.demeritsFitness) candidate.totalDemerits then
      insertLoop l index lowestDemerits candidates sum before rest
    else if before then [newBreak index class_ sum candidate]
    else newBreak index class_ sum candidate ::
      insertLoop l index lowestDemerits candidates sum before rest

/-- `insertNewActiveBreak` (linebreak/knuth_plass.go:233-259) when `lowestDemerits < maxDemerit`
(knuth_plass.go:227): the break points inserted before the `n` active ones that are left, in the order of
the walk of the map. -/
def insertNew (rt : Runtime) (l : Options F) (nodes : List (Node F)) (sum : Sums F) (index n : Nat)
    (lowestDemerits : F) (candidates : Candidates F) : List (BreakPoint F) :=
  if Arith.lt lowestDemerits Arith.maxFloat then
    insertLoop l index lowestDemerits candidates (sumFromNode nodes sum index) (decide (0 < n))
      (rt.order index n)
  else []

/-- The two nested loops of mainLoop (linebreak/knuth_plass.go:192-230). The active list is split in two:
`seen` holds what is left of the active elements already seen, and what was inserted before the current
one. The ideal width of a line is the same for all lines (`lineWidths` has one element, see
linebreaker.go:99-106 and knuth_plass.go:282-288). -/
def mainLoopOn (rt : Runtime) (l : Options F) (nodes : List (Node F)) (ideal : F) (sum : Sums F)
    (index : Nat) (node : Node F) :
    List (BreakPoint F) → List (BreakPoint F) → Candidates F → F → Res (List (BreakPoint F))
  | [], seen, _, _ => .ok seen
  | active :: rest, seen, candidates, lowestDemerits => do
    let currentLine := active.line + 1
    let ratio := adjustmentRatio active.totals node sum ideal
    let seen := if Arith.lt ratio (Arith.ofInt (-1)) || node.isForcedBreak then seen
      else seen ++ [active]
    let feasible := Arith.le (Arith.ofInt (-1)) ratio && Arith.le ratio l.tolerance
    let r ← if feasible then do
        let d ← demeritsAndClass l nodes active node ratio
        let candidates := if Arith.lt d.1 (candidates d.2).totalDemerits then
          candidates.set d.2 active else candidates
        pure (candidates, minf lowestDemerits d.1)
      else pure (candidates, lowestDemerits)
    if rest = [] ∨ active.line ≥ currentLine then
      mainLoopOn rt l nodes ideal sum index node rest
        (seen ++ insertNew rt l nodes sum index rest.length r.2 r.1) defaultCandidates r.2
    else
      mainLoopOn rt l nodes ideal sum index node rest seen r.1 r.2

/-- `mainLoop` (linebreak/knuth_plass.go:182-231): the new active list. -/
def mainLoop (rt : Runtime) (l : Options F) (nodes : List (Node F)) (ideal : F) (sum : Sums F)
    (index : Nat) (node : Node F) (active : List (BreakPoint F)) : Res (List (BreakPoint F)) :=
  mainLoopOn rt l nodes ideal sum index node active [] defaultCandidates Arith.maxFloat

/-- `findStartNode` (linebreak/knuth_plass.go:129-145). -/
def findStartNode : List (Node F) → Nat → Nat
  | [], start => start
  | node :: rest, start => match node.kind with
    | .box => start
    | .penalty => if Arith.eq node.penalty minusInfinity then start else findStartNode rest start
    | .glue => findStartNode rest (start + 1)

/-- The loop of breakPoints (linebreak/knuth_plass.go:93-109) over the nodes from `index` on; `prev` is
the node before. -/
def breakLoop (rt : Runtime) (l : Options F) (nodes : List (Node F)) (ideal : F) :
    Option (Node F) → List (Node F) → Nat → Sums F → List (BreakPoint F) →
    Res (List (BreakPoint F))
  | _, [], _, _, active => .ok active
  | prev, node :: rest, index, sum, active =>
    match node.kind with
    | .box =>
      breakLoop rt l nodes ideal (some node) rest (index + 1)
        { sum with width := Arith.add sum.width node.sums.width } active
    | .glue => do
      let active ← if index > 0 ∧ prev.map Node.kind = some .box then
          mainLoop rt l nodes ideal sum index node active else .ok active
      breakLoop rt l nodes ideal (some node) rest (index + 1) (sum.add node.sums) active
    | .penalty => do
      let active ← if ¬ Arith.eq node.penalty infinity then
          mainLoop rt l nodes ideal sum index node active else .ok active
      breakLoop rt l nodes ideal (some node) rest (index + 1) sum active

/-- The first break point (linebreak/knuth_plass.go:90). -/
def rootPoint : BreakPoint F := ⟨⟨0, 0, .one, zero, Sums.zero, zero⟩, []⟩

/-- `findBestBreak` (linebreak/knuth_plass.go:147-161). -/
def findBestBreak : List (BreakPoint F) → BreakPoint F → BreakPoint F
  | [], best => best
  | node :: rest, best =>
    if Arith.lt node.totalDemerits best.totalDemerits then findBestBreak rest node
    else findBestBreak rest best

/-- The initial value in findBestBreak (linebreak/knuth_plass.go:148-150). -/
def noBreak : BreakPoint F := ⟨⟨0, 0, .zero, Arith.maxFloat, Sums.zero, zero⟩, []⟩

/-- `reverseBreakPoints` (linebreak/knuth_plass.go:263-277): the chain from the first break point to
`brk`; nil when `brk` has no predecessor. -/
def reverseBreakPoints (brk : BreakPoint F) : Option (List (Point F)) :=
  if brk.previous = [] then none
  else some (brk.previous.reverse ++ [brk.toPoint])

/-- `breakPoints` (linebreak/knuth_plass.go:86-125). -/
def breakPoints (rt : Runtime) (l : Options F) (nodes : List (Node F)) (ideal : F) :
    Res (Option (List (Point F))) := do
  let start := findStartNode nodes 0
  let active ← breakLoop rt l nodes ideal (if start = 0 then none else nodes[start - 1]?)
    (nodes.drop start) start Sums.zero [rootPoint]
  if active.length > 0 then return reverseBreakPoints (findBestBreak active noBreak)
  else return none

/-! ## Rendering -/

/-- The loop of skipNodes (linebreak/linebreaker.go:118-129): how many nodes to skip, none when there is no
box and no forced break. -/
def skipLoop : List (Node F) → Nat → Option Nat
  | [], _ => none
  | node :: rest, j => if node.kind = .box || node.isForcedBreak then some j else skipLoop rest (j + 1)

/-- `skipNodes` (linebreak/linebreaker.go:118-129). -/
def skipNodes (start : Nat) (nodes : List (Node F)) : Res Nat := do
  let tail ← slice nodes start nodes.length
  match skipLoop tail 0 with
  | none => return start
  | some j => return start + j

/-- The first loop of render (linebreak/linebreaker.go:140-151): ratio and nodes of each line. -/
def linesLoop (nodes : List (Node F)) : List (Point F) → Nat → Res (List (F × List (Node F)))
  | [], _ => .ok []
  | brk :: rest, lineStart => do
    let lineStart ← skipNodes lineStart nodes
    let ns ← slice nodes lineStart ((brk.position : Int) + 1)
    let lines ← linesLoop nodes rest brk.position
    return (brk.ratio, ns) :: lines

/-- The largest capacity of a slice of runes that `make` accepts (linebreak/linebreaker.go:199) on 64-bit machines: 2^48
bytes. (That there is enough memory below it is not modelled.) -/
def maxRunes : Int := 70368744177664

/-- `repeatRunes` (linebreak/linebreaker.go:194-205). -/
def repeatRunes (inp : List Rune) (times : Int) : Res (List Rune) :=
  if inp.length = 0 ∨ times = 0 then .ok []
  else if times < 0 ∨ maxRunes < inp.length * times then .error .negRepeat
  else .ok (List.replicate times.toNat inp).flatten

/-- The text of a glue (linebreak/linebreaker.go:169-176). -/
def glueText (l : Options F) (ratio : F) (node : Node F) : Res (List Rune) :=
  let pad := if Arith.lt ratio zero then Arith.add node.sums.width (Arith.mul ratio node.sums.shrink)
    else Arith.add node.sums.width (Arith.mul ratio node.sums.stretch)
  repeatRunes space (Arith.toInt (l.downScale pad))

/-- `nodeT.Render` (linebreak/knuth_plass_types.go:194-206) for a box. -/
def renderBox (attrs : AState) (node : Node F) (out : List Rune) : List Rune :=
  match node.attr with
  | none => emit out node.value
  | some k => match attrs[k]? with
    | some a => a.render out
    | none => out  -- not reached: the renderer is in the list

/-- The loop over the nodes of a line (linebreak/linebreaker.go:158-185). -/
def nodesLoop (l : Options F) (attrs : AState) (ratio : F) :
    List (Node F) → List Rune → AIter → Res (List Rune × AIter)
  | [], out, it => .ok (out, it)
  | node :: rest, out, it => match node.kind with
    | .box =>
      let out := renderBox attrs node out
      let it := if node.attr.isSome then (it.next attrs).2 else it
      nodesLoop l attrs ratio rest out it
    | .glue => do
      let spaces ← glueText l ratio node
      nodesLoop l attrs ratio rest (emit out spaces) it
    | .penalty =>
      let out := if l.renderHyphens && Arith.eq node.penalty l.hyphenPenalty && rest.isEmpty then
        emit out hyphen else out
      nodesLoop l attrs ratio rest out it

/-- The second loop of render (linebreak/linebreaker.go:154-189). `runesio.AsRunesWriter` is taken to be
`runesio.NewWriter`. -/
def renderLoop (l : Options F) (attrs : AState) :
    List (F × List (Node F)) → AIter → Res (List (List Rune))
  | [], _ => .ok []
  | line :: rest, it => do
    let out := it.startOfLine attrs []
    let p ← nodesLoop l attrs line.1 line.2 out it
    let out := p.2.endOfLine attrs p.1
    let lines ← renderLoop l attrs rest p.2
    return out :: lines

/-- `render` (linebreak/linebreaker.go:134-192). -/
def render (l : Options F) (attrs : AState) (nodes : List (Node F)) (breakList : List (Point F)) :
    Res (List (List Rune)) := do
  let lines ← linesLoop nodes breakList.tail 0
  renderLoop l attrs lines attrs.iterator

/-- `LeftAlignUniform` (linebreak/linebreaker.go:80-95), with `buildUniformLengths` (99-106): the lines,
none for ErrCannotBeSet, and the line breaker after the call. -/
def leftAlignUniform (rt : Runtime) (env : Env) (l : LineBreaker F) (tokens : List (List Rune))
    (maxWidth : F) : Res (Option (List (List Rune)) × LineBreaker F) := do
  let p ← leftAlignedNodes rt env l tokens
  let l := { l with attrList := p.2 }
  let breakList ← breakPoints rt l.toOptions p.1 (l.scale maxWidth)
  match breakList with
  | none => return (none, l)
  | some chain => do
    let lines ← render l.toOptions p.2 p.1 chain
    return (some lines, l)

end Verif.Model.LB
