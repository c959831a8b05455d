import Verif.Go.Basic

/-! # Model of package `attributes` (`attributes/{iface,attribute,state}.go`)

The only renderer of the repository is `*Attribute`: the interface `Renderer` is modelled by the value
of the attribute, and a nil `Renderer` by `none`. The attributes pushed in a state are taken to be
distinct objects, as they are in the line breaker: see `Model/Shared` for pointers that are pushed twice.

What is written to a `runesio.Writer` is modelled by the runes passed to `WriteRunes`, put end to end
(the results of `WriteRunes` are ignored by the code, and C30 says which bytes it writes). A function
that writes takes the output so far and returns it with the new runes at the end. -/

namespace Verif.Model
open Verif.Go

/-- `Attribute` (attributes/attribute.go:12-17). -/
structure Attribute where
  text : List Rune
  start : List Rune
  stop : List Rune
  level : Int
  deriving DecidableEq, Repr

/-- `w.WriteRunes(rs)` (attributes/attribute.go:31, 37, 69), for a writer that keeps what it is given. -/
def emit (out : List Rune) (rs : List Rune) : List Rune := out ++ rs

namespace Attribute

/-- `New` (attributes/attribute.go:21-27). -/
def new (text start stop : List Rune) : Attribute := ⟨text, start, stop, 0⟩

/-- `SetLevel` (attributes/attribute.go:49-51). -/
def setLevel (a : Attribute) (level : Int) : Attribute := { a with level := level }

/-- `SetStop` (attributes/attribute.go:53-55). -/
def setStop (a : Attribute) (stop : List Rune) : Attribute := { a with stop := stop }

/-- `HasStart` (attributes/attribute.go:57-59). -/
def hasStart (a : Attribute) : Bool := decide (a.start.length > 0)

/-- `HasStop` (attributes/attribute.go:61-63). -/
def hasStop (a : Attribute) : Bool := decide (a.stop.length > 0)

/-- `Start` (attributes/attribute.go:29-33). -/
def writeStart (a : Attribute) (out : List Rune) : List Rune :=
  if a.hasStart then emit out a.start else out

/-- `Stop` (attributes/attribute.go:35-39). -/
def writeStop (a : Attribute) (out : List Rune) : List Rune :=
  if a.hasStop then emit out a.stop else out

/-- `Render` (attributes/attribute.go:66-72). -/
def render (a : Attribute) (out : List Rune) : List Rune :=
  let out := a.writeStart out
  let out := if a.text.length > 0 then emit out a.text else out
  a.writeStop out

end Attribute

/-- `Renderers.Start` (attributes/iface.go:46-54). -/
def renderersStart : List (Option Attribute) → List Rune → List Rune
  | [], out => out
  | none :: rest, out => renderersStart rest out
  | some r :: rest, out => renderersStart rest (r.writeStart out)

/-- `Renderers.Stop` (attributes/iface.go:56-64). -/
def renderersStop : List (Option Attribute) → List Rune → List Rune
  | [], out => out
  | none :: rest, out => renderersStop rest out
  | some r :: rest, out => renderersStop rest (r.writeStop out)

/-- `Renderers.Render` (attributes/iface.go:66-74). -/
def renderersRender : List (Option Attribute) → List Rune → List Rune
  | [], out => out
  | none :: rest, out => renderersRender rest out
  | some r :: rest, out => renderersRender rest (r.render out)

/-- `State` (attributes/state.go:13-15): the elements of the list, from front to back. -/
abbrev AState := List Attribute

/-- The level after the last element (attributes/state.go:37-48). -/
def AState.backLevel (s : AState) : Int :=
  match s.getLast? with
  | none => 0
  | some last => if last.hasStop then last.level - 1 else last.level

/-- `Push` (attributes/state.go:33-57). -/
def AState.push (s : AState) (attr : Option Attribute) : AState :=
  match attr with
  | none => s
  | some attr =>
    let currentLevel := s.backLevel
    let currentLevel := if attr.hasStart then currentLevel + 1 else currentLevel
    s ++ [attr.setLevel currentLevel]

/-- `SetStop` (attributes/attribute.go:53-55) called through the pointer that was pushed last, as
`tokenState.Stop` does (linebreak/knuth_plass_types.go:228-235). -/
def AState.setLastStop (s : AState) (stop : List Rune) : AState :=
  match s.getLast? with
  | none => s
  | some a => s.dropLast ++ [a.setStop stop]

/-- `StateIterator` (attributes/state.go:21-24): `current` is the position of the list element, `none`
for a nil element. -/
structure AIter where
  start : Bool
  current : Option Nat
  deriving DecidableEq, Repr

/-- `list.Front()` (attributes/state.go:63, 70). -/
def AState.front (s : AState) : Option Nat := if 0 < s.length then some 0 else none

/-- `Iterator` (attributes/state.go:60-65). -/
def AState.iterator (s : AState) : AIter := ⟨true, s.front⟩

/-- `First` (attributes/state.go:67-72). -/
def AState.first (s : AState) : AIter := ⟨false, s.front⟩

/-- `Next` (attributes/state.go:75-89), with the new value of the iterator. -/
def AIter.next (s : AState) (i : AIter) : Bool × AIter :=
  if i.start then (i.current.isSome, ⟨false, i.current⟩)
  else match i.current with
    | none => (false, i)
    | some k =>
      let current := if k + 1 < s.length then some (k + 1) else none
      (current.isSome, ⟨i.start, current⟩)

/-- `Item` (attributes/state.go:92-98). -/
def AIter.item (s : AState) (i : AIter) : Option Attribute :=
  match i.current with
  | none => none
  | some k => s[k]?

/-- The loop of backtrack (attributes/state.go:112-124) from the element at position `k`. -/
def backtrackLoop (s : AState) (level : Int) : Nat → Nat
  | 0 => 0
  | k + 1 => match s[k]? with
    | none => k + 1  -- not reached: `k` is a position of the list
    | some attr => if attr.level < level then k + 1 else backtrackLoop s level k

/-- The loop of StartOfLine (attributes/state.go:148-158): `n` more elements before the current one. -/
def startLoop (s : AState) : Nat → Nat → List Rune → List Rune
  | n, k, out => match s[k]? with
    | none => out
    | some attr =>
      let out := attr.writeStart out
      match n with
      | 0 => out
      | n + 1 => startLoop s n (k + 1) out

/-- `StartOfLine` (attributes/state.go:130-159). -/
def AIter.startOfLine (s : AState) (i : AIter) (out : List Rune) : List Rune :=
  match i.current with
  | none => out
  | some k => match s[k]? with
    | none => out
    | some attr =>
      let currentLevel := if attr.hasStop then attr.level - 1 else attr.level
      let b := backtrackLoop s currentLevel k
      if currentLevel = 0 then out else startLoop s (k - b) b out

/-- The loop of EndOfLine (attributes/state.go:181-192) over the remaining elements. -/
def stopLoop (currentLevel : Int) : List Attribute → List Rune → List Rune
  | [], out => out
  | attr :: rest, out =>
    if attr.level < currentLevel then out
    else stopLoop currentLevel rest (attr.writeStop out)

/-- `EndOfLine` (attributes/state.go:162-193). -/
def AIter.endOfLine (s : AState) (i : AIter) (out : List Rune) : List Rune :=
  match i.current with
  | none => out
  | some k => match s[k]? with
    | none => out
    | some attr =>
      let currentLevel := if attr.hasStop then attr.level - 1 else attr.level
      let b := backtrackLoop s currentLevel k
      if currentLevel = 0 then out else stopLoop currentLevel (s.drop b) out

end Verif.Model
