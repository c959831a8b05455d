import Verif.Model.Linebreak

/-! # Model of package `attributes` with pointers

`Model/Attributes` sees a `State` as a list of values. In the code, a `State` is a list of pointers to renderers
(attributes/state.go:13-15, attributes/iface.go:12-36; the only renderer of the repository is `*Attribute`), which the
caller keeps, may push again, to the same `State` or to another, and may change later. Here renderers have addresses, and
there are any number of states. -/

namespace Verif.Model
open Verif.Go Verif.Model.LB

/-- Renderers by address, and the lists of the states (attributes/state.go:13-15) as lists of addresses. All renderers
that are ever used exist from the beginning: those that are allocated later are not referred to before. -/
structure Shared where
  attr : Nat → Attribute
  list : Nat → List Nat

namespace Shared

/-- A function changed at one place: an assignment to a field (attributes/attribute.go:49-55). -/
def upd {α : Type} (f : Nat → α) (k : Nat) (x : α) : Nat → α := fun n => if n = k then x else f n

/-- What one sees of a state: the renderers of its list, as they are now (attributes/state.go:60-98). -/
def view (h : Shared) (s : Nat) : AState := (h.list s).map h.attr

/-- The level after the last renderer of a state (attributes/state.go:37-48). -/
def backLevel (h : Shared) (s : Nat) : Int :=
  match (h.list s).getLast? with
  | none => 0
  | some q => if (h.attr q).hasStop then (h.attr q).level - 1 else (h.attr q).level

/-- `Push` (attributes/state.go:33-57): the level of the renderer is changed through the pointer. -/
def push (h : Shared) (s : Nat) (ptr : Option Nat) : Shared :=
  match ptr with
  | none => h
  | some p =>
    let currentLevel := h.backLevel s
    let currentLevel := if (h.attr p).hasStart then currentLevel + 1 else currentLevel
    { attr := upd h.attr p ((h.attr p).setLevel currentLevel), list := upd h.list s (h.list s ++ [p]) }

/-- `SetStop` (attributes/attribute.go:53-55). -/
def setStop (h : Shared) (p : Nat) (stop : List Rune) : Shared :=
  { h with attr := upd h.attr p ((h.attr p).setStop stop) }

/-- `SetLevel` (attributes/attribute.go:49-51). -/
def setLevel (h : Shared) (p : Nat) (level : Int) : Shared :=
  { h with attr := upd h.attr p ((h.attr p).setLevel level) }

end Shared

/-- One call of a user of the package (attributes/state.go:33, attributes/attribute.go:49, 53). -/
inductive SharedOp where
  | push (s : Nat) (ptr : Option Nat)
  | setStop (p : Nat) (stop : List Rune)
  | setLevel (p : Nat) (level : Int)

/-- One call (attributes/state.go:33-57, attributes/attribute.go:49-55). -/
def Shared.step (h : Shared) : SharedOp → Shared
  | .push s ptr => h.push s ptr
  | .setStop p stop => h.setStop p stop
  | .setLevel p level => h.setLevel p level

/-- Calls one after the other (attributes/state.go:33-57, attributes/attribute.go:49-55). -/
def Shared.run (h : Shared) (ops : List SharedOp) : Shared := ops.foldl Shared.step h

/-! ## The line breaker -/

/-- `tokenState` (linebreak/knuth_plass_types.go:55-61) with pointers: renderers are allocated at the address `next`. The
list of the line breaker is that of the state 0. -/
structure PtrTok where
  isStarted : Bool
  current : Option Nat
  start : List Rune
  stop : List Rune
  mem : Shared
  next : Nat

/-- `tokenState.Start` (linebreak/knuth_plass_types.go:216-226). -/
def PtrTok.push (s : PtrTok) (text : List Rune) : PtrTok :=
  let renderer := if !s.isStarted then Attribute.new text s.start [] else Attribute.new text [] []
  let mem : Shared := { s.mem with attr := Shared.upd s.mem.attr s.next renderer }
  { s with isStarted := true, current := some s.next, mem := mem.push 0 (some s.next), next := s.next + 1 }

/-- `tokenState.Stop` (linebreak/knuth_plass_types.go:228-235). -/
def PtrTok.close (s : PtrTok) : Shared :=
  match s.current with
  | none => s.mem
  | some last => if s.stop.length = 0 then s.mem else s.mem.setStop last s.stop

end Verif.Model
