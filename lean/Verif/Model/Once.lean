import Verif.Model.Width

/-! # Concurrent use of `Width` and `Widths` (terminal/runes/width.go, lookup.go)

A transition system: any number of goroutines, each executing one call of Widths in the default mode
(a call of Width is a call of Widths on one rune as far as shared variables are concerned), in steps of
one access to a shared variable. `defaultOptions` is never written (see C27), so that reading it is not
a step. -/

namespace Verif.Model.Once
open Verif.Go Verif.Model

/-- State of a `sync.Once` (Go library): `Do` runs the function if it is the first call; the other
calls wait until the function has returned. -/
inductive OnceState where
  | fresh
  | running (by_ : Nat)
  | finished
deriving DecidableEq

/-- Where a goroutine is in `Widths` (width.go:51-56). -/
inductive Pc where
  /-- Before `buildLookupOnce.Do` (width.go:51). -/
  | start
  /-- Inside `Do`, about to execute `lookupTable = buildLookupTable(o)` (lookup.go:34). -/
  | building
  /-- Inside `Do`, the function has returned. -/
  | built
  /-- In the loop over the runes (width.go:52-54): the remaining runes and the sum so far. -/
  | reading (rest : List Rune) (sum : Int)
  /-- Returned. -/
  | done (sum : Int)
  /-- Panicked with an index out of range. -/
  | panicked

/-- The shared variables (lookup.go:24-25; a nil slice is the empty list), the position of each
goroutine, and a ghost counter of the executions of `initLookupTable`. -/
structure State where
  once : OnceState
  table : List Nat
  pc : Nat → Pc
  builds : Nat

/-- Program start: `buildLookupOnce` is unused, `lookupTable` is nil (lookup.go:24-25). -/
def init : State := ⟨.fresh, [], fun _ => .start, 0⟩

/-- Moves goroutine `t` to `p`, a place in `Widths` (width.go:51-56). -/
def setPc (pc : Nat → Pc) (t : Nat) (p : Pc) : Nat → Pc := fun u => if u = t then p else pc u

/-- What `initLookupTable` assigns to `lookupTable` (lookup.go:29-35): the table for the default
options. -/
def initTable : Res (List Nat) := buildLookupTable (optionsWithDefaults WGlobals.init []).1

/-- One step of goroutine `t`, which measures `req t` (width.go:51); `build` is the outcome of building the table, in
the program `initTable`. -/
def step (build : Res (List Nat)) (req : Nat → List Rune) (t : Nat) (s : State) : Option State :=
  match s.pc t with
  | .start => -- entering Do (width.go:51)
    match s.once with
    | .fresh => some { s with once := .running t, pc := setPc s.pc t .building }
    | .running _ => none
    | .finished => some { s with pc := setPc s.pc t (.reading (req t) 0) }
  | .building => -- lookup.go:32-34
    match build with
    | .ok table => some { s with table := table, builds := s.builds + 1, pc := setPc s.pc t .built }
    | .error _ => some { s with builds := s.builds + 1, pc := setPc s.pc t .panicked }
  | .built => -- leaving Do
    some { s with once := .finished, pc := setPc s.pc t (.reading (req t) 0) }
  | .reading [] sum => some { s with pc := setPc s.pc t (.done sum) }
  | .reading (r :: rest) sum => -- width.go:53
    match lookupRune s.table r with
    | .ok w => some { s with pc := setPc s.pc t (.reading rest (sum + w)) }
    | .error _ => some { s with pc := setPc s.pc t .panicked }
  | .done _ => none
  | .panicked => none

/-- States reached from program start by any interleaving of calls of `Widths` (width.go:51-56). -/
inductive Reachable (build : Res (List Nat)) (req : Nat → List Rune) : State → Prop where
  | init : Reachable build req init
  | step {s s' : State} (t : Nat) : Reachable build req s → step build req t s = some s' → Reachable build req s'

end Verif.Model.Once
