import Verif.Go.Basic

/-! # Model of `wordbreak/hyphenator/cache.go`

A transition system: any number of goroutines, each executing one call of `loadDictFromCache`, in steps
as small as one access to a shared variable. A goroutine that makes several calls is covered: its calls
in sequence are one of the interleavings of several goroutines. -/

namespace Verif.Model.Cache

/-- An allocated dictionary: the file it was loaded from, and its identity (a pointer; hyphenator/cache.go:10). -/
structure Dict (File : Type) where
  file : File
  id : Nat

/-- Where a goroutine is in `loadDictFromCache` (cache.go:14-30). A dictionary pointer is `none` (nil) or
an allocated dictionary. -/
inductive Pc (File : Type) where
  /-- Before `mx.Lock()` (cache.go:15). -/
  | start
  /-- Holding the lock, before the test on the map (cache.go:18). -/
  | locked
  /-- After the test on the map, before the lookup (cache.go:22). -/
  | ready
  /-- After the lookup (cache.go:22): `none` when the entry is absent (`!ok`). -/
  | looked (entry : Option (Option (Dict File)))
  /-- After cache.go:23-25, before the map assignment (cache.go:27). -/
  | loaded (dict : Option (Dict File))
  /-- After the assignment, before the deferred unlock (cache.go:16, 29). -/
  | stored (dict : Option (Dict File))
  /-- Returned. -/
  | done (dict : Option (Dict File))
  /-- Panicked (assignment to an entry of a nil map). -/
  | panicked

/-- The shared variables `mx`, `loadedPatterns` (cache.go:5-11), the position of each goroutine, and two
ghost variables: the next identity for an allocation and the log of the calls of `LoadPatterns`. -/
structure State (File : Type) where
  mutex : Option Nat
  cache : Option (File → Option (Option (Dict File)))
  pc : Nat → Pc File
  nextId : Nat
  loads : List File

variable {File : Type} [DecidableEq File]

/-- Program start: the mutex is free and the map is nil (cache.go:6, 10). -/
def init : State File :=
  { mutex := none, cache := none, pc := fun _ => .start, nextId := 0, loads := [] }

/-- Moves goroutine `t` to `p`, a place in `loadDictFromCache` (hyphenator/cache.go:14-30). -/
def setPc (pc : Nat → Pc File) (t : Nat) (p : Pc File) : Nat → Pc File := fun u => if u = t then p else pc u

/-- One step of goroutine `t`, which asks for file `req t`; `readable f` tells whether `LoadPatterns f`
succeeds (its error is dropped, cache.go:24, and the dictionary is then nil). `none` when `t` is blocked
or finished. -/
def step (req : Nat → File) (readable : File → Bool) (t : Nat) (s : State File) : Option (State File) :=
  match s.pc t with
  | .start => -- mx.Lock() (cache.go:15)
    match s.mutex with
    | some _ => none
    | none => some { s with mutex := some t, pc := setPc s.pc t .locked }
  | .locked => -- cache.go:18-20
    match s.cache with
    | none => some { s with cache := some (fun _ => none), pc := setPc s.pc t .ready }
    | some _ => some { s with pc := setPc s.pc t .ready }
  | .ready => -- cache.go:22; reading a nil map yields nothing
    match s.cache with
    | none => some { s with pc := setPc s.pc t (.looked none) }
    | some m => some { s with pc := setPc s.pc t (.looked (m (req t))) }
  | .looked (some d) => -- found
    some { s with pc := setPc s.pc t (.loaded d) }
  | .looked none => -- cache.go:24
    if readable (req t) then
      some { s with
        pc := setPc s.pc t (.loaded (some ⟨req t, s.nextId⟩)), nextId := s.nextId + 1, loads := req t :: s.loads }
    else
      some { s with pc := setPc s.pc t (.loaded none), loads := req t :: s.loads }
  | .loaded d => -- cache.go:27; assignment to a nil map panics
    match s.cache with
    | none => some { s with pc := setPc s.pc t .panicked }
    | some m =>
      some { s with
        cache := some (fun f => if f = req t then some d else m f), pc := setPc s.pc t (.stored d) }
  | .stored d => -- deferred mx.Unlock() (cache.go:16) and return (cache.go:29)
    some { s with mutex := none, pc := setPc s.pc t (.done d) }
  | .done _ => none
  | .panicked => none

/-- States reached from the start of the program by any interleaving of calls of `loadDictFromCache` (hyphenator/cache.go:14-30). -/
inductive Reachable (req : Nat → File) (readable : File → Bool) : State File → Prop where
  | init : Reachable req readable init
  | step {s s' : State File} (t : Nat) :
      Reachable req readable s → step req readable t s = some s' → Reachable req readable s'

end Verif.Model.Cache
