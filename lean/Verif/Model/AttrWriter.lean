import Verif.Model.Attributes
import Verif.Model.Writer

/-! # Package `attributes` writing to any writer

`Model/Attributes` puts the runes that are written end to end. Here they go to a `runesio.Writer` over any `io.Writer`,
which may fail: what `WriteRunes` returns is ignored (`_, _ = w.WriteRunes(…)`). Functions take the state of the writer and
return its new state. -/

namespace Verif.Model
open Verif.Go

variable {σ ε : Type}

/-- `_, _ = w.WriteRunes(rs)` (attributes/attribute.go:31, 37, 69). -/
def send (w : IOWriter σ ε) (st : σ) (rs : List Rune) : σ := (writeRunes w st rs).2

namespace Attribute

/-- `Start` (attributes/attribute.go:29-33). -/
def startTo (w : IOWriter σ ε) (a : Attribute) (st : σ) : σ :=
  if a.hasStart then send w st a.start else st

/-- `Stop` (attributes/attribute.go:35-39). -/
def stopTo (w : IOWriter σ ε) (a : Attribute) (st : σ) : σ :=
  if a.hasStop then send w st a.stop else st

/-- `Render` (attributes/attribute.go:66-72). -/
def renderTo (w : IOWriter σ ε) (a : Attribute) (st : σ) : σ :=
  let st := a.startTo w st
  let st := if a.text.length > 0 then send w st a.text else st
  a.stopTo w st

end Attribute

/-- `Renderers.Start` (attributes/iface.go:46-54). -/
def renderersStartTo (w : IOWriter σ ε) : List (Option Attribute) → σ → σ
  | [], st => st
  | none :: rest, st => renderersStartTo w rest st
  | some r :: rest, st => renderersStartTo w rest (r.startTo w st)

/-- `Renderers.Stop` (attributes/iface.go:56-64). -/
def renderersStopTo (w : IOWriter σ ε) : List (Option Attribute) → σ → σ
  | [], st => st
  | none :: rest, st => renderersStopTo w rest st
  | some r :: rest, st => renderersStopTo w rest (r.stopTo w st)

/-- `Renderers.Render` (attributes/iface.go:66-74). -/
def renderersRenderTo (w : IOWriter σ ε) : List (Option Attribute) → σ → σ
  | [], st => st
  | none :: rest, st => renderersRenderTo w rest st
  | some r :: rest, st => renderersRenderTo w rest (r.renderTo w st)

/-- The loop of StartOfLine (attributes/state.go:148-158): `n` more elements before the current one. -/
def startLoopTo (w : IOWriter σ ε) (s : AState) : Nat → Nat → σ → σ
  | n, k, st => match s[k]? with
    | none => st
    | some attr =>
      let st := attr.startTo w st
      match n with
      | 0 => st
      | n + 1 => startLoopTo w s n (k + 1) st

/-- `StartOfLine` (attributes/state.go:130-159). -/
def AIter.startOfLineTo (w : IOWriter σ ε) (s : AState) (i : AIter) (st : σ) : σ :=
  match i.current with
  | none => st
  | some k => match s[k]? with
    | none => st
    | some attr =>
      let currentLevel := if attr.hasStop then attr.level - 1 else attr.level
      let b := backtrackLoop s currentLevel k
      if currentLevel = 0 then st else startLoopTo w s (k - b) b st

/-- The loop of EndOfLine (attributes/state.go:181-192) over the remaining elements. -/
def stopLoopTo (w : IOWriter σ ε) (currentLevel : Int) : List Attribute → σ → σ
  | [], st => st
  | attr :: rest, st =>
    if attr.level < currentLevel then st
    else stopLoopTo w currentLevel rest (attr.stopTo w st)

/-- `EndOfLine` (attributes/state.go:162-193). -/
def AIter.endOfLineTo (w : IOWriter σ ε) (s : AState) (i : AIter) (st : σ) : σ :=
  match i.current with
  | none => st
  | some k => match s[k]? with
    | none => st
    | some attr =>
      let currentLevel := if attr.hasStop then attr.level - 1 else attr.level
      let b := backtrackLoop s currentLevel k
      if currentLevel = 0 then st else stopLoopTo w currentLevel (s.drop b) st

end Verif.Model
