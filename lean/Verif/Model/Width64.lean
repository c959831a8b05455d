import Verif.Model.Width
import Verif.Model.SliceReader

/-! # Widths, with sums of 64 bits

`Widths` once more, with the additions of Go's `int` on 64-bit machines. -/

namespace Verif.Model
open Verif.Go

/-- The loop of Widths in East-Asian mode (terminal/runes/width.go:44-46). -/
def widthsLoopEA64 (o : WOptions) : List Rune → Int → Res Int
  | [], width => .ok width
  | r :: rest, width => do
    let w ← runeWidth r o
    widthsLoopEA64 o rest (add64 width w)

/-- The loop of Widths with the lookup table (terminal/runes/width.go:52-54). -/
def widthsLoop64 (t : List Nat) : List Rune → Int → Res Int
  | [], width => .ok width
  | r :: rest, width => do
    let w ← lookupRune t r
    widthsLoop64 t rest (add64 width w)

/-- `Widths` (terminal/runes/width.go:40-57). -/
def widths64 (g : WGlobals) (runes : List Rune) (opts : List WOption) : Res (Int × WGlobals) := do
  let (o, g) := optionsWithDefaults g opts
  if o.eastAsian then
    let w ← widthsLoopEA64 o runes 0
    return (w, g)
  else
    let (t, g) ← ensureTable g
    let w ← widthsLoop64 t runes 0
    return (w, g)

end Verif.Model
