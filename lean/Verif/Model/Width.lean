import Verif.Model.Tables

/-! # Model of `terminal/runes/{width,lookup,options}.go` -/

namespace Verif.Model
open Verif.Go

/-- `utf8.ValidRune` (Go library). -/
def validRune (r : Rune) : Bool := (0 ≤ r && r < 0xD800) || (0xDFFF < r && r ≤ 0x10FFFF)

/-- `utf8.RuneError` (Go library). -/
def runeError : Rune := 0xFFFD

/-- The loop of inTable (terminal/runes/lookup.go:76-87). The first argument bounds the number of rounds;
`inTable_spec` (Proofs/Width) shows that the bound used below is never reached. -/
def inTableLoop (r : Rune) (t : List (Rune × Rune)) : Nat → Int → Int → Res Bool
  | 0, _, _ => .error .explicit
  | fuel + 1, bot, top =>
    if top ≥ bot then do
      let mid := (bot + top) / 2 -- `>> 1`
      let m ← index t mid
      if m.2 < r then inTableLoop r t fuel (mid + 1) top
      else if m.1 > r then inTableLoop r t fuel bot (mid - 1)
      else return true
    else return false

/-- `inTable` (terminal/runes/lookup.go:68-90). -/
def inTable (r : Rune) (t : List (Rune × Rune)) : Res Bool := do
  let t0 ← index t 0
  if r < t0.1 then return false
  else inTableLoop r t (t.length + 1) 0 (t.length - 1)

/-- `inTables` (terminal/runes/lookup.go:58-66). -/
def inTables (r : Rune) : List (List (Rune × Rune)) → Res Bool
  | [] => .ok false
  | t :: ts => do
    if ← inTable r t then return true
    else inTables r ts

/-- `IsAmbiguous` (terminal/runes/width.go:69-71). -/
def isAmbiguous (r : Rune) : Res Bool := inTable r ambiguous

/-- `options` (terminal/runes/options.go:7-11). -/
structure WOptions where
  eastAsian : Bool
  skipStrictEmojiNeutral : Bool
  ambiguousWidth : Int
deriving DecidableEq, Repr

/-- An `Option` (terminal/runes/options.go:5), one constructor for each exported one. -/
inductive WOption where
  /-- options.go:35-39 -/
  | eastAsian (enabled : Bool)
  /-- options.go:44-48 -/
  | skipStrictEmojiNeutral (enabled : Bool)
  /-- options.go:57-61 -/
  | ambiguousWidth (width : Int)
deriving DecidableEq, Repr

/-- The effect of an option (terminal/runes/options.go:37, 46, 59). -/
def WOption.apply (o : WOptions) : WOption → WOptions
  | eastAsian b => { o with eastAsian := b }
  | skipStrictEmojiNeutral b => { o with skipStrictEmojiNeutral := b }
  | ambiguousWidth n => { o with ambiguousWidth := n }

/-- The package variables: the options pointed to by `defaultOptions` (options.go:14-20), and
`lookupTable` with `buildLookupOnce` (lookup.go:24-25), `none` as long as `Do` has not run. -/
structure WGlobals where
  defaults : WOptions
  table : Option (List Nat)
deriving DecidableEq

/-- The package variables at program start (options.go:14-20, lookup.go:24-25). -/
def WGlobals.init : WGlobals := ⟨⟨false, false, 2⟩, none⟩

/-- `optionsWithDefaults` (terminal/runes/options.go:63-75): the options to use, and the package
variables after the call. Without options the result points to the package variable, which is then only
read; otherwise the options are applied to a copy. -/
def optionsWithDefaults (g : WGlobals) (opts : List WOption) : WOptions × WGlobals :=
  if opts.length = 0 then (g.defaults, g)
  else
    let o := g.defaults
    (opts.foldl WOption.apply o, g)

/-- `runeWidth` (terminal/runes/width.go:73-109). -/
def runeWidth (r : Rune) (o : WOptions) : Res Int := do
  if !validRune r || r == runeError then return 0
  else if r < 0x20 then return 0
  else if (r ≥ 0x7F && r ≤ 0x9F) || r == 0xAD then return 0
  else if r < 0x300 && !o.eastAsian then return 1
  else if r == 0x2E3B then return 4
  else if r == 0x2E3A then return 3
  else if ← inTables r [nonprint, combining] then return 0
  else if ← inTable r narrow then return 1
  else if ← inTable r doublewidth then return 2
  else if !o.eastAsian then return 1
  else if ← inTables r [ambiguous] then return o.ambiguousWidth
  else if o.skipStrictEmojiNeutral then do
    if ← inTables r [emoji, narrow] then return 2
    else return 1
  else return 1

/-- Conversion `uint8(x)` (terminal/runes/lookup.go:49-52). -/
def uint8 (x : Int) : Nat := (x % 256).toNat

/-- One byte of the table (terminal/runes/lookup.go:42-52); shifts of a `uint8` drop the high bits. -/
def packByte (o : WOptions) (i : Nat) : Res Nat := do
  let i32 : Int := i * 4
  let x0 ← runeWidth i32 o
  let x1 ← runeWidth (i32 + 1) o
  let x2 ← runeWidth (i32 + 2) o
  let x3 ← runeWidth (i32 + 3) o
  return uint8 x0 ||| ((uint8 x1 <<< 2) % 256) ||| ((uint8 x2 <<< 4) % 256) ||| ((uint8 x3 <<< 6) % 256)

/-- The length of the table (terminal/runes/lookup.go:38-40). -/
def lookupSize : Nat := 0x110000 >>> 2

/-- `buildLookupTable` (terminal/runes/lookup.go:37-56). -/
def buildLookupTable (o : WOptions) : Res (List Nat) := (List.range lookupSize).mapM (packByte o)

/-- `buildLookupOnce.Do(initLookupTable)` (width.go:30, 51; lookup.go:31-35): the table, and the package
variables after the call. -/
def ensureTable (g : WGlobals) : Res (List Nat × WGlobals) :=
  match g.table with
  | some t => .ok (t, g)
  | none => do
    let (o, g) := optionsWithDefaults g []
    let t ← buildLookupTable o
    return (t, { g with table := some t })

/-- `int((lookupTable[r>>2] >> ((r % 4) * 2)) & 3)` (terminal/runes/width.go:32-34, 53). Go's `%`
truncates, but a negative `r` fails on the index before. -/
def lookupRune (t : List Nat) (r : Rune) : Res Int := do
  let b ← index t (r >>> 2)
  return (((b >>> ((r % 4).toNat * 2)) &&& 3 : Nat) : Int)

/-- `Width` (terminal/runes/width.go:16-35): the width, and the package variables after the call. -/
def width (g : WGlobals) (r : Rune) (opts : List WOption) : Res (Int × WGlobals) := do
  if !validRune r || r == runeError then return (0, g)
  else if r == 0x2E3B then return (4, g)
  else
    let (o, g) := optionsWithDefaults g opts
    if o.eastAsian then
      let w ← runeWidth r o
      return (w, g)
    else
      let (t, g) ← ensureTable g
      let w ← lookupRune t r
      return (w, g)

/-- The loop of Widths in East-Asian mode (terminal/runes/width.go:44-46). -/
def widthsLoopEA (o : WOptions) : List Rune → Int → Res Int
  | [], width => .ok width
  | r :: rest, width => do
    let w ← runeWidth r o
    widthsLoopEA o rest (width + w)

/-- The loop of Widths with the lookup table (terminal/runes/width.go:52-54). -/
def widthsLoop (t : List Nat) : List Rune → Int → Res Int
  | [], width => .ok width
  | r :: rest, width => do
    let w ← lookupRune t r
    widthsLoop t rest (width + w)

/-- `Widths` (terminal/runes/width.go:40-57). Sums are unbounded here; see `Model/Width64`
for 64 bits. -/
def widths (g : WGlobals) (runes : List Rune) (opts : List WOption) : Res (Int × WGlobals) := do
  let (o, g) := optionsWithDefaults g opts
  if o.eastAsian then
    let w ← widthsLoopEA o runes 0
    return (w, g)
  else
    let (t, g) ← ensureTable g
    let w ← widthsLoop t runes 0
    return (w, g)

end Verif.Model
