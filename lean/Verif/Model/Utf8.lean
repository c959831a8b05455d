import Verif.Model.Width

/-! # UTF-8 (Go library `unicode/utf8`, conversion `[]rune(string)`) and what /repo does with it

Bytes are natural numbers. -/

namespace Verif.Model
open Verif.Go

/-- `uint32(r)` for an `int32` (runesio/writer.go:45, 59). -/
def uint32 (r : Rune) : Nat := (r % 2 ^ 32).toNat

/-- `utf8.RuneLen` (Go library): -1 for an invalid rune. -/
def runeLen (r : Rune) : Int :=
  if r < 0 then -1
  else if r ≤ 0x7F then 1
  else if r ≤ 0x7FF then 2
  else if 0xD800 ≤ r && r ≤ 0xDFFF then -1
  else if r ≤ 0xFFFF then 3
  else if r ≤ 0x10FFFF then 4
  else -1

/-- `utf8.EncodeRune` (Go library), the bytes written. -/
def encodeRune (r : Rune) : List Nat :=
  let i := uint32 r
  if i ≤ 0x7F then [i % 256]
  else if i ≤ 0x7FF then [0xC0 ||| ((i >>> 6) % 256), 0x80 ||| ((i % 256) &&& 0x3F)]
  else if i > 0x10FFFF || (0xD800 ≤ i && i ≤ 0xDFFF) then [0xEF, 0xBF, 0xBD]
  else if i ≤ 0xFFFF then
    [0xE0 ||| ((i >>> 12) % 256), 0x80 ||| ((i >>> 6) % 256 &&& 0x3F), 0x80 ||| ((i % 256) &&& 0x3F)]
  else
    [0xF0 ||| ((i >>> 18) % 256), 0x80 ||| ((i >>> 12) % 256 &&& 0x3F),
      0x80 ||| ((i >>> 6) % 256 &&& 0x3F), 0x80 ||| ((i % 256) &&& 0x3F)]

/-- The range of the second byte accepted after the first one (Go library, `utf8.acceptRanges`). -/
def acceptRange (b0 : Nat) : Nat × Nat :=
  if b0 == 0xE0 then (0xA0, 0xBF)
  else if b0 == 0xED then (0x80, 0x9F)
  else if b0 == 0xF0 then (0x90, 0xBF)
  else if b0 == 0xF4 then (0x80, 0x8F)
  else (0x80, 0xBF)

/-- `utf8.DecodeRune` (Go library): the rune and the number of bytes it takes; `(RuneError, 1)` if the
bytes do not begin with an encoded rune. -/
def decodeRune : List Nat → Rune × Nat
  | [] => (runeError, 0)
  | b0 :: s =>
    if b0 < 0x80 then ((b0 : Int), 1)
    else if b0 < 0xC2 || b0 > 0xF4 then (runeError, 1)
    else match s with
      | [] => (runeError, 1)
      | b1 :: s =>
        if b1 < (acceptRange b0).1 || (acceptRange b0).2 < b1 then (runeError, 1)
        else if b0 ≤ 0xDF then ((((b0 &&& 0x1F) <<< 6) ||| (b1 &&& 0x3F) : Nat), 2)
        else match s with
          | [] => (runeError, 1)
          | b2 :: s =>
            if b2 < 0x80 || 0xBF < b2 then (runeError, 1)
            else if b0 ≤ 0xEF then
              ((((b0 &&& 0xF) <<< 12) ||| ((b1 &&& 0x3F) <<< 6) ||| (b2 &&& 0x3F) : Nat), 3)
            else match s with
              | [] => (runeError, 1)
              | b3 :: _ =>
                if b3 < 0x80 || 0xBF < b3 then (runeError, 1)
                else ((((b0 &&& 7) <<< 18) ||| ((b1 &&& 0x3F) <<< 12) ||| ((b2 &&& 0x3F) <<< 6) |||
                  (b3 &&& 0x3F) : Nat), 4)

/-- The loop of the conversion `[]rune(s)` (Go language). The first argument bounds the number of rounds;
a round consumes at least one byte. -/
def decodeLoop : Nat → List Nat → List Rune
  | 0, _ => []
  | _, [] => []
  | fuel + 1, s => (decodeRune s).1 :: decodeLoop fuel (s.drop (decodeRune s).2)

/-- `[]rune(s)` (Go language). -/
def stringRunes (s : List Nat) : List Rune := decodeLoop s.length s

/-- `StringWidth` (terminal/runes/width.go:60-62). -/
def stringWidth (g : WGlobals) (s : List Nat) (opts : List WOption) : Res (Int × WGlobals) :=
  widths g (stringRunes s) opts

end Verif.Model
