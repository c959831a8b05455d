import Verif.Model.BuildTables
import Verif.Model.Tables
import Verif.Model.TablesFile

/-! # The text written by terminal/runes/build_tables.go

Go's `fmt` is modelled for the verbs that are used. The fetching of the data files (build_tables.go:56-70), the
formatting by `go/format` and the writing of the file (build_tables.go:72-79) are left out. -/

namespace Verif.Model
open Verif.Go

/-- The digit of value `d`, from `udigits` (Go library, fmt/format.go). -/
def upperDigit (d : Nat) : Rune := if d < 10 then 0x30 + d else 0x41 + (d - 10)

/-- The loop of `fmtInteger` in base 16 (Go library, fmt/format.go), from the last digit to the first one, in front of
`acc`. The first argument bounds the number of digits. -/
def hexLoop : Nat → Nat → List Rune → List Rune
  | 0, n, acc => upperDigit (n % 16) :: acc
  | fuel + 1, n, acc =>
    if 16 ≤ n then hexLoop fuel (n / 16) (upperDigit (n % 16) :: acc) else upperDigit n :: acc

/-- The text of verb `%04X` (Go library, fmt/format.go): zeroes make up for missing digits; a sign counts as one. -/
def fmtHex04 (v : Rune) : List Rune :=
  let pad (k : Nat) (ds : List Rune) := List.replicate (k - ds.length) 0x30 ++ ds
  if v < 0 then 0x2D :: pad 3 (hexLoop v.natAbs v.natAbs []) else pad 4 (hexLoop v.natAbs v.natAbs [])

/-- The loop of `generate` (build_tables.go:85-94), at index `i`. -/
def generateLoop (i : Nat) : List (Rune × Rune) → List Rune
  | [] => []
  | iv :: arr =>
    runesOf "{0x" ++ fmtHex04 iv.1 ++ runesOf ", 0x" ++ fmtHex04 iv.2 ++ runesOf "}," ++
      (if arr = [] then [] else if i % 3 = 2 then runesOf "\n\t" else runesOf " ") ++ generateLoop (i + 1) arr

/-- `generate` (build_tables.go:82-97). -/
def generate (v : String) (arr : List (Rune × Rune)) : List Rune :=
  runesOf "var " ++ runesOf v ++ runesOf " = table{\n\t" ++ generateLoop 0 arr ++ runesOf "\n}\n"

/-- What `eastasian` writes (build_tables.go:175-193). -/
def printEastasian (t : WidthTables) : List Rune :=
  generate "combining" t.cmb ++ runesOf "\n" ++ generate "doublewidth" t.dbl ++ runesOf "\n" ++
    generate "ambiguous" t.amb ++ generate "narrow" t.na ++ runesOf "\n" ++ generate "neutral" t.nu ++ runesOf "\n"

/-- The head of the text (build_tables.go:47-54). -/
def printHead : List Rune :=
  runesOf "// Code generated by build_tables.go. DO NOT EDIT.\n\n" ++ runesOf "package runes\n\n" ++
    runesOf "\n// unicode EastAsianWidth properties retrieved from https://unicode.org/Public/15.0.0/ucd/EastAsianWidth.txt\n" ++
    runesOf "// unicode emoji properties retrieved from https://unicode.org/Public/15.0.0/ucd/emoji/emoji-data.txt\n\n"

/-- The text that `main` makes from the two data files (build_tables.go:46-70), before it is formatted; `generate` for
the emojis is at build_tables.go:232. -/
def printTables (widths emojis : List Nat) : List Rune :=
  printHead ++ printEastasian (eastasianTables widths) ++ generate "emoji" (emojiTable emojis)

/-- The text of the file terminal/runes/runes_tables.go, which is in ASCII. -/
def tablesText : List Rune := (packedBytes tablesFile).map Int.ofNat

end Verif.Model
