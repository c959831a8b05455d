import Verif.Model.Scanner

/-! # Model of `terminal/runes/build_tables.go`

This program makes the tables of ranges of package `runes` out of two files published by Unicode. Fetching the files,
and writing the tables down as a Go source file (`generate`), are not modelled: a table is the list of its ranges.
Values are unbounded integers, where Go has int32 (they are at most 0x10FFFF in the files). -/

namespace Verif.Model
open Verif.Go

/-- The value of a hexadecimal digit (Go library, `hexadecimalDigits` in `fmt/scan.go`). -/
def hexDigitValue (c : Rune) : Option Int :=
  if 0x30 ≤ c ∧ c ≤ 0x39 then some (c - 0x30)
  else if 0x41 ≤ c ∧ c ≤ 0x46 then some (c - 0x41 + 10)
  else if 0x61 ≤ c ∧ c ≤ 0x66 then some (c - 0x61 + 10)
  else none

/-- Reads digits as long as there are some, after the value `n` (Go library: `scanNumber`, then `strconv.ParseInt`). -/
def readDigits : Int → List Rune → Int × List Rune
  | n, [] => (n, [])
  | n, c :: l => match hexDigitValue c with
    | some d => readDigits (16 * n + d) l
    | none => (n, c :: l)

/-- The verb `%x` of `fmt.Sscanf` for a rune (Go library, `scanInt`): spaces are skipped, a sign is accepted, and
there must be a digit. The value must fit in 32 bits. -/
def scanHex (l : List Rune) : Option (Int × List Rune) :=
  let l := l.dropWhile isSpace
  let neg := l.head? == some 0x2D
  let l := if neg || l.head? == some 0x2B then l.drop 1 else l
  match l with
  | [] => none
  | c :: _ =>
    if hexDigitValue c = none then none
    else
      let (n, rest) := readDigits 0 l
      let n := if neg then -n else n
      if -2147483648 ≤ n ∧ n ≤ 2147483647 then some (n, rest) else none

/-- The verb `%s` of `fmt.Sscanf` (Go library, `convertString`): a word, after spaces. -/
def scanWord (l : List Rune) : Option (List Rune × List Rune) :=
  let l := l.dropWhile isSpace
  if l.length == 0 then none else some (l.takeWhile (fun r => !isSpace r), l.dropWhile (fun r => !isSpace r))

/-- A character of the format of `fmt.Sscanf` which stands for itself (Go library, `advance`). -/
def scanChar (c : Rune) : List Rune → Option (List Rune)
  | [] => none
  | x :: l => if x = c then some l else none

/-- A space in the format of `fmt.Sscanf` (Go library, `advance`): at least a space, or the end. -/
def scanBlank : List Rune → Option (List Rune)
  | [] => some []
  | x :: l => if isSpace x then some (l.dropWhile isSpace) else none

/-- `fmt.Sscanf(line, "%x..%x;%s ", &low, &high, &class)` (build_tables.go:135); `none` when there is an error. There is
no error if and only if three values are read. -/
def sscanfRangeClass (line : List Rune) : Option (Rune × Rune × List Rune) := do
  let (low, l) ← scanHex line
  let l ← scanChar 0x2E l
  let l ← scanChar 0x2E l
  let (high, l) ← scanHex l
  let l ← scanChar 0x3B l
  let (cls, l) ← scanWord l
  let _ ← scanBlank l
  some (low, high, cls)

/-- `fmt.Sscanf(line, "%x;%s ", &low, &class)` (build_tables.go:137). -/
def sscanfClass (line : List Rune) : Option (Rune × List Rune) := do
  let (low, l) ← scanHex line
  let l ← scanChar 0x3B l
  let (cls, l) ← scanWord l
  let _ ← scanBlank l
  some (low, cls)

/-- `fmt.Sscanf(line, "%x..%x ", &low, &high)` (build_tables.go:213). -/
def sscanfRange (line : List Rune) : Option (Rune × Rune) := do
  let (low, l) ← scanHex line
  let l ← scanChar 0x2E l
  let l ← scanChar 0x2E l
  let (high, l) ← scanHex l
  let _ ← scanBlank l
  some (low, high)

/-- `fmt.Sscanf(line, "%x ", &low)` (build_tables.go:215). -/
def sscanfPoint (line : List Rune) : Option Rune := do
  let (low, l) ← scanHex line
  let _ ← scanBlank l
  some low

/-- `strings.Index(line, sub) != -1` and `strings.Contains` (Go library), on runes. -/
def containsText (sub : List Rune) : List Rune → Bool
  | [] => sub.isPrefixOf []
  | c :: l => sub.isPrefixOf (c :: l) || containsText sub l

/-- The tables of function eastasian (build_tables.go:119-123). -/
structure WidthTables where
  dbl : List (Rune × Rune)
  amb : List (Rune × Rune)
  cmb : List (Rune × Rune)
  na : List (Rune × Rune)
  nu : List (Rune × Rune)
deriving DecidableEq, Repr

/-- The `switch` over the class of the code point (build_tables.go:151-172); `H` is in no table. -/
def addClass (cls : List Rune) (iv : Rune × Rune) (t : WidthTables) : WidthTables :=
  if cls = runesOf "W" ∨ cls = runesOf "F" then { t with dbl := t.dbl ++ [iv] }
  else if cls = runesOf "A" then { t with amb := t.amb ++ [iv] }
  else if cls = runesOf "Na" then { t with na := t.na ++ [iv] }
  else if cls = runesOf "N" then { t with nu := t.nu ++ [iv] }
  else t

/-- The range and the class that the loop of eastasian reads from a line (build_tables.go:131-142); `none` when the line
is skipped. -/
def widthEntryOf (line : List Rune) : Option (Rune × Rune × List Rune) :=
  match sscanfRangeClass line with
  | some e => some e
  | none => (sscanfClass line).map (fun e => (e.1, e.1, e.2))

/-- The range that the loop of emoji reads from a line (build_tables.go:212-220); `none` when the line is skipped. -/
def emojiEntryOf (line : List Rune) : Option (Rune × Rune) :=
  match sscanfRange line with
  | some e => some e
  | none => (sscanfPoint line).map (fun low => (low, low))

/-- The body of the loop of eastasian (build_tables.go:126-172). -/
def eastasianLine (t : WidthTables) (line : List Rune) : WidthTables :=
  if hasPrefix line [0x23] then t
  else
    match widthEntryOf line with
    | none => t
    | some (low, high, cls) =>
      let t := if containsText (runesOf "COMBINING") line then { t with cmb := t.cmb ++ [(low, high)] } else t
      addClass cls (low, high) t

/-- The body of the loop of emoji (build_tables.go:203-228). -/
def emojiLine (arr : List (Rune × Rune)) (line : List Rune) : List (Rune × Rune) :=
  if hasPrefix line [0x23] then arr
  else if !containsText (runesOf "Extended_Pictographic") line then arr
  else
    match emojiEntryOf line with
    | none => arr
    | some (low, high) => if high < 0xFF then arr else arr ++ [(low, high)]

/-- `for scanner.Scan() { line := scanner.Text() ... }` (build_tables.go:125-173, 202-229), with the body as a function
of the variables of the function and of the line. The first argument bounds the number of lines. The reader is
supposed to return as many bytes as asked for while there are some. -/
def scanFold {σ : Type} (body : σ → List Rune → σ) : Nat → Scanner → σ → σ
  | 0, _, st => st
  | fuel + 1, s, st =>
    match scan s with
    | (none, _) => st
    | (some token, s) => scanFold body fuel s (body st (stringRunes token))

/-- The loop of shapeup (build_tables.go:104-111), at index `i`. The first argument bounds the number of rounds: each
one removes a range or moves forward. -/
def shapeupLoop : Nat → Nat → List (Rune × Rune) → List (Rune × Rune)
  | 0, _, arr => arr
  | fuel + 1, i, arr =>
    match arr[i]?, arr[i + 1]? with
    | some a, some b =>
      if a.2 + 1 = b.1 then shapeupLoop fuel i ((arr.take i ++ arr.drop (i + 1)).modify i (fun c => (a.1, c.2)))
      else shapeupLoop fuel (i + 1) arr
    | _, _ => arr

/-- `shapeup` (build_tables.go:101-114). -/
def shapeup (p : List (Rune × Rune)) : List (Rune × Rune) := shapeupLoop p.length 0 p

/-- The tables computed by `eastasian` (build_tables.go:116-196) from the bytes of EastAsianWidth.txt. -/
def eastasianTables (data : List Nat) : WidthTables :=
  let t := scanFold eastasianLine (data.length + 1) (newScanner data) ⟨[], [], [], [], []⟩
  ⟨shapeup t.dbl, shapeup t.amb, shapeup t.cmb, shapeup t.na, shapeup t.nu⟩

/-- The table computed by `emoji` (build_tables.go:198-235) from the bytes of emoji-data.txt. -/
def emojiTable (data : List Nat) : List (Rune × Rune) :=
  shapeup (scanFold emojiLine (data.length + 1) (newScanner data) [])

end Verif.Model
