import Verif.Go.Basic

/-!
# Unicode predicates of the Go standard library

`IsSpace` and the range table `unicode.Hyphen` are small and are transcribed in full.
`IsPunct`, `IsDigit` and `ToLower` depend on large tables: the model takes them as parameters
(structure `Env`), so that theorems hold for whatever version of the Unicode tables Go ships.
-/

namespace Verif.Go

/-- `unicode.IsSpace` (Go library, `unicode/graphic.go`: Latin-1 cases and the table `White_Space`). -/
def isSpace (r : Rune) : Bool :=
  (0x09 ≤ r && r ≤ 0x0D) || r == 0x20 || r == 0x85 || r == 0xA0 || r == 0x1680 ||
  (0x2000 ≤ r && r ≤ 0x200A) || r == 0x2028 || r == 0x2029 || r == 0x202F || r == 0x205F ||
  r == 0x3000

/-- Membership in the range table `unicode.Hyphen` (Go library, `unicode/tables.go`, `_Hyphen`). -/
def isHyphenRune (r : Rune) : Bool :=
  r == 0x2D || r == 0xAD || r == 0x58A || r == 0x1806 || r == 0x2010 || r == 0x2011 ||
  r == 0x2E17 || r == 0x30FB || r == 0xFE63 || r == 0xFF0D || r == 0xFF65

/-- The Unicode functions that are left abstract. -/
structure Env where
  /-- `unicode.IsPunct` -/
  isPunct : Rune → Bool
  /-- `unicode.IsDigit` -/
  isDigit : Rune → Bool
  /-- `unicode.ToLower` -/
  toLower : Rune → Rune

/-- The restriction of these functions to ASCII, used for concrete examples. -/
def Env.ascii : Env where
  isPunct r := r ∈ ([0x21, 0x22, 0x23, 0x25, 0x26, 0x27, 0x28, 0x29, 0x2A, 0x2C, 0x2D, 0x2E, 0x2F,
    0x3A, 0x3B, 0x3F, 0x40, 0x5B, 0x5C, 0x5D, 0x5F, 0x7B, 0x7D] : List Rune)
  isDigit r := 0x30 ≤ r && r ≤ 0x39
  toLower r := if 0x41 ≤ r ∧ r ≤ 0x5A then r + 32 else r

/-- Runes of a literal string (for examples). -/
def runesOf (s : String) : List Rune := s.toList.map (fun c => (c.toNat : Int))

end Verif.Go
