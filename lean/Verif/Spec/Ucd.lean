import Verif.Go.Unicode

/-! # Specification: the property files of Unicode -/

namespace Verif.Spec
open Verif.Go

/-- A hexadecimal digit and its value. -/
def HexDigit (d : Rune) (v : Int) : Prop :=
  (0x30 ≤ d ∧ d ≤ 0x39 ∧ v = d - 0x30) ∨ (0x41 ≤ d ∧ d ≤ 0x46 ∧ v = d - 0x37) ∨ (0x61 ≤ d ∧ d ≤ 0x66 ∧ v = d - 0x57)

/-- A hexadecimal number and its value. -/
inductive HexNumber : List Rune → Int → Prop
  | one {d : Rune} {v : Int} (h : HexDigit d v) : HexNumber [d] v
  | snoc {ds : List Rune} {n : Int} {d : Rune} {v : Int} (hn : HexNumber ds n) (h : HexDigit d v) :
      HexNumber (ds ++ [d]) (16 * n + v)

/-- An entry of a property file: its line, the range of code points, and the value of the property. -/
structure UcdEntry where
  line : List Rune
  lo : Rune
  hi : Rune
  cls : List Rune

/-- What comes after the fields that are read: nothing, or something after a space. -/
def Remainder (rest : List Rune) : Prop := ∀ r, rest.head? = some r → isSpace r = true

/-- The line of an entry starts with `lo..hi`, or with `lo` alone; then comes `after`. -/
def RangeThen (line : List Rune) (lo hi : Rune) (after : List Rune) : Prop :=
  lo ≤ 0x10FFFF ∧ hi ≤ 0x10FFFF ∧
  ((∃ ds es, HexNumber ds lo ∧ HexNumber es hi ∧ line = ds ++ [0x2E, 0x2E] ++ es ++ after) ∨
   (∃ ds, HexNumber ds lo ∧ hi = lo ∧ line = ds ++ after))

/-- An entry of EastAsianWidth.txt: `lo..hi;class`, or `lo;class`. -/
def WidthEntry (e : UcdEntry) : Prop :=
  ∃ rest, RangeThen e.line e.lo e.hi (0x3B :: (e.cls ++ rest)) ∧ e.cls ≠ [] ∧ (∀ r ∈ e.cls, isSpace r = false) ∧
    Remainder rest

/-- An entry of emoji-data.txt: `lo..hi` or `lo`, then a space and the property. -/
def EmojiEntry (e : UcdEntry) : Prop := ∃ rest, RangeThen e.line e.lo e.hi rest ∧ Remainder rest

/-- The lines of a file and its entries, in order. The other lines are empty or comments. -/
inductive UcdFile (entry : UcdEntry → Prop) : List (List Rune) → List UcdEntry → Prop
  | nil : UcdFile entry [] []
  | skip {l : List Rune} {ls : List (List Rune)} {es : List UcdEntry} (h : l = [] ∨ l.head? = some 0x23)
      (hs : UcdFile entry ls es) : UcdFile entry (l :: ls) es
  | entry {e : UcdEntry} {ls : List (List Rune)} {es : List UcdEntry} (h : entry e)
      (hs : UcdFile entry ls es) : UcdFile entry (e.line :: ls) (e :: es)

/-- The ranges are well-formed, in increasing order, and there is a gap between any two of them. -/
def SeparatedRanges (t : List (Rune × Rune)) : Prop :=
  (∀ iv ∈ t, iv.1 ≤ iv.2) ∧ t.Pairwise (fun a b => a.2 + 1 < b.1)

end Verif.Spec
