import Verif.Spec.Ucd

/-! # Specification: Go source that declares tables of ranges of runes -/

namespace Verif.Spec
open Verif.Go

/-- White space. -/
def GoBlank (c : Rune) : Prop := c = 0x20 ∨ c = 0x09 ∨ c = 0x0A

/-- A letter of a name. -/
def GoLetter (c : Rune) : Prop := 0x61 ≤ c ∧ c ≤ 0x7A

/-- The elements of a composite literal of a slice of pairs, such as `{0x0300, 0x036F}, {0x0483, 0x0489},`, and
their values. -/
inductive GoPairs : List Rune → List (Rune × Rune) → Prop
  | nil {w : List Rune} (hw : ∀ c ∈ w, GoBlank c) : GoPairs w []
  | cons {w ds w' es s : List Rune} {lo hi : Rune} {t : List (Rune × Rune)} (hw : ∀ c ∈ w, GoBlank c)
      (hlo : HexNumber ds lo) (hw' : ∀ c ∈ w', GoBlank c) (hhi : HexNumber es hi) (hs : GoPairs s t) :
      GoPairs (w ++ runesOf "{0x" ++ ds ++ runesOf "," ++ w' ++ runesOf "0x" ++ es ++ runesOf "}," ++ s)
        ((lo, hi) :: t)

/-- A text of Go source, and the tables that it declares, in order: for each, its name and its ranges. -/
inductive GoSource : List Rune → List (List Rune × List (Rune × Rune)) → Prop
  | nil : GoSource [] []
  | blank {c : Rune} {s : List Rune} {ds : List (List Rune × List (Rune × Rune))} (hc : GoBlank c) (hs : GoSource s ds) :
      GoSource (c :: s) ds
  | comment {l s : List Rune} {ds : List (List Rune × List (Rune × Rune))} (hl : ∀ c ∈ l, c ≠ 0x0A)
      (hs : GoSource s ds) : GoSource (runesOf "//" ++ l ++ 0x0A :: s) ds
  | package {name s : List Rune} {ds : List (List Rune × List (Rune × Rune))} (hn : ∀ c ∈ name, GoLetter c)
      (hne : name ≠ []) (hs : GoSource s ds) : GoSource (runesOf "package " ++ name ++ 0x0A :: s) ds
  | table {name body s : List Rune} {t : List (Rune × Rune)} {ds : List (List Rune × List (Rune × Rune))}
      (hn : ∀ c ∈ name, GoLetter c) (hne : name ≠ []) (hb : GoPairs body t) (hs : GoSource s ds) :
      GoSource (runesOf "var " ++ name ++ runesOf " = table{" ++ body ++ runesOf "}\n" ++ s) ((name, t) :: ds)

end Verif.Spec
