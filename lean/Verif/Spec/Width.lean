import Verif.Model.Tables

/-! # Specification of display widths

Only the data (the Unicode range tables) is shared with the model. -/

namespace Verif.Spec
open Verif.Go Verif.Model

/-- The rune lies in one of the ranges. -/
def InRanges (t : List (Rune × Rune)) (r : Rune) : Prop := ∃ iv ∈ t, iv.1 ≤ r ∧ r ≤ iv.2

instance (t : List (Rune × Rune)) (r : Rune) : Decidable (InRanges t r) :=
  inferInstanceAs (Decidable (∃ iv ∈ t, iv.1 ≤ r ∧ r ≤ iv.2))

/-- The intervals are well-formed, in increasing order and do not overlap. -/
def SortedRanges (t : List (Rune × Rune)) : Prop :=
  (∀ iv ∈ t, iv.1 ≤ iv.2) ∧ t.Pairwise (fun a b => a.2 < b.1)

/-- A Unicode scalar value: in the code space, and not a surrogate. -/
def IsScalar (r : Rune) : Prop := 0 ≤ r ∧ r ≤ 0x10FFFF ∧ ¬ (0xD800 ≤ r ∧ r ≤ 0xDFFF)

instance (r : Rune) : Decidable (IsScalar r) :=
  inferInstanceAs (Decidable (0 ≤ r ∧ r ≤ 0x10FFFF ∧ ¬ (0xD800 ≤ r ∧ r ≤ 0xDFFF)))

/-- The number of cells of a rune, in the given mode. -/
def displayWidth (eastAsian wideEmoji : Bool) (ambiguousWidth : Int) (r : Rune) : Int :=
  if ¬ IsScalar r ∨ r = 0xFFFD then 0
  else if InRanges nonprint r ∨ InRanges combining r then 0
  else if r = 0x2E3B then 4
  else if r = 0x2E3A then 3
  else if InRanges doublewidth r then 2
  else if eastAsian = true ∧ InRanges ambiguous r then ambiguousWidth
  else if eastAsian = true ∧ wideEmoji = true ∧ InRanges emoji r then 2
  else 1

end Verif.Spec
