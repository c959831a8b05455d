import Verif.Go.Basic

/-! # Specification: maximal separator-free runs -/

namespace Verif.Spec
open Verif.Go

/-- The range `[i, j)` of `l` is non-empty, has no separator, and cannot be extended. -/
structure IsMaxRun (sep : Rune → Bool) (l : List Rune) (i j : Nat) : Prop where
  nonempty : i < j
  inside : j ≤ l.length
  noSep : ∀ k, i ≤ k → k < j → ∃ r, l[k]? = some r ∧ sep r = false
  leftEdge : i = 0 ∨ ∃ r, l[i - 1]? = some r ∧ sep r = true
  rightEdge : j = l.length ∨ ∃ r, l[j]? = some r ∧ sep r = true

/-- The runes of the range `[i, j)`. -/
def range (l : List Rune) (p : Nat × Nat) : List Rune := (l.drop p.1).take (p.2 - p.1)

end Verif.Spec
