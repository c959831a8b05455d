import Verif.Go.Basic

/-! # Specification: splitting with isolated separators -/

namespace Verif.Spec
open Verif.Go

/-- `p` is one single separator. -/
def IsSepPart (sep : Rune → Bool) (p : List Rune) : Prop := ∃ r, p = [r] ∧ sep r = true

/-- `p` is a non-empty run without separator. -/
def IsTextPart (sep : Rune → Bool) (p : List Rune) : Prop := p ≠ [] ∧ ∀ r ∈ p, sep r = false

/-- `parts` cuts a word at separators: every part is one separator or a non-empty
separator-free run, and two separator-free runs are never neighbours (runs are maximal). -/
structure IsSplit (sep : Rune → Bool) (parts : List (List Rune)) : Prop where
  kind : ∀ p ∈ parts, IsSepPart sep p ∨ IsTextPart sep p
  maximal : ∀ pre a b post, parts = pre ++ a :: b :: post → IsSepPart sep a ∨ IsSepPart sep b

end Verif.Spec
