import Verif.Spec.Reader

/-! # Specification of byte ranges of an encoded text

Offsets are any integers, negative, beyond the end of the text, within a rune or in the wrong order. -/

namespace Verif.Spec
open Verif.Go

/-- The runes of a text, which starts at the byte `off`, whose bytes all lie from `a` on and before `b`. -/
def wholeRunes (a b : Int) : Int → List Rune → List Rune
  | _, [] => []
  | off, r :: rest =>
    (if a ≤ off ∧ off + (utf8 r).length ≤ b then [r] else []) ++ wholeRunes a b (off + (utf8 r).length) rest

/-- Some rune of the text starts before `a` and ends after `b`: the offsets lie within a rune, or are in the wrong
order. -/
def Straddles (text : List Rune) (a b : Int) : Prop :=
  ∃ x r y, text = x ++ r :: y ∧ ((utf8s x).length : Int) < a ∧ b < (utf8s (x ++ [r])).length

end Verif.Spec
