import Verif.Spec.Width

/-! # Specification of UTF-8 (RFC 3629), by arithmetic on code points -/

namespace Verif.Spec
open Verif.Go

/-- The encoding of the scalar value `n`. -/
def utf8Nat (n : Nat) : List Nat :=
  if n < 0x80 then [n]
  else if n < 0x800 then [0xC0 + n / 64, 0x80 + n % 64]
  else if n < 0x10000 then [0xE0 + n / 4096, 0x80 + n / 64 % 64, 0x80 + n % 64]
  else [0xF0 + n / 262144, 0x80 + n / 4096 % 64, 0x80 + n / 64 % 64, 0x80 + n % 64]

/-- The encoding of a rune which is a scalar value. -/
def utf8 (r : Rune) : List Nat := utf8Nat r.toNat

/-- The encoding of a text. -/
def utf8s (rs : List Rune) : List Nat := rs.flatMap utf8

/-- A byte string read from left to right: runes, and bytes at which no encoded rune starts. -/
inductive Reads : List Nat → List (Option Rune) → Prop where
  | nil : Reads [] []
  | rune (r : Rune) {s : List Nat} {items : List (Option Rune)} :
      IsScalar r → Reads s items → Reads (utf8 r ++ s) (some r :: items)
  | invalid (b : Nat) {s : List Nat} {items : List (Option Rune)} :
      (¬ ∃ r t, IsScalar r ∧ b :: s = utf8 r ++ t) → Reads s items → Reads (b :: s) (none :: items)

end Verif.Spec
