import Verif.Go.Basic

/-! # Bytes of embedded files

The content of a file is kept as a list of pieces; a piece is a number of bytes and the bytes themselves, as
the digits of a number in base 256 (written in hexadecimal, a piece can be read from left to right, two
digits for each byte). -/

namespace Verif.Model

/-- The `k` last bytes of a number, before those of `acc`. Notation for the files embedded by hyphenator/embedded.go:9-10. -/
def unpack : Nat → Nat → List Nat → List Nat
  | 0, _, acc => acc
  | k + 1, n, acc => unpack k (n / 256) (n % 256 :: acc)

/-- The bytes of a piece of a file embedded by hyphenator/embedded.go:9-10. -/
def pieceBytes (c : Nat × Nat) : List Nat := unpack c.1 c.2 []

/-- The bytes of a file embedded by hyphenator/embedded.go:9-10. -/
def packedBytes (f : List (Nat × Nat)) : List Nat := f.flatMap pieceBytes

example : packedBytes [(3, 0x414243), (1, 0x0a)] = [0x41, 0x42, 0x43, 0x0A] := by decide

end Verif.Model
