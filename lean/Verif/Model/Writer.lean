import Verif.Model.Utf8

/-! # Package `runesio`, writer (terminal/runes/runesio/writer.go) -/

namespace Verif.Model
open Verif.Go

/-- An `io.Writer` (embedded in the writer of runesio/writer.go:16-18) with state `σ`: what Write returns (count and error) and its new state, given the
bytes. -/
abbrev IOWriter (σ ε : Type) := σ → List Nat → (Int × Option ε) × σ

/-- The bytes of one rune, as computed by writeRune and by the body of the loop of writeRunes
(writer.go:40-50, 59-67). -/
def runeBytes (r : Rune) : List Nat :=
  if uint32 r < 0x80 then [uint32 r % 256] else encodeRune r

/-- `WriteRune` (writer.go:30-32, 38-53). -/
def writeRune (w : IOWriter σ ε) (st : σ) (r : Rune) : (Int × Option ε) × σ := w st (runeBytes r)

/-- The loop of writeRunes (writer.go:58-68): `buf` is what has been appended so far. -/
def writeRunesLoop : List Rune → List Nat → List Nat
  | [], buf => buf
  | r :: rs, buf => writeRunesLoop rs (buf ++ runeBytes r)

/-- `WriteRunes` (writer.go:34-36, 55-71). -/
def writeRunes (w : IOWriter σ ε) (st : σ) (rs : List Rune) : (Int × Option ε) × σ :=
  w st (writeRunesLoop rs [])

end Verif.Model
