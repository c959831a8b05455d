import Verif.Go.Slice
import Verif.Model.Utf8

/-! # Package `runesio`, reader (terminal/runes/runesio/slice_reader.go)

Nothing here writes to the runes: `mem` is the backing array of the slice given to NewSliceReader. -/

namespace Verif.Model
open Verif.Go

/-- `SliceReader` (slice_reader.go:18-21). -/
structure SliceReader where
  offset : Int
  runes : View
deriving DecidableEq, Repr

/-- `NewSliceReader` (slice_reader.go:24-26). -/
def newSliceReader (runes : View) : SliceReader := ⟨0, runes⟩

/-- `ReadRune` (slice_reader.go:31-40): the result is `none` at the end (io.EOF, with RuneError and size
0), or the rune and its size; then the reader. -/
def SliceReader.readRune (mem : List Rune) (r : SliceReader) : Res (Option (Rune × Int) × SliceReader) :=
  if r.offset ≥ r.runes.len then .ok (none, r)
  else do
    let rn ← r.runes.get mem r.offset
    return (some (rn, runeLen rn), { r with offset := r.offset + 1 })

/-- `Runes` (slice_reader.go:43-45); `s[a:]` is `s[a:len(s)]`. -/
def SliceReader.rest (mem : List Rune) (r : SliceReader) : Res View :=
  r.runes.sub mem r.offset r.runes.len

/-- Addition of `int64` (slice_reader.go:56, 58). -/
def add64 (a b : Int) : Int := (a + b + 2 ^ 63) % 2 ^ 64 - 2 ^ 63

/-- The three values of `whence` (io.SeekStart, io.SeekCurrent, io.SeekEnd), and any other value
(slice_reader.go:52-59). -/
inductive Whence where
  | start | current | end_ | other
deriving DecidableEq

/-- `Seek` (slice_reader.go:50-68): `none` for ErrSeekOutOfRange (the position returned is then -1). -/
def SliceReader.seek (r : SliceReader) (offset : Int) (whence : Whence) : Option Int × SliceReader :=
  let pos : Int := match whence with
    | .start => offset
    | .end_ => add64 r.runes.len offset
    | .current => add64 r.offset offset
    | .other => r.offset
  if pos < 0 || pos > (r.runes.len : Int) then (none, r)
  else (some pos, { r with offset := pos })

/-- `Slice` (slice_reader.go:73-75). -/
def SliceReader.slice (mem : List Rune) (r : SliceReader) (startRune endRune : Int) : Res View :=
  r.runes.sub mem startRune endRune

/-- The loop of Slices (slice_reader.go:92-96). -/
def slicesLoop (mem : List Rune) (v : View) : List Int → Res (List View)
  | a :: b :: rest => do
    let g ← v.sub mem a b
    let gs ← slicesLoop mem v rest
    return g :: gs
  | _ => .ok []

/-- `Slices` (slice_reader.go:85-99). -/
def SliceReader.slices (mem : List Rune) (r : SliceReader) (slice : List Int) : Res (List View) :=
  if slice.length % 2 ≠ 0 then .error .explicit else slicesLoop mem r.runes slice

/-- The inner loop of SliceFromByteOffsets (slice_reader.go:120-131): startRune and endRune at its end. -/
def byteLoop (startByte endByte : Int) : List Rune → Int → Int → Int → Int × Int
  | [], startRune, endRune, _ => (startRune, endRune)
  | rn :: rest, startRune, endRune, offset =>
    let startRune := if offset < startByte then startRune + 1 else startRune
    let offset := offset + runeLen rn
    if offset > endByte then (startRune, endRune)
    else byteLoop startByte endByte rest startRune (endRune + 1) offset

/-- The loop of SliceFromByteOffsets (slice_reader.go:115-133). -/
def byteSlicesLoop (mem : List Rune) (v : View) : List Int → Res (List View)
  | a :: b :: rest => do
    let (startRune, endRune) := byteLoop a b (v.elems mem) 0 0 0
    let g ← v.sub mem startRune endRune
    let gs ← byteSlicesLoop mem v rest
    return g :: gs
  | _ => .ok []

/-- `SliceFromByteOffsets` (slice_reader.go:108-136). -/
def SliceReader.sliceFromByteOffsets (mem : List Rune) (r : SliceReader) (slice : List Int) :
    Res (List View) :=
  if slice.length % 2 ≠ 0 then .error .explicit else byteSlicesLoop mem r.runes slice

end Verif.Model
