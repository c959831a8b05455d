import Verif.Model.Dictionary
import Verif.Model.Utf8

/-! # Reading a pattern file: `bufio.Scanner` over an embedded file, and `LoadPatterns` from its bytes

Bytes are natural numbers. The scanner is that of Go's library (`bufio/scan.go`), with the split function
`ScanLines` and the default limits; it is modelled with its buffer, because lines that do not fit in the
buffer end the scan. -/

namespace Verif.Model
open Verif.Go

/-- The errors that the scanner may hold: `io.EOF`, `bufio.ErrTooLong` (Go library; hyphenator/dictionary.go:106). -/
inductive ScanErr where
  | eof
  | tooLong
deriving DecidableEq, Repr

/-- `bufio.Scanner` (Go library) on an embedded file: `cap` is `len(s.buf)`, `start` is `s.start`,
`pending` is `s.buf[s.start:s.end]`, `rest` what has not been read from the file. `s.token` is returned by
`scan`. -/
structure Scanner where
  rest : List Nat
  cap : Nat
  start : Nat
  pending : List Nat
  err : Option ScanErr
deriving DecidableEq, Repr

/-- `bufio.MaxScanTokenSize` (Go library): 64 KiB, the greatest size of the buffer. -/
def maxTokenSize : Nat := 65536

/-- `bufio.NewScanner` (dictionary.go:107, Go library): no buffer yet. -/
def newScanner (data : List Nat) : Scanner := ⟨data, 0, 0, [], none⟩

/-- `dropCR` (Go library, `bufio/scan.go`): drops a final carriage return. -/
def dropCR (data : List Nat) : List Nat :=
  if data.getLast? = some 0x0D then data.dropLast else data

/-- `ScanLines` (Go library, `bufio/scan.go`): the number of bytes to advance, and the token, if any. -/
def scanLines (data : List Nat) (atEOF : Bool) : Nat × Option (List Nat) :=
  if atEOF && data.length == 0 then (0, none)
  else if 0x0A ∈ data then
    let i := data.idxOf 0x0A
    (i + 1, some (dropCR (data.take i)))
  else if atEOF then (data.length, some (dropCR data))
  else (0, none)

/-- The size of the buffer after it was doubled (Go library, `Scanner.Scan`). -/
def growCap (cap : Nat) : Nat := min (if cap * 2 = 0 then 4096 else cap * 2) maxTokenSize

/-- The part of a round of `Scanner.Scan` (Go library) that reads: moves the data to the beginning of the
buffer if useful, grows the buffer if it is full, then calls Read on the file. `none`: the buffer cannot
grow any more. Reading an embedded file (`embed.openFile.Read`) gives as many bytes as there is room for,
with io.EOF only when nothing is left. -/
def scanFill (s : Scanner) : Option Scanner :=
  let start := if s.start > 0 ∧ (s.start + s.pending.length = s.cap ∨ s.start > s.cap / 2) then 0 else s.start
  if start + s.pending.length = s.cap ∧ s.cap ≥ maxTokenSize then none
  else
    let grown := start + s.pending.length = s.cap
    let cap := if grown then growCap s.cap else s.cap
    let start := if grown then 0 else start
    if s.rest.length = 0 then some ⟨s.rest, cap, start, s.pending, some .eof⟩
    else
      let n := cap - (start + s.pending.length)
      some ⟨s.rest.drop n, cap, start, s.pending ++ s.rest.take n, s.err⟩

/-- The loop of `Scanner.Scan` (Go library): the token, or none when it returns false. The first argument
bounds the number of rounds: each one reads bytes, or meets the end of the file. -/
def scanLoop : Nat → Scanner → Option (List Nat) × Scanner
  | 0, s => (none, s)
  | fuel + 1, s =>
    let r := if s.pending.length > 0 ∨ s.err ≠ none then scanLines s.pending (s.err ≠ none) else (0, none)
    match r with
    | (n, some token) => (some token, { s with start := s.start + n, pending := s.pending.drop n })
    | (_, none) =>
      if s.err ≠ none then (none, { s with start := 0, pending := [] })
      else match scanFill s with
        | none => (none, { s with err := some .tooLong })
        | some s => scanLoop fuel s

/-- `Scanner.Scan` and `Scanner.Text` (Go library). -/
def scan (s : Scanner) : Option (List Nat) × Scanner := scanLoop (s.rest.length + 2) s

/-- The inner loop of LoadPatterns (dictionary.go:117-120), with the scanner. The first argument bounds the
number of lines. -/
def scanExceptions (env : Env) : Nat → Scanner → Dictionary → Dictionary × Scanner
  | 0, s, dict => (dict, s)
  | fuel + 1, s, dict =>
    match scan s with
    | (none, s) => (dict, s)
    | (some token, s) =>
      let (word, positions) := readException env (stringRunes token)
      scanExceptions env fuel s { dict with exceptions := (dict.exceptions.put word (some positions)).1 }

/-- The outer loop of LoadPatterns (dictionary.go:108-133), with the scanner: it goes on after the inner
loop. Lines are decoded once (`HasPrefix`, `Fields`, `ReplaceAll` are applied to runes instead of bytes,
which makes no difference for valid UTF-8). -/
def scanPatterns (env : Env) : Nat → Scanner → Dictionary → Res Dictionary
  | 0, _, dict => .ok dict
  | fuel + 1, s, dict =>
    match scan s with
    | (none, _) => .ok dict
    | (some token, s) =>
      let line := stringRunes token
      if hasPrefix line messageSection then
        scanPatterns env fuel s { dict with identifier := line.drop messageSection.length }
      else if hasPrefix line exceptionsSection then
        let (dict, s) := scanExceptions env (fuel + 1) s dict
        scanPatterns env fuel s dict
      else if isTeXComment line then
        scanPatterns env fuel s dict
      else do
        let patterns ← fieldsFunc line isSpace
        scanPatterns env fuel s { dict with patterns := putPatterns env patterns dict.patterns }

/-- `LoadPatterns` (dictionary.go:86-136) from the bytes of the embedded file. Every call of Scan that
returns true consumes a byte, so that the length of the file plus one bounds the number of lines. -/
def loadFile (env : Env) (defaultId : List Rune) (data : List Nat) : Res Dictionary :=
  scanPatterns env (data.length + 1) (newScanner data) ⟨Trie.empty, Trie.empty, defaultId⟩

end Verif.Model
