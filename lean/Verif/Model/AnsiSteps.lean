import Verif.Model.Ansi
import Verif.Model.Steps

/-! # Work of package `ansi`

The functions of terminal/ansi/ansi.go once more, with a count of the calls of ReadRune and of the runes copied by
`append`. `Proofs/AnsiSteps` proves that the results are those of `Model/Ansi`. -/

namespace Verif.Model.Ansi
open Verif.Go Verif.Model
open Verif.Model.LB (Counted)

/-- `ReadRune` (slice_reader.go:31-40) counts for one. -/
def readRuneC (mem : List Rune) (rdr : SliceReader) : Counted (Option (Rune × Int) × SliceReader) :=
  ⟨1, rdr.readRune mem⟩

/-- `digitsLoop` (ansi.go:242-258, 264-276), with its count. -/
def digitsLoopC (env : Env) (mem : List Rune) (first : Bool) : Nat → Scan → Counted Scan
  | 0, s => .of (.ok s)
  | n + 1, s => (readRuneC mem s.rdr).andThen fun x =>
    match x.1 with
    | none => .of (.ok { s with rdr := x.2, r := runeError, eof := true })
    | some (r, _) =>
      if !env.isDigit r then .of (.ok { s with rdr := x.2, r := r, eof := false })
      else
        digitsLoopC env mem first n { s with
          rdr := x.2, r := r, eof := false,
          hasZeroArg := if first && r != 0x30 then false else s.hasZeroArg,
          runeCount := s.runeCount + 1, nextStart := s.nextStart + 1 }

/-- `paramsLoop` (ansi.go:260-277), with its count. -/
def paramsLoopC (env : Env) (mem : List Rune) : Nat → Scan → Counted Scan
  | 0, _ => .of (.error .explicit)
  | fuel + 1, s =>
    if s.r == 0x3B || s.r == 0x3A then
      (digitsLoopC env mem false maxDigits
        { s with runeCount := s.runeCount + 1, nextStart := s.nextStart + 1 }).andThen fun s =>
      paramsLoopC env mem fuel s
    else .of (.ok s)

/-- The end of `decodeParams` (ansi.go:279-303, 205-215), which reads nothing. -/
def finishParams (mem : List Rune) (current : Int) (s : Scan) : Res (Option View × Kind × SliceReader) := do
  let kind := keyKind s.r s.hasZeroArg
  let s := if !s.eof then { s with runeCount := s.runeCount + 1, nextStart := s.nextStart + 1 } else s
  let res ← s.rdr.slice mem current (current + s.runeCount)
  let rdr := if s.nextStart > 0 then (s.rdr.seek s.nextStart .start).2 else s.rdr
  return (some res, kind, rdr)

/-- `decodeParams` (ansi.go:241-303), with its count. -/
def decodeParamsC (env : Env) (mem : List Rune) (current nextStart : Int) (rdr : SliceReader) (r : Rune) :
    Counted (Option View × Kind × SliceReader) :=
  (digitsLoopC env mem true maxDigits ⟨rdr, r, false, true, 2, nextStart⟩).andThen fun s =>
  (paramsLoopC env mem (rdr.runes.len + 1) s).andThen fun s =>
  .of (finishParams mem current s)

/-- `decodeIntroducer` (ansi.go:205-303), with its count. -/
def decodeIntroducerC (env : Env) (mem : List Rune) (current : Int) (rdr : SliceReader) :
    Counted (Option View × Kind × SliceReader) :=
  (readRuneC mem rdr).andThen fun x =>
  match x.1 with
  | none => .of (.ok (none, .other, (x.2.seek current .start).2))
  | some (r, _) =>
    if r != esc then .of (.ok (none, .other, (x.2.seek current .start).2))
    else
      (readRuneC mem x.2).andThen fun y =>
      match y.1 with
      | none => .of (.ok (none, .other, (y.2.seek current .start).2))
      | some (r, _) =>
        if r != openingBracket then .of (.ok (none, .other, (y.2.seek current .start).2))
        else
          let next := y.2.seek 0 .current
          decodeParamsC env mem current (next.1.getD (-1)) next.2 r

/-- `decodeANSISequence` (ansi.go:194-303), with its count. -/
def decodeANSISequenceC (env : Env) (mem : List Rune) (rdr : SliceReader) :
    Counted (Option View × Kind × SliceReader) :=
  let pos := rdr.seek 0 .current
  decodeIntroducerC env mem (pos.1.getD (-1)) pos.2

/-- `textLoop` (ansi.go:310-335), with its count. -/
def textLoopC (mem : List Rune) : Nat → SliceReader → Int → Counted (SliceReader × Int)
  | 0, _, _ => .of (.error .explicit)
  | fuel + 1, rdr, runeCount => (readRuneC mem rdr).andThen fun x =>
    match x.1 with
    | none => .of (.ok (x.2, runeCount))
    | some (r, _) =>
      if r == esc then
        (readRuneC mem x.2).andThen fun y =>
        match y.1 with
        | none => .of (.ok (y.2, runeCount + 1))
        | some (r, _) =>
          if r == openingBracket then .of (.ok ((y.2.seek (-2) .current).2, runeCount))
          else textLoopC mem fuel y.2 (runeCount + 1 + 1)
      else textLoopC mem fuel x.2 (runeCount + 1)

/-- `decodeTextFrom` (ansi.go:309-338), with its count. -/
def decodeTextFromC (mem : List Rune) (current : Int) (rdr : SliceReader) : Counted (View × SliceReader) :=
  (textLoopC mem (rdr.runes.len + 1) rdr 0).andThen fun x =>
  .of (do
    let v ← x.1.slice mem current (current + x.2)
    return (v, x.1))

/-- `decodeText` (ansi.go:305-338), with its count. -/
def decodeTextC (mem : List Rune) (rdr : SliceReader) : Counted (View × SliceReader) :=
  let pos := rdr.seek 0 .current
  decodeTextFromC mem (pos.1.getD (-1)) pos.2

/-- `startLoop` (ansi.go:76-115), with its count. -/
def startLoopC (env : Env) (mem : List Rune) :
    Nat → SliceReader → Option View → Counted (StrippedToken ⊕ (SliceReader × Option View))
  | 0, _, _ => .of (.error .explicit)
  | fuel + 1, rdr, g0 => (decodeANSISequenceC env mem rdr).andThen fun x =>
    match x.1 with
    | none => .of (.ok (.inr (x.2.2, g0)))
    | some seq =>
      if x.2.1 = .other then
        .of (do return .inl ⟨some (.view seq), g0, none, ← x.2.2.rest mem⟩)
      else if x.2.1 = .start ∧ optLen g0 = 0 then
        startLoopC env mem fuel x.2.2 (some seq)
      else if x.2.1 = .stop then
        .of (do return .inl ⟨none, g0, some seq, ← x.2.2.rest mem⟩)
      else
        .of (do
          let rdr := if seq.len > 0 then (x.2.2.seek (-seq.len) .current).2 else x.2.2
          return .inl ⟨none, g0, none, ← rdr.rest mem⟩)

/-- The runes copied by `append(s, e...)` (Go language), see `appendSl`: a slice that is not a window of the array is
taken to have no room left. -/
def appendCost (mem : List Rune) (s : Sl) (e : View) : Nat :=
  match s with
  | .view v => if v.off + v.len + e.len ≤ mem.length then e.len else v.len + e.len
  | .fresh l => l.length + e.len

/-- `endLoop` (ansi.go:123-188), with its count. -/
def endLoopC (env : Env) (g0 : Option View) :
    Nat → List Rune → SliceReader → Option Sl → Option View → Counted (StrippedToken × List Rune)
  | 0, _, _, _, _ => .of (.error .explicit)
  | fuel + 1, mem, rdr, g1, g2 => (decodeANSISequenceC env mem rdr).andThen fun x =>
    match x.1 with
    | none => .of (do return (⟨g1, g0, g2, ← x.2.2.rest mem⟩, mem))
    | some seq =>
      if x.2.1 = .other ∧ optLen g2 = 0 then
        match g1 with
        | none => endLoopC env g0 fuel mem x.2.2 (some (.view seq)) g2
        | some s =>
          let r := endLoopC env g0 fuel (appendSl mem s seq).2 x.2.2 (some (appendSl mem s seq).1) g2
          ⟨appendCost mem s seq + r.steps, r.res⟩
      else if x.2.1 = .other ∧ optLen g2 > 0 then
        .of (do
          let rdr := (x.2.2.seek (-seq.len) .current).2
          return (⟨g1, g0, g2, ← rdr.rest mem⟩, mem))
      else if x.2.1 = .stop ∧ optLen g2 = 0 then
        endLoopC env g0 fuel mem x.2.2 g1 (some seq)
      else if x.2.1 = .start then
        .of (do
          let rdr := (x.2.2.seek (-seq.len) .current).2
          return (⟨g1, g0, g2, ← rdr.rest mem⟩, mem))
      else
        .of (do
          let rdr := if seq.len > 0 then (x.2.2.seek (-seq.len) .current).2 else x.2.2
          return (⟨g1, g0, g2, ← rdr.rest mem⟩, mem))

/-- `stripANSIFromRunes` (ansi.go:71-189), with its count. -/
def stripANSIFromRunesC (env : Env) (mem : List Rune) (rns : View) : Counted (StrippedToken × List Rune) :=
  (startLoopC env mem 3 (newSliceReader rns) none).andThen fun x =>
  match x with
  | .inl tok => .of (.ok (tok, mem))
  | .inr (reader, g0) =>
    (decodeTextC mem reader).andThen fun y =>
    endLoopC env g0 (rns.len + 2) mem y.2 (some (.view y.1)) none

/-- `stripTokenLoop` (ansi.go:35-43), with its count. -/
def stripTokenLoopC (env : Env) : Nat → List Rune → View → Counted (List StrippedToken × List Rune)
  | 0, _, _ => .of (.error .explicit)
  | fuel + 1, mem, token => (stripANSIFromRunesC env mem token).andThen fun x =>
    if x.1.remainder.len = 0 then .of (.ok ([x.1], x.2))
    else
      (stripTokenLoopC env fuel x.2 x.1.remainder).andThen fun y => .of (.ok (x.1 :: y.1, y.2))

/-- `stripToken` (ansi.go:32-46), with its count. -/
def stripTokenC (env : Env) (mem : List Rune) (token : View) : Counted (List StrippedToken × List Rune) :=
  stripTokenLoopC env (token.len + 1) mem token

end Verif.Model.Ansi
