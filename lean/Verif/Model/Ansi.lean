import Verif.Go.Unicode
import Verif.Model.SliceReader

/-! # Package `ansi` (terminal/ansi/ansi.go)

All slices but one are windows of the backing array `mem` of the argument. The exception is the text when
`append` has to allocate. The argument is a non-nil slice; for a nil slice the code does the same as for
an empty one, but for nil instead of empty results. -/

namespace Verif.Model.Ansi
open Verif.Go Verif.Model

/-- ansi.go:11 -/
def esc : Rune := 0x1B
/-- ansi.go:12 -/
def openingBracket : Rune := 0x5B
/-- ansi.go:195 -/
def maxDigits : Nat := 3

/-- `kind` (ansi.go:23-29). -/
inductive Kind where
  | other | start | stop
deriving DecidableEq, Repr

/-- A slice: a window of the backing array, or newly allocated (by the `append` of terminal/ansi/ansi.go:137). -/
inductive Sl where
  | view (v : View)
  | fresh (l : List Rune)
deriving DecidableEq, Repr

/-- The runes of a slice (a field of StrippedToken, terminal/ansi/ansi.go:16-21). -/
def Sl.elems (mem : List Rune) : Sl → List Rune
  | .view v => v.elems mem
  | .fresh l => l

/-- `append(s, e...)` (Go language): the slice and the backing array after the call. The runes are written
in place if the capacity allows, otherwise all is copied to a new array. A new array may be appended to in
place again, which nothing else can see. -/
def appendSl (mem : List Rune) (s : Sl) (e : View) : Sl × List Rune :=
  match s with
  | .view v =>
    if v.off + v.len + e.len ≤ mem.length then
      (.view ⟨v.off, v.len + e.len⟩,
        mem.take (v.off + v.len) ++ e.elems mem ++ mem.drop (v.off + v.len + e.len))
    else (.fresh (v.elems mem ++ e.elems mem), mem)
  | .fresh l => (.fresh (l ++ e.elems mem), mem)

/-- `StrippedToken` (ansi.go:16-21); `none` is a nil slice. -/
structure StrippedToken where
  text : Option Sl
  start : Option View
  stop : Option View
  remainder : View
deriving DecidableEq, Repr

/-- The local variables of decodeANSISequence (ansi.go:197-201, 218, 241); `eof` stands for `err != nil`,
in which case `r` is RuneError. -/
structure Scan where
  rdr : SliceReader
  r : Rune
  eof : Bool
  hasZeroArg : Bool
  runeCount : Int
  nextStart : Int

/-- The loops on digits (ansi.go:242-258, and 264-276, which does not update hasZeroArg); the first
argument is the number of rounds left. -/
def digitsLoop (env : Env) (mem : List Rune) (first : Bool) : Nat → Scan → Res Scan
  | 0, s => .ok s
  | n + 1, s => do
    let (o, rdr) ← s.rdr.readRune mem
    match o with
    | none => return { s with rdr := rdr, r := runeError, eof := true }
    | some (r, _) =>
      if !env.isDigit r then return { s with rdr := rdr, r := r, eof := false }
      else
        digitsLoop env mem first n { s with
          rdr := rdr, r := r, eof := false,
          hasZeroArg := if first && r != 0x30 then false else s.hasZeroArg,
          runeCount := s.runeCount + 1, nextStart := s.nextStart + 1 }

/-- The loop on parameters (ansi.go:260-277). The first argument bounds the number of rounds: each one
reads at least one rune, or ends. -/
def paramsLoop (env : Env) (mem : List Rune) : Nat → Scan → Res Scan
  | 0, _ => .error .explicit
  | fuel + 1, s =>
    if s.r == 0x3B || s.r == 0x3A then do
      let s ← digitsLoop env mem false maxDigits
        { s with runeCount := s.runeCount + 1, nextStart := s.nextStart + 1 }
      paramsLoop env mem fuel s
    else .ok s

/-- The switch on the key code (ansi.go:281-295). -/
def keyKind (r : Rune) (hasZeroArg : Bool) : Kind :=
  if r == 0x73 || r == 0x68 then .start
  else if r == 0x75 || r == 0x6C then .stop
  else if r == 0x6D then (if hasZeroArg then .stop else .start)
  else .other

/-- decodeANSISequence after the introducer (ansi.go:241-303). The deferred function (ansi.go:205-215) is
executed at the return; the slice of the return is computed before it. -/
def decodeParams (env : Env) (mem : List Rune) (current nextStart : Int) (rdr : SliceReader) (r : Rune) :
    Res (Option View × Kind × SliceReader) := do
  let s ← digitsLoop env mem true maxDigits ⟨rdr, r, false, true, 2, nextStart⟩
  let s ← paramsLoop env mem (rdr.runes.len + 1) s
  let kind := keyKind s.r s.hasZeroArg
  let s := if !s.eof then { s with runeCount := s.runeCount + 1, nextStart := s.nextStart + 1 } else s
  let res ← s.rdr.slice mem current (current + s.runeCount)
  let rdr := if s.nextStart > 0 then (s.rdr.seek s.nextStart .start).2 else s.rdr
  return (some res, kind, rdr)

/-- decodeANSISequence once the current position is known (ansi.go:205-303). The deferred function
(ansi.go:205-215) is executed at each return. -/
def decodeIntroducer (env : Env) (mem : List Rune) (current : Int) (rdr : SliceReader) :
    Res (Option View × Kind × SliceReader) := do
  let (o, rdr) ← rdr.readRune mem
  match o with
  | none => return (none, .other, (rdr.seek current .start).2)
  | some (r, _) =>
    if r != esc then return (none, .other, (rdr.seek current .start).2)
    else
      let (o, rdr) ← rdr.readRune mem
      match o with
      | none => return (none, .other, (rdr.seek current .start).2)
      | some (r, _) =>
        if r != openingBracket then return (none, .other, (rdr.seek current .start).2)
        else
          let next := rdr.seek 0 .current
          decodeParams env mem current (next.1.getD (-1)) next.2 r

/-- `decodeANSISequence` (ansi.go:194-303): the sequence (`none` for nil), its kind, and the reader. -/
def decodeANSISequence (env : Env) (mem : List Rune) (rdr : SliceReader) :
    Res (Option View × Kind × SliceReader) :=
  let pos := rdr.seek 0 .current
  decodeIntroducer env mem (pos.1.getD (-1)) pos.2

/-- The loop of decodeText (ansi.go:310-335): the reader and runeCount at its end, whether it is left by
`break` or by `return`. The first argument bounds the number of rounds: each one reads at least one rune,
or ends. -/
def textLoop (mem : List Rune) : Nat → SliceReader → Int → Res (SliceReader × Int)
  | 0, _, _ => .error .explicit
  | fuel + 1, rdr, runeCount => do
    let (o, rdr) ← rdr.readRune mem
    match o with
    | none => return (rdr, runeCount)
    | some (r, _) =>
      if r == esc then
        let (o, rdr) ← rdr.readRune mem
        match o with
        | none => return (rdr, runeCount + 1)
        | some (r, _) =>
          if r == openingBracket then return ((rdr.seek (-2) .current).2, runeCount)
          else textLoop mem fuel rdr (runeCount + 1 + 1)
      else textLoop mem fuel rdr (runeCount + 1)

/-- decodeText once the current position is known (ansi.go:309-338). -/
def decodeTextFrom (mem : List Rune) (current : Int) (rdr : SliceReader) : Res (View × SliceReader) := do
  let (rdr, runeCount) ← textLoop mem (rdr.runes.len + 1) rdr 0
  let v ← rdr.slice mem current (current + runeCount)
  return (v, rdr)

/-- `decodeText` (ansi.go:305-338). -/
def decodeText (mem : List Rune) (rdr : SliceReader) : Res (View × SliceReader) :=
  let pos := rdr.seek 0 .current
  decodeTextFrom mem (pos.1.getD (-1)) pos.2

/-- `len` of a slice that may be nil (terminal/ansi/ansi.go:92, 131, 140, 152). -/
def optLen : Option View → Nat
  | none => 0
  | some v => v.len

/-- The loop on starting sequences (ansi.go:76-115): a result to be returned at once, or the reader and
groups[0] to go on with. The first argument bounds the number of rounds: it goes round at most twice. -/
def startLoop (env : Env) (mem : List Rune) :
    Nat → SliceReader → Option View → Res (StrippedToken ⊕ (SliceReader × Option View))
  | 0, _, _ => .error .explicit
  | fuel + 1, rdr, g0 => do
    let (startANSI, kind, rdr) ← decodeANSISequence env mem rdr
    match startANSI with
    | none => return .inr (rdr, g0)
    | some seq =>
      if kind = .other then
        return .inl ⟨some (.view seq), g0, none, ← rdr.rest mem⟩
      else if kind = .start ∧ optLen g0 = 0 then
        startLoop env mem fuel rdr (some seq)
      else if kind = .stop then
        return .inl ⟨none, g0, some seq, ← rdr.rest mem⟩
      else
        let rdr := if seq.len > 0 then (rdr.seek (-seq.len) .current).2 else rdr
        return .inl ⟨none, g0, none, ← rdr.rest mem⟩

/-- The loop on trailing sequences, and the final return (ansi.go:123-188): the result and the backing
array. The first argument bounds the number of rounds: each one consumes at least two runes, or ends. -/
def endLoop (env : Env) (g0 : Option View) :
    Nat → List Rune → SliceReader → Option Sl → Option View → Res (StrippedToken × List Rune)
  | 0, _, _, _, _ => .error .explicit
  | fuel + 1, mem, rdr, g1, g2 => do
    let (endANSI, kind, rdr) ← decodeANSISequence env mem rdr
    match endANSI with
    | none => return (⟨g1, g0, g2, ← rdr.rest mem⟩, mem)
    | some seq =>
      if kind = .other ∧ optLen g2 = 0 then
        match g1 with
        | none => endLoop env g0 fuel mem rdr (some (.view seq)) g2
        | some s =>
          let (s, mem) := appendSl mem s seq
          endLoop env g0 fuel mem rdr (some s) g2
      else if kind = .other ∧ optLen g2 > 0 then
        let rdr := (rdr.seek (-seq.len) .current).2
        return (⟨g1, g0, g2, ← rdr.rest mem⟩, mem)
      else if kind = .stop ∧ optLen g2 = 0 then
        endLoop env g0 fuel mem rdr g1 (some seq)
      else if kind = .start then
        let rdr := (rdr.seek (-seq.len) .current).2
        return (⟨g1, g0, g2, ← rdr.rest mem⟩, mem)
      else
        let rdr := if seq.len > 0 then (rdr.seek (-seq.len) .current).2 else rdr
        return (⟨g1, g0, g2, ← rdr.rest mem⟩, mem)

/-- `StripANSIFromRunes` (ansi.go:71-189): the result and the backing array. -/
def stripANSIFromRunes (env : Env) (mem : List Rune) (rns : View) : Res (StrippedToken × List Rune) := do
  let reader := newSliceReader rns
  match ← startLoop env mem 3 reader none with
  | .inl tok => return (tok, mem)
  | .inr (reader, g0) =>
    let (str, reader) ← decodeText mem reader
    endLoop env g0 (rns.len + 2) mem reader (some (.view str)) none

/-- The loop of StripToken (ansi.go:35-43). The first argument bounds the number of rounds: the remainder
gets shorter. -/
def stripTokenLoop (env : Env) : Nat → List Rune → View → Res (List StrippedToken × List Rune)
  | 0, _, _ => .error .explicit
  | fuel + 1, mem, token => do
    let (stripped, mem) ← stripANSIFromRunes env mem token
    if stripped.remainder.len = 0 then return ([stripped], mem)
    else
      let (rest, mem) ← stripTokenLoop env fuel mem stripped.remainder
      return (stripped :: rest, mem)

/-- `StripToken` (ansi.go:32-46): the results and the backing array. -/
def stripToken (env : Env) (mem : List Rune) (token : View) : Res (List StrippedToken × List Rune) :=
  stripTokenLoop env (token.len + 1) mem token

end Verif.Model.Ansi
